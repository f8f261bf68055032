import Verif.E2EE
/-!
# Model of the migrations that move or delete data

`state/migrations`: `20240517104423_device_list_table.go`, `20230822180807_bogus_snapshot_cleanup.go`,
`20231108122539_clear_stuck_invites.go` and `20231019153023_cleanup_dead_invites.sql`.

Tables are lists of rows; each migration is one transaction, `none` if it fails and is rolled back. Go maps are association lists.
Simplified: CBOR is lossless; inserting in chunks is inserting all rows (C47). The migrations that only change the encoding
of the device data are in `Reencode.lean`.
-/
namespace Verif.Migrations

/-! ## The device list table -/

/-- `OldDeviceData`, `20240517104423_device_list_table.go:17-40`. -/
structure Old where
  otk : Option E2EE.Map := none
  fallback : Option (List String) := none
  new : List (String × Nat) := []
  sent : List (String × Nat) := []
  bits : Nat := 0
  deriving DecidableEq

/-- A row of `syncv3_device_data`. -/
structure DevRow where
  user : String
  device : String
  data : Old
  deriving DecidableEq

/-- A row of `syncv3_device_list_updates`. -/
structure ListRow where
  user : String
  device : String
  target : String
  state : Nat
  bucket : Nat
  deriving DecidableEq

structure Devices where
  devs : List DevRow := []
  lists : List ListRow := []
  deriving DecidableEq

/-- `BucketNew` and `BucketSent`, `state/device_list_table.go:12-15`. -/
def bucketNew : Nat := 1
def bucketSent : Nat := 2

/-- The rows for one device, `20240517104423_device_list_table.go:107-124`. -/
def rowsOf (r : DevRow) : List ListRow :=
  r.data.new.map (fun p => ⟨r.user, r.device, p.1, p.2, bucketNew⟩) ++
    r.data.sent.map (fun p => ⟨r.user, r.device, p.1, p.2, bucketSent⟩)

/-- The columns of the unique index. -/
def ListRow.key (r : ListRow) : String × String × String × Nat := (r.user, r.device, r.target, r.bucket)

/-- `INSERT` without `ON CONFLICT`: fails if a row has the same key, lines 128-151. -/
def insertAll (lists : List ListRow) : List ListRow → Option (List ListRow)
  | [] => some lists
  | r :: rs => if r.key ∈ lists.map ListRow.key then none else insertAll (lists ++ [r]) rs

/-- The row afterwards, lines 125-127 and 153-165. -/
def upRow (r : DevRow) : DevRow :=
  if (rowsOf r).isEmpty then r else { r with data := { r.data with new := [], sent := [] } }

/-- The loop over the cursor, lines 81-166. -/
def moveAll (lists : List ListRow) : List DevRow → Option (List ListRow)
  | [] => some lists
  | r :: rs => (insertAll lists (rowsOf r)).bind fun l => moveAll l rs

/-- `upDeviceListTable`, lines 46-168. -/
def up (db : Devices) : Option Devices := (moveAll db.lists db.devs).map fun l => ⟨db.devs.map upRow, l⟩

/-- `downDeviceListTable`, lines 170-175: drops the table. -/
def down (db : Devices) : Devices := { db with lists := [] }

/-! ## Rooms without a create event -/

structure RoomRow where
  room : String
  snapshot : Nat
  deriving DecidableEq

structure EventRow where
  nid : Nat
  room : String
  type : String
  /-- `none` is NULL -/
  stateKey : Option String
  membership : Option String
  deriving DecidableEq

structure SnapRow where
  id : Nat
  room : String
  members : List Nat
  deriving DecidableEq

structure Rooms where
  rooms : List RoomRow := []
  events : List EventRow := []
  snaps : List SnapRow := []
  deriving DecidableEq

/-- `getBogusRooms`, `20230822180807_bogus_snapshot_cleanup.go:62-90`. -/
def bogus (db : Rooms) : List String :=
  (db.rooms.filter fun r => !(db.events.any fun e => e.type == "m.room.create" && e.stateKey == some "" && e.room == r.room)).map (·.room)

/-- `upBogusSnapshotCleanup`, lines 22-43. -/
def upBogus (db : Rooms) : Rooms :=
  { snaps := db.snaps.filter fun s => !(bogus db).contains s.room
    events := db.events.filter fun e => !(bogus db).contains e.room
    rooms := db.rooms.filter fun r => !(bogus db).contains r.room }

/-! ## Invites -/

abbrev Invite := String × String

/-- A row of `syncv3_invites` with this user and room is selected by the query of
`20231019153023_cleanup_dead_invites.sql:3-14`. -/
def dead (db : Rooms) (user room : String) : Bool :=
  db.rooms.any fun r => r.room == room && db.snaps.any fun s => s.id == r.snapshot &&
    db.events.any fun e => s.members.contains e.nid && e.stateKey == some user &&
      match e.membership with
      | none => false
      | some m => !(m == "invite" || m == "_invite")

/-- The migration, lines 15-16. -/
def upDead (db : Rooms) (invites : List Invite) : List Invite := invites.filter fun i => !dead db i.1 i.2

structure Users where
  unread : List (String × String) := []
  /-- user, device and since token -/
  devices : List (String × String × String) := []
  invites : List Invite := []
  deriving DecidableEq

/-- The users selected by `20231108122539_clear_stuck_invites.go:31-37`. -/
def stuck (rooms : List RoomRow) (s : Users) : List String :=
  (s.unread.filter fun p => !(rooms.any fun r => r.room == p.2)).map (·.1)

/-- `upClearStuckInvites`, lines 24-78. -/
def upStuck (rooms : List RoomRow) (s : Users) : Users :=
  { s with
    devices := s.devices.map fun d => if (stuck rooms s).contains d.1 then (d.1, d.2.1, "") else d
    invites := s.invites.filter fun i => !(stuck rooms s).contains i.1 }

end Verif.Migrations
