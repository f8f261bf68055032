import Verif.MemberColumn
import Verif.RoomsTable
import Verif.RoomName
import Verif.Circular
/-!
# Model of the snapshot of all rooms taken at start-up (`GlobalSnapshot`, `state/storage.go:180-205`)

Unlike the models of single rooms (`Metadata`, `Heroes`, `Recency`), this one has the queries as they are: each returns the rows of all
rooms at once, and the loops sort them out by room. `AllJoinedMembers` (`storage.go:996-1073`) makes the members and heroes,
`MetadataForAllRooms` (`storage.go:208-305`) the rest.

Simplified: of the JSON of an event only the fields read are kept; loops over a map whose turns each write only the entry of their
own key are written as a function of the key. The results of queries without `ORDER BY` and the loop over the heroes come in an arbitrary
order (`Orders`).
-/
namespace Verif.StartUp

open Verif

/-- A row of `syncv3_events`: the number, room, type and state key of the event ("" if there is none), the membership column, and of its JSON
`origin_server_ts`, `content.name`, `content.url`, `content.alias`, `content.displayname` and `content.avatar_url`. -/
structure Row where
  nid : Nat
  room : String
  type : String
  key : String := ""
  col : String := ""
  ts : Nat := 0
  name : String := ""
  url : String := ""
  alias : String := ""
  dn : String := ""
  av : String := ""
  deriving DecidableEq

/-- A row of `syncv3_rooms` with the two columns of its current snapshot. -/
structure Room where
  info : RoomsTable.Row
  evs : List Nat := []
  members : List Nat := []
  deriving DecidableEq

/-- A row of `syncv3_spaces`; `isChild` if the relation is `RelationMSpaceChild`. -/
structure Kid where
  parent : String
  child : String
  isChild : Bool
  deriving DecidableEq

structure DB where
  /-- in the order of `event_nid` -/
  rows : List Row := []
  rooms : List (String × Room) := []
  kids : List Kid := []

/-- The part of `RoomMetadata` made here, `internal/roomname.go:30-53`. -/
structure Meta where
  joinCount : Nat := 0
  inviteCount : Nat := 0
  heroes : List RoomName.Hero := []
  lastTs : Nat := 0
  byType : List (String × (Nat × Nat)) := []
  name : String := ""
  alias : String := ""
  avatar : String := ""
  enc : Bool := false
  upgraded : Option String := none
  pred : Option String := none
  type : Option String := none
  children : List String := []
  deriving DecidableEq

/-! ## `AllJoinedMembers` -/

/-- The query `storage.go:1001-1004` on the table made by `PrepareSnapshot`, `storage.go:162-175`. -/
def memberRows (db : DB) : List Row :=
  db.rows.filter fun r => decide (r.nid ∈ db.rooms.flatMap (·.2.members)) && MemberColumn.selected r.col

/-- The maps of the loop. -/
structure Loaded where
  joined : List (String × List String) := []
  invites : List (String × Nat) := []
  heroes : List (String × Circular.Buf Nat) := []

/-- One turn, `storage.go:1016-1041`; `none` is a panic. -/
def turn (l : Loaded) (r : Row) : Option Loaded :=
  let h := (Assoc.get l.heroes r.room).getD { max := 6 }
  if r.col = "join" ∨ r.col = "_join" then
    (h.append r.nid).map fun h =>
      { l with joined := Assoc.set l.joined r.room ((Assoc.get l.joined r.room).getD [] ++ [r.key]), heroes := Assoc.set l.heroes r.room h }
  else if r.col = "invite" ∨ r.col = "_invite" then
    (h.append r.nid).map fun h =>
      { l with invites := Assoc.set l.invites r.room ((Assoc.get l.invites r.room).getD 0 + 1), heroes := Assoc.set l.heroes r.room h }
  else some { l with heroes := Assoc.set l.heroes r.room h }

def loop (rows : List Row) : Option Loaded := rows.foldl (fun l r => l.bind (turn · r)) (some {})

/-- `SelectByNIDs`, `event_table.go:202-228`; `none` is an error. -/
def select (db : DB) (nids : List Nat) : Option (List Row) :=
  let rs := db.rows.filter fun r => decide (r.nid ∈ nids)
  if 0 < nids.length ∧ nids.length ≠ rs.length then none else some rs

/-- The loop `storage.go:1052-1063`, backwards. -/
def heroMap (rs : List Row) : List (String × List RoomName.Hero) :=
  rs.reverse.foldl (fun m r => Assoc.set m r.room ((Assoc.get m r.room).getD [] ++ [⟨r.key, r.dn, r.av⟩])) []

/-- The loop `storage.go:1065-1071`. -/
def counted (l : Loaded) (hs : List (String × List RoomName.Hero)) (r : String) : Option Meta :=
  (Assoc.get l.joined r).map fun us =>
    { joinCount := us.length, inviteCount := (Assoc.get l.invites r).getD 0, heroes := (Assoc.get hs r).getD [] }

/-! ## `MetadataForAllRooms` -/

def upd (res : String → Option Meta) (r : String) (m : Meta) : String → Option Meta := fun q => if q = r then some m else res q

/-- `selectLatestEventByTypeInAllRooms`, `event_table.go:442-480`: the last of each type in each room of the rooms table. -/
def latestRows (db : DB) : List Row :=
  db.rows.filter fun r => (Assoc.get db.rooms r.room).isSome &&
    db.rows.all fun x => !(decide (x.room = r.room) && decide (x.type = r.type)) || decide (x.nid ≤ r.nid)

/-- One turn, `storage.go:222-244`. -/
def latestTurn (res : String → Option Meta) (e : Row) : String → Option Meta :=
  let m := (res e.room).getD {}
  upd res e.room { m with lastTs := if m.lastTs < e.ts then e.ts else m.lastTs, byType := Assoc.set m.byType e.type (e.nid, e.ts) }

/-- `currentNotMembershipStateEventsInAllRooms`, `storage.go:436-462`. -/
def stateRows (db : DB) : List Row :=
  db.rows.filter fun r => decide (r.type ∈ ["m.room.name", "m.room.canonical_alias", "m.room.avatar"]) &&
    decide (r.nid ∈ db.rooms.flatMap (·.2.evs))

/-- One turn of the inner loop, `storage.go:255-263`. -/
def stateTurn (m : Meta) (e : Row) : Meta :=
  if e.type = "m.room.name" ∧ e.key = "" then { m with name := e.name }
  else if e.type = "m.room.canonical_alias" ∧ e.key = "" then { m with alias := e.alias }
  else if e.type = "m.room.avatar" ∧ e.key = "" then { m with avatar := e.url }
  else m

/-- The loop `storage.go:253-265`, over the rows sorted by room in the order they came. -/
def stateAll (rows : List Row) (res : String → Option Meta) (r : String) : Option Meta :=
  let g := rows.filter fun e => decide (e.room = r)
  if g = [] then res r else some (g.foldl stateTurn ((res r).getD {}))

/-- One turn, `storage.go:272-282`. -/
def infoTurn (res : String → Option Meta) (x : String × Room) : String → Option Meta :=
  upd res x.1 { (res x.1).getD {} with
    enc := x.2.info.enc, upgraded := x.2.info.upgraded, pred := x.2.info.pred, type := x.2.info.type }

/-- `spaceRoomIDs`, `storage.go:279-281`. -/
def spaces (infos : List (String × Room)) : List String :=
  (infos.filter fun x => decide (x.2.info.type = some "m.space")).map (·.1)

/-- `SelectChildren`, `spaces_table.go:108-120`, and the loop `storage.go:289-304`. -/
def kidsAll (kids : List Kid) (spaces : List String) (res : String → Option Meta) (r : String) : Option Meta :=
  let g := kids.filter fun k => decide (k.parent = r) && decide (r ∈ spaces)
  if g = [] then res r else (res r).map fun m => { m with children := (g.filter (·.isChild)).map (·.child) }

/-- The orders in which the rows come, and that of the loop over `heroNIDs`, `storage.go:1045-1047`. -/
structure Orders where
  heroes : List (String × Circular.Buf Nat)
  latest : List Row
  state : List Row
  infos : List (String × Room)
  kids : List Kid

/-- `MetadataForAllRooms`, `storage.go:208-305`. -/
def metadataForAllRooms (o : Orders) (res : String → Option Meta) : String → Option Meta :=
  kidsAll o.kids (spaces o.infos) (o.infos.foldl infoTurn (stateAll o.state (o.latest.foldl latestTurn res)))

/-- `GlobalSnapshot`, `storage.go:180-205`: the joined members of each room, and the metadata. -/
def globalSnapshot (db : DB) (o : Orders) : Option (List (String × List String) × (String → Option Meta)) :=
  (loop (memberRows db)).bind fun l =>
    (select db (o.heroes.flatMap (·.2.vals))).map fun hs => (l.joined, metadataForAllRooms o (counted l (heroMap hs)))

end Verif.StartUp
