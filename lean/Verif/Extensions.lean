import Verif.Ranges
/-!
# Model of `sync3/extensions/extensions.go` and `account_data.go`

One extension of a request; the extensions do not interact.  A nil pointer or slice is `none`.
-/
namespace Verif.Extensions

/-- `Core`, `extensions.go:60-66`. -/
structure Core where
  enabled : Option Bool := none
  lists : Option (List String) := none
  rooms : Option (List String) := none
  deriving DecidableEq

/-- `InterpretAsInitial`, `extensions.go:84-93`. -/
def interpretAsInitial (r : Core) : Core :=
  { r with
    lists := match r.lists with | none => some ["*"] | some l => some l
    rooms := match r.rooms with | none => some ["*"] | some l => some l }

/-- `Core.ApplyDelta`, `extensions.go:95-112`. -/
def coreDelta (r next : Core) : Core :=
  { enabled := match next.enabled with | some e => some e | none => r.enabled
    lists := match next.lists with | some l => some l | none => r.lists
    rooms := match next.rooms with | some l => some l | none => r.rooms }

/-- One field of `Request.ApplyDelta`, `extensions.go:201-227`. -/
def applyDelta (curr next : Option Core) : Option Core :=
  match next, curr with
  | none, c => c
  | some n, none => some (interpretAsInitial n)
  | some n, some c => some (coreDelta c n)

/-- The extension's settings after a sequence of requests. -/
def settings (reqs : List (Option Core)) : Option Core := reqs.foldl applyDelta none

/-- `EnabledExtensions` for one field, `extensions.go:150-156,185-197`. -/
def isEnabled (c : Option Core) : Bool :=
  match c with
  | none => false
  | some c => c.enabled.getD false

/-- `Context`, `extensions.go:279-303`: visible rooms with their lists, all lists, all subscriptions. -/
structure Ctx where
  roomToLists : String → List String
  allLists : List String
  allSubs : List String

/-- `len(sel) > 0 && sel[0] == "*"` replaces the selector by all. -/
def monitor (sel : Option (List String)) (all : List String) : List String :=
  match sel with
  | some (x :: xs) => if x = "*" then all else x :: xs
  | _ => []

/-- `RoomInScope`, `extensions.go:117-148`. -/
def roomInScope (r : Core) (room : String) (c : Ctx) : Bool :=
  if (monitor r.rooms c.allSubs).any (· = room) then true
  else (c.roomToLists room).any fun l => (monitor r.lists c.allLists).any (l = ·)

/-! ## Visible rooms -/

/-- A list of the connection: its name, rooms, and request. -/
structure LView where
  key : String
  rooms : List String
  ranges : Ranges.Ranges
  getAll : Bool

/-- The rooms of the windows of one list, `sync3/lists.go:203-222`; `none` is a panic. -/
def visible (l : LView) : Option (List String) :=
  if l.getAll then some l.rooms else (Ranges.sliceInto l.rooms l.ranges).map (·.flatten)

/-- `ListsByVisibleRoomIDs`, `sync3/lists.go:199-225`, as the list names of a room (the order of the lists is
arbitrary in Go).  Lists of the request that do not exist are not modelled (nil dereference). -/
def listsOf : List LView → Option (String → List String)
  | [] => some fun _ => []
  | l :: ls =>
    match visible l, listsOf ls with
    | some v, some f => some fun r => (v.filter (· = r)).map (fun _ => l.key) ++ f r
    | _, _ => none

/-! ## Account data -/

/-- A row of `syncv3_account_data`; the empty room is the global one (`AccountDataGlobalRoom`). -/
structure Row where
  user : String
  room : String
  type : String
  data : String
  deriving DecidableEq

/-- `SelectMany`, `state/account_data.go:80-89`. -/
def selectMany (db : List Row) (user : String) (rooms : List String) : List Row :=
  if rooms.length = 0 then db.filter fun r => r.user = user && r.room = ""
  else db.filter fun r => r.user = user && decide (r.room ∈ rooms)

/-- `AccountDataResponse`: rooms map, global messages, `loadedRooms`. -/
structure ADRes where
  rooms : String → List Row := fun _ => []
  global : List Row := []
  loaded : String → Bool := fun _ => false

/-- The ids passed to the query, `account_data.go:95-102`: the slice has one place per room of the response;
places not filled stay empty strings. -/
def queryRooms (inScope : String → Bool) (rooms : List String) : List String :=
  rooms.filter inScope ++ List.replicate (rooms.length - (rooms.filter inScope).length) ""

/-- `ProcessInitial`, `account_data.go:94-135`; `rooms` are the rooms of the response. -/
def processInitial (db : List Row) (user : String) (inScope : String → Bool) (rooms : List String) (isInitial : Bool) : ADRes :=
  let ids := queryRooms inScope rooms
  let rows := if ids.length > 0 then selectMany db user ids else []
  { rooms := fun r => rows.filter (·.room = r)
    loaded := fun r => rows.any (·.room = r)
    global := if isInitial then selectMany db user [] else [] }

/-- Updates seen by the extension. -/
inductive Update
  | global (rows : List Row)
  | roomData (room : String) (rows : List Row)
  /-- any other update of a room -/
  | room (room : String)

/-- `AppendLive`, `account_data.go:44-92`; `inTimeline` tells which rooms are in the response.  A database
error is not modelled. -/
def appendLive (db : List Row) (user : String) (inScope inTimeline : String → Bool) (res : ADRes) : Update → ADRes
  | .global rows => { res with global := res.global ++ rows }
  | .roomData r rows =>
    if inScope r then
      { res with rooms := fun x => if x = r then res.rooms x ++ rows else res.rooms x
                 loaded := fun x => if x = r then true else res.loaded x }
    else res
  | .room r =>
    if !inScope r then res
    else if !inTimeline r then res
    else if res.loaded r then res
    else
      let rows := selectMany db user [r]
      if rows.length > 0 then
        { res with rooms := fun x => if x = r then res.rooms x ++ rows else res.rooms x
                   loaded := fun x => if x = r then true else res.loaded x }
      else res

end Verif.Extensions
