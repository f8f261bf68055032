/-!
# Model of the timestamp sent with a room

`timestamp` of a room in responses, by which clients sort: `getInitialRoomData` (`sync3/handler/connstate.go:645-676`) and
`processLiveUpdate` (`sync3/handler/connstate_live.go:197-219`), from what the caches know: `OnNewEvent`
(`sync3/caches/global.go:369-377`), `MetadataForAllRooms` (`state/storage.go:219-242`), the join timings
(`state/storage.go:1161-1189`) put into the user's cache when it is made (`sync3/caches/user.go:303-316`) and into the connection
when it is loaded (`sync3/handler/connstate.go:109-171`).

For one room, one user and one connection. Simplified: positions and timestamps are naturals, 0 is the zero value; an update
carries the metadata as it is after its event (`newRoomUpdate`), so the event and its update are one step; an invite is not
modelled. `seen` is not in the code: the events the connection's metadata is of.
-/
namespace Verif.Stamp

/-- An event of the room; `mem` is set if it is a membership of the user: joined, or left or banned. -/
structure Ev where
  type : String
  ts : Nat
  nid : Nat
  mem : Option Bool
  deriving DecidableEq

/-- `internal.EventMetadata`: position and timestamp. -/
abbrev Timing := Nat × Nat

/-- The timing of the user's join, if joined, `state/storage.go:1161-1189`. -/
def joinStep (j : Option Timing) (e : Ev) : Option Timing :=
  match e.mem with
  | some true => match j with
    | none => some (e.nid, e.ts)
    | some t => some t
  | some false => none
  | none => j

def joinOf (log : List Ev) : Option Timing := log.foldl joinStep none

/-- What the caches have for the room: `LastMessageTimestamp`, `LatestEventsByType` and `JoinTiming`. -/
structure Meta where
  last : Nat := 0
  byType : String → Timing := fun _ => (0, 0)
  join : Timing := (0, 0)

structure St where
  log : List Ev := []
  /-- the global cache -/
  last : Nat := 0
  byType : String → Timing := fun _ => (0, 0)
  /-- `JoinTiming` in the user's cache -/
  cacheJoin : Timing := (0, 0)
  /-- `s.lists.allRooms[roomID]` -/
  conn : Option Meta := none
  seen : List Ev := []
  /-- `response.Rooms[roomID].Timestamp`, if the room is in the response -/
  resp : Option Nat := none

/-- `sync3/caches/global.go:369-377` -/
def cacheEvent (s : St) (e : Ev) : St :=
  { s with log := s.log ++ [e], last := e.ts, byType := fun t => if t = e.type then (e.nid, e.ts) else s.byType t }

/-- The latest event of a type. -/
def latest (log : List Ev) (t : String) : Timing :=
  match (log.filter fun e => e.type = t).getLast? with
  | some e => (e.nid, e.ts)
  | none => (0, 0)

/-- `state/storage.go:219-242`: the latest events of each type, and the largest of their timestamps. -/
def startup (s : St) : St :=
  { s with last := (s.log.map fun e => (latest s.log e.type).2).foldl max 0, byType := latest s.log }

/-- The largest timestamp of the types, not below `v`: the loops of `sync3/handler/connstate.go:649-658` and
`sync3/handler/connstate_live.go:205-210`. -/
def maxOf (m : Meta) (v : Nat) (bump : List String) : Nat :=
  bump.foldl (fun v t => if (m.byType t).2 > v then (m.byType t).2 else v) v

/-- `sync3/handler/connstate.go:645-676` -/
def initTs (bump : List String) (m : Meta) : Nat :=
  let maxTs := maxOf m 0 bump
  if maxTs = 0 ∨ maxTs < m.join.2 then (if bump.length = 0 then m.last else m.join.2) else maxTs

/-- `sync3/handler/connstate_live.go:197-219`; `r` is the timestamp of the room in the response, or 0. -/
def liveTs (bump : List String) (m : Meta) (r : Nat) : Nat :=
  let a := maxOf m r bump
  let b := if a = 0 ∧ bump.length = 0 then m.last else a
  if b < m.join.2 then m.join.2 else b

inductive Op
  /-- an event the connection gets no update for -/
  | store (e : Ev)
  | startup
  /-- the user's cache is made -/
  | register
  /-- the connection is loaded -/
  | load
  /-- an event and its update; whether the room is built anew, and whether the update is relevant to a list or subscription -/
  | live (e : Ev) (built relevant : Bool)
  /-- the room is built for another reason -/
  | build
  | respond

/-- The bump event types are those of all lists of the request together. -/
def step (bump : List String) (s : St) : Op → St
  | .store e => cacheEvent s e
  | .startup => startup s
  | .register => { s with cacheJoin := (joinOf s.log).getD (0, 0) }
  | .load =>
    match joinOf s.log with
    | none => s
    | some j => { s with conn := some ⟨s.last, s.byType, j⟩, seen := s.log }
  | .live e built relevant =>
    let s := cacheEvent s e
    let m : Meta := ⟨s.last, s.byType, s.cacheJoin⟩
    let s := { s with conn := some m, seen := s.log }
    let r := if built then some (initTs bump m) else s.resp
    { s with resp := if relevant then some (liveTs bump m (r.getD 0)) else r }
  | .build =>
    match s.conn with
    | none => s
    | some m => { s with resp := some (initTs bump m) }
  | .respond => { s with resp := none }

end Verif.Stamp
