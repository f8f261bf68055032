import Verif.Assoc
/-!
# Model of the recency of a room in the global cache, live and after a restart

While the proxy runs, each dispatched event sets `LastMessageTimestamp` and the entry of its type in `LatestEventsByType`
(`GlobalCache.OnNewEvent`, `sync3/caches/global.go:368-377`). At start-up both are loaded from the events table
(`MetadataForAllRooms`, `state/storage.go:208-244`, with `selectLatestEventByTypeInAllRooms`, `state/event_table.go:442-480`). New connections
order their rooms by them (`ConnState.load`, `sync3/handler/connstate.go:124-148`).

Simplified: one room, as rooms do not mix in any of this; new events only (C38, C39); the events of one state block have different type or
state key; each notification is handled before the next thing happens.
-/
namespace Verif.Recency

/-- The type and `origin_server_ts` of an event. -/
structure Ev where
  type : String
  ts : Nat
  deriving DecidableEq

/-- A row of `syncv3_events`. -/
structure Row where
  nid : Nat
  ev : Ev
  /-- stored from a state block -/
  isState : Bool
  deriving DecidableEq

/-- The two fields of `RoomMetadata`, `internal/roomname.go:38-44`; the map has NID and timestamp by type. -/
structure Meta where
  lastTs : Nat := 0
  byType : List (String × (Nat × Nat)) := []
  deriving DecidableEq

/-- `GlobalCache.OnNewEvent`, `global.go:368-377`. -/
def dispatch (m : Meta) (nid : Nat) (e : Ev) : Meta :=
  { lastTs := e.ts, byType := Assoc.set m.byType e.type (nid, e.ts) }

/-! ## Loading -/

/-- The CTE `event_types`, `event_table.go:450-459`. -/
def types : List Row → List String
  | [] => []
  | r :: l => r.ev.type :: (types l).filter fun t => decide (t ≠ r.ev.type)

/-- `max(event_nid)` of one type with its row, `event_table.go:462-465`. -/
def newest (rows : List Row) (t : String) : Option Row :=
  (rows.filter fun r => decide (r.ev.type = t)).foldl (fun m r => match m with
    | none => some r
    | some x => if x.nid < r.nid then some r else some x) none

/-- `selectLatestEventByTypeInAllRooms`, `event_table.go:442-480`. -/
def query (rows : List Row) : List Row := (types rows).filterMap (newest rows)

/-- One round of the loop `storage.go:222-244`. -/
def loadRow (m : Meta) (r : Row) : Meta :=
  { lastTs := if r.ev.ts > m.lastTs then r.ev.ts else m.lastTs, byType := Assoc.set m.byType r.ev.type (r.nid, r.ev.ts) }

def load (evs : List Row) : Meta := evs.foldl loadRow {}

/-! ## Histories -/

structure St where
  next : Nat := 1
  rows : List Row := []
  cache : Meta := {}
  deriving DecidableEq

def number (isState : Bool) : Nat → List Ev → List Row
  | _, [] => []
  | n, e :: es => ⟨n, e, isState⟩ :: number isState (n + 1) es

inductive Op
  /-- `Initialise` with these new events -/
  | block (evs : List Ev)
  /-- `Accumulate` with these new events -/
  | timeline (evs : List Ev)
  /-- events of other rooms -/
  | other (k : Nat)
  | restart
  deriving DecidableEq

/-- A first state block is dispatched with the NID 0 (`Initialise`, `sync3/handler/handler.go:681-693`, `OnNewInitialRoomState`,
`sync3/dispatcher.go:120-168`). For a room with a snapshot the room is invalidated, which leaves both fields alone (`ResetMetadataState`,
`storage.go:312-381`). A timeline is dispatched with its NIDs (`handler.go:650-668`). -/
def step (s : St) : Op → St
  | .block evs =>
    let rs := number true s.next evs
    { next := s.next + evs.length, rows := s.rows ++ rs,
      cache := if s.rows.isEmpty then rs.foldl (fun m r => dispatch m 0 r.ev) s.cache else s.cache }
  | .timeline evs =>
    let rs := number false s.next evs
    { next := s.next + evs.length, rows := s.rows ++ rs, cache := rs.foldl (fun m r => dispatch m r.nid r.ev) s.cache }
  | .other k => { s with next := s.next + k }
  | .restart => { s with cache := load (query s.rows) }

def run (ops : List Op) : St := ops.foldl step {}

/-! ## Connections -/

/-- One round of the loop `connstate.go:133-139` for the entry of an event type. -/
def better (joinNid a : Nat) (x : Option (Nat × Nat)) : Nat :=
  let y := x.getD (0, 0)
  if joinNid < y.1 ∧ a < y.2 then y.2 else a

/-- `interestingActivityTs` of a list, `connstate.go:125-141`: of a user who joined at this position and time. -/
def interest (bump : List String) (joinNid joinTs : Nat) (m : Meta) : Nat :=
  if bump.isEmpty then m.lastTs
  else bump.foldl (fun a t => better joinNid a (Assoc.get m.byType t)) joinTs

end Verif.Recency
