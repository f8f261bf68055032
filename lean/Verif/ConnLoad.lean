import Verif.Util
/-!
# Model of the load positions of a connection, `sync3/handler/connstate.go` and `connstate_live.go`

The database is the log of the events of the rooms the user is joined to; the position (NID) of an
event is its number in the log, counted from 1, and the log only stores the room of each event.
Rooms are numbered.  Which rooms are (re-)loaded and whether an event is of interest
(`hasUpdates`) is decided by the list code and is an arbitrary input here.

Not modelled here: `AlwaysProcess` events (they bypass the positions, see `Farewell`), ignored senders, and changes of
membership (the user is joined to all rooms of the log).
-/
namespace Verif.ConnLoad

/-- Positions of the events of a room, ascending. -/
def evs (log : List Nat) (r : Nat) : List Nat :=
  ((List.range log.length).map (· + 1)).filter fun n => log[n - 1]? = some r

structure State where
  log : List Nat
  /-- `anchorLoadPosition` -/
  anchor : Nat
  /-- `loadPositions`, 0 for a missing entry -/
  lp : Nat → Nat
  /-- The events of the room's timeline the client has.  Set by the initial data, extended by
  live events, and `none` if the client was not given the data or missed an event because the
  room was not of interest. -/
  view : Nat → Option (List Nat) := fun _ => none

/-- The last `k` elements. -/
def lastN (k : Nat) (l : List Nat) : List Nat := l.drop (l.length - k)

/-- `LatestEventsInRooms`, `state/storage.go:715-763`: the last `k` events up to the position `to`. -/
def latest (log : List Nat) (to k r : Nat) : List Nat := lastN k ((evs log r).filter (· ≤ to))

/-- `load`, `connstate.go:109-171`, with `LoadJoinedRooms`, `sync3/caches/global.go:142-172`. -/
def connect (log : List Nat) : State :=
  { log, anchor := log.length, lp := fun r => (evs log r).getLast?.getD 0 }

def set {α} (f : Nat → α) (r : Nat) (v : α) : Nat → α := fun x => if x = r then v else f x

/-- `getInitialRoomData` for one room with a timeline limit, `connstate.go:555-583`: send the
timeline and remember its last position. -/
def load1 (s : State) (x : Nat × Nat) : State :=
  let t := latest s.log s.anchor x.2 x.1
  { s with lp := set s.lp x.1 (t.getLast?.getD 0), view := set s.view x.1 (some t) }

/-- `buildRooms`, `connstate.go:468-524`. -/
def loads (s : State) (xs : List (Nat × Nat)) : State := xs.foldl load1 s

inductive Op
  /-- an event is stored -/
  | append (r : Nat)
  /-- a request causes rooms to be loaded -/
  | request (xs : List (Nat × Nat))
  /-- the connection takes event number `i` (position `i+1`) from its queue -/
  | deliver (i : Nat) (vis : Bool) (xs : List (Nat × Nat))

/-- The end of `processLiveUpdate`, `connstate_live.go:209-232`. -/
def appendLive (s : State) (r n : Nat) : State :=
  { s with
    view := if n ≤ s.lp r then s.view else set s.view r (some ((s.view r).getD [] ++ [n]))
    lp := set s.lp r n }

/-- `processLiveUpdate`, `connstate_live.go:133-240`. -/
def deliver (s : State) (r n : Nat) (vis : Bool) (xs : List (Nat × Nat)) : State :=
  if 0 < s.lp r ∧ n < s.lp r then s
  else
    let s1 := loads { s with anchor := max s.anchor n } xs
    if vis then appendLive s1 r n
    else if xs.any (·.1 = r) then s1
    else { s1 with view := set s1.view r none }

def step (s : State) : Op → State
  | .append r => { s with log := s.log ++ [r] }
  | .request xs => loads s xs
  | .deliver i vis xs =>
    match s.log[i]? with
    | none => s
    | some r => deliver s r (i + 1) vis xs

def run (s : State) (ops : List Op) : State := ops.foldl step s

end Verif.ConnLoad
