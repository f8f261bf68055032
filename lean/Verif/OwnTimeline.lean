import Verif.Assoc
/-!
# Model of how live events reach the timelines of rooms

An event goes from the user's cache (`OnNewEvent` and `OnSpaceUpdate`, `sync3/caches/user.go:571-619`) through the transaction id waiter
(`sync3/handler/txn_id_waiter.go`) to the connection, which adds it to the timeline of the room of the update (`processLiveUpdate`,
`sync3/handler/connstate_live.go:133-262`). The room of an update (`RoomID()`) and the room of its event (`EventData.RoomID`) are two
things: the update that `OnSpaceUpdate` makes for the child has the event of the space.

Simplified: the user is joined to the same rooms throughout, all rooms are on display, and the timelines start with the initial data up
to a position; loading rooms again is C24, the queue of the connection is C82, and who gets an event is C22.
-/
namespace Verif.OwnTimeline

/-- The parts of an event that matter. -/
structure Ev where
  nid : Nat
  room : String
  sender : String := ""
  /-- it has a state key -/
  state : Bool := false
  /-- it has a transaction id -/
  txn : Bool := false
  /-- the state key if it is an `m.space.child` event -/
  child : Option String := none
  deriving DecidableEq

/-- `RoomEventUpdate`, `sync3/caches/update.go:22-25`. -/
structure Upd where
  target : String
  ev : Ev
  deriving DecidableEq

/-- The updates for an event: `OnNewEvent`, `user.go:593-619`, with that of `OnSpaceUpdate`, `user.go:571-591`, before its own. -/
def updates (joined : String → Bool) (e : Ev) : List Upd :=
  match e.child with
  | none => [⟨e.room, e⟩]
  | some c => if joined c then [⟨c, e⟩, ⟨e.room, e⟩] else [⟨e.room, e⟩]

/-! ## The waiter -/

structure Waiter where
  /-- by the room of the event -/
  queues : List (String × List Upd) := []
  /-- what was given to the connection -/
  published : List Upd := []
  deriving DecidableEq

/-- `Ingest`, `txn_id_waiter.go:29-63`; `delay` is whether `maxDelay` is positive. -/
def ingest (user : String) (delay : Bool) (w : Waiter) (u : Upd) : Waiter :=
  if !delay then { w with published := w.published ++ [u] }
  else match Assoc.get w.queues u.ev.room with
    | some q => { w with queues := Assoc.set w.queues u.ev.room (q ++ [u]) }
    | none =>
      if !u.ev.state && decide (u.ev.sender = user) && !u.ev.txn then { w with queues := Assoc.set w.queues u.ev.room [u] }
      else { w with published := w.published ++ [u] }

/-- `PublishUpToNID`, `txn_id_waiter.go:65-92`. -/
def publishUpTo (w : Waiter) (room : String) (nid : Nat) : Waiter :=
  match Assoc.get w.queues room with
  | none => w
  | some q =>
    let out := q.takeWhile fun u => decide (u.ev.nid ≤ nid)
    let rest := q.dropWhile fun u => decide (u.ev.nid ≤ nid)
    { queues := if rest.isEmpty then Assoc.del w.queues room else Assoc.set w.queues room rest
      published := w.published ++ out }

inductive Op
  | event (e : Ev)
  /-- the all-clear, or a timer -/
  | release (room : String) (nid : Nat)
  deriving DecidableEq

def step (user : String) (delay : Bool) (joined : String → Bool) (w : Waiter) : Op → Waiter
  | .event e => (updates joined e).foldl (ingest user delay) w
  | .release room nid => publishUpTo w room nid

def run (user : String) (delay : Bool) (joined : String → Bool) (ops : List Op) : Waiter :=
  ops.foldl (step user delay joined) {}

/-! ## The connection -/

/-- The live part of the timeline of the room and its `loadPositions` entry (0 is none). -/
structure Room where
  lp : Nat
  timeline : List Ev := []
  deriving DecidableEq

/-- `processLiveUpdate` for one room: an update behind the position is skipped (`connstate_live.go:140-150`), one at the position is
accounted for, otherwise the event is appended; the position is set (`connstate_live.go:218-250`). -/
def process (room : String) (r : Room) (u : Upd) : Room :=
  if u.target ≠ room then r
  else if 0 < r.lp ∧ u.ev.nid < r.lp then r
  else { lp := u.ev.nid, timeline := if u.ev.nid ≤ r.lp then r.timeline else r.timeline ++ [u.ev] }

/-- The live timeline of a room whose initial data went up to `lp`. -/
def sent (room : String) (lp : Nat) (us : List Upd) : Room := us.foldl (process room) { lp }

end Verif.OwnTimeline
