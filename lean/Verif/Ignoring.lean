import Verif.ConnLoad
import Verif.UserFlags
/-!
# Model of ignored users in the timelines of a connection

The ignored users come from the account data (`Verif.UserFlags`, `sync3/caches/user.go:746-758`), and messages by them are left out
of the timelines: of initial data by `DiscardIgnoredMessages` (`state/storage.go:45-59`, called in `sync3/caches/user.go:338-345`), of
live data at the start of `processLiveUpdate` (`sync3/handler/connstate_live.go:151-160`).  The load positions are as in
`Verif.ConnLoad` (C24), the position of an event is its number in the log, counted from 1.

Simplified as there: which rooms are loaded and whether an event is of interest (`hasUpdates`) is an arbitrary input, the user is
joined to all rooms, and no event is `AlwaysProcess`.  Of an event there is the room, the sender and whether it has a state key; the
live code reads these from `EventData`, which `newEventData` (`sync3/dispatcher.go:98-118`) takes from the same JSON.
-/
namespace Verif.Ignoring
open Verif

/-- An event. -/
structure Ev where
  room : Nat
  sender : String
  /-- it has a `state_key` -/
  isState : Bool
  deriving DecidableEq

/-- What a response has of a room: the position of the first event that was loaded (the `prev_batch` is for it,
`state/storage.go:735-757`; 0 if nothing was), none for live data, and the positions of the events of the timeline. -/
structure Item where
  room : Nat
  start : Option Nat
  timeline : List Nat
  deriving DecidableEq

structure State where
  log : List Ev
  flags : UserFlags.State
  /-- `anchorLoadPosition` -/
  anchor : Nat
  /-- `loadPositions`, 0 for a missing entry -/
  lp : Nat → Nat
  /-- What the client has of a room: the position it can page back from, and the events from there on.  `none` if it was not given the
  data or missed an event because the room was not of interest. -/
  view : Nat → Option (Nat × List Nat) := fun _ => none

/-- The rooms of the events. -/
def rooms (log : List Ev) : List Nat := log.map (·.room)

/-- `ShouldIgnore`, `sync3/caches/user.go:789-794`. -/
def shouldIgnore (s : State) (sender : String) : Bool := s.flags.cache.ignored.contains sender

/-- The condition of `DiscardIgnoredMessages`, `state/storage.go:52-57`. -/
def keeps (s : State) (n : Nat) : Bool :=
  match s.log[n - 1]? with
  | none => false
  | some e => e.isState || !shouldIgnore s e.sender

/-- `getInitialRoomData` for one room with a timeline limit, `sync3/handler/connstate.go:554-583`, with `LazyLoadTimelines`,
`sync3/caches/user.go:325-347`: what is ignored is taken out of the timeline, the last position is that of all loaded events. -/
def load1 (s : State) (x : Nat × Nat) : State × Item :=
  let t := ConnLoad.latest (rooms s.log) s.anchor x.2 x.1
  let start := t.head?.getD 0
  ({ s with lp := ConnLoad.set s.lp x.1 (t.getLast?.getD 0), view := ConnLoad.set s.view x.1 (some (start, t.filter (keeps s))) },
    ⟨x.1, some start, t.filter (keeps s)⟩)

/-- `buildRooms`, `connstate.go:467-525`. -/
def loads (s : State) : List (Nat × Nat) → State × List Item
  | [] => (s, [])
  | x :: xs => ((loads (load1 s x).1 xs).1, (load1 s x).2 :: (loads (load1 s x).1 xs).2)

/-- The end of `processLiveUpdate`, `connstate_live.go:209-251`. -/
def appendLive (s : State) (r n : Nat) : State × List Item :=
  ({ s with
      view := if n ≤ s.lp r then s.view else ConnLoad.set s.view r (some (((s.view r).getD (n, [])).1, ((s.view r).getD (n, [])).2 ++ [n]))
      lp := ConnLoad.set s.lp r n },
    if n ≤ s.lp r then [] else [⟨r, none, [n]⟩])

/-- `processLiveUpdate`, `connstate_live.go:133-251`. -/
def deliver (s : State) (e : Ev) (n : Nat) (vis : Bool) (xs : List (Nat × Nat)) : State × List Item :=
  if 0 < s.lp e.room ∧ n < s.lp e.room then (s, [])
  else if e.isState = false ∧ shouldIgnore s e.sender = true then (s, [])
  else
    let s1 := loads { s with anchor := max s.anchor n } xs
    if vis then ((appendLive s1.1 e.room n).1, s1.2 ++ (appendLive s1.1 e.room n).2)
    else if xs.any (·.1 = e.room) then s1
    else ({ s1.1 with view := ConnLoad.set s1.1.view e.room none }, s1.2)

inductive Op
  /-- an event is stored -/
  | append (e : Ev)
  /-- account data or an invite of the user comes, or the cache is made anew -/
  | user (o : UserFlags.Op)
  /-- a request causes rooms to be loaded -/
  | request (xs : List (Nat × Nat))
  /-- the connection takes event number `i` (position `i+1`) from its queue -/
  | deliver (i : Nat) (vis : Bool) (xs : List (Nat × Nat))

def step (s : State) : Op → State × List Item
  | .append e => ({ s with log := s.log ++ [e] }, [])
  | .user o => ({ s with flags := UserFlags.step s.flags o }, [])
  | .request xs => loads s xs
  | .deliver i vis xs =>
    match s.log[i]? with
    | none => (s, [])
    | some e => deliver s e (i + 1) vis xs

/-- `load`, `connstate.go:109-171`: the connection is made, when the log and the flags of the user are these. -/
def connect (log : List Ev) (flags : UserFlags.State) : State :=
  { log, flags, anchor := log.length, lp := fun r => (ConnLoad.evs (rooms log) r).getLast?.getD 0 }

def run (s : State) (ops : List Op) : State := ops.foldl (fun s o => (step s o).1) s

end Verif.Ignoring
