import Verif.Tracker
/-!
# Model of `sync3/dispatcher.go`

Receivers are identified by the user ID they are registered under; calls on
receivers are recorded as deliveries in order.  Each method is atomic (in the
code registrations may be interleaved between computing the recipients and
notifying them; `notifyListeners` looks receivers up again).  Parsing of the
event JSON is not modelled: an event is given by its parsed fields.
-/
namespace Verif.Dispatcher
open Verif.Tracker (SSet)

/-- `DispatcherAllUsers`, `sync3/dispatcher.go:20`. -/
def allUsers : String := "-"

/-- The fields of an event used here; `id` stands for the JSON itself. -/
structure Event where
  id : Nat
  type : String
  stateKey : Option String
  membership : String   -- content.membership, "" if absent
  deriving DecidableEq, Repr

/-- `caches.EventData` as handed to a receiver, with the receiver. -/
structure Delivery where
  to : String
  room : String
  ev : Event
  nid : Int
  joinCount : Nat
  inviteCount : Nat
  force : Bool
  deriving DecidableEq, Repr

/-- `Dispatcher`, `sync3/dispatcher.go:32-36`. -/
structure State where
  jrt : Tracker.State
  receivers : List String

/-- `ReceiverForUser(u) != nil`, `sync3/dispatcher.go:92-96`. -/
def registered (s : State) (u : String) : Bool := decide (u ∈ s.receivers)

/-- `Register`, `sync3/dispatcher.go:81-89`. -/
def register (s : State) (u : String) : State :=
  { s with receivers := if u ∈ s.receivers then s.receivers else s.receivers ++ [u] }

/-- `UnregisterBulk`, `sync3/dispatcher.go:67-79` (`Unregister` is the case of one user). -/
def unregister (s : State) (us : List String) : State × List String :=
  us.foldl (fun (s, out) u =>
    if u ∈ s.receivers then ({ s with receivers := s.receivers.filter (· ≠ u) }, out ++ [u]) else (s, out)) (s, [])

/-- The filter given to `JoinedUsersForRoom`, `sync3/dispatcher.go:154-159,193-198`. -/
def wanted (s : State) (u : String) : Bool := if u = allUsers then false else registered s u

/-- `notifyListeners`, `sync3/dispatcher.go:269-294`. -/
def notifyListeners (s : State) (room : String) (ev : Event) (nid : Int) (joinCount inviteCount : Nat)
    (users : List String) (target : String) (force : Bool) : List Delivery :=
  (if registered s allUsers then [⟨allUsers, room, ev, nid, joinCount, inviteCount, false⟩] else []) ++
  (users.filter (registered s)).map fun u =>
    ⟨u, room, ev, nid, joinCount, inviteCount, if target = u then (if force then true else false) else false⟩

/-- `OnNewEvent`, `sync3/dispatcher.go:170-213`. -/
def onNewEvent (s : State) (room : String) (ev : Event) (nid : Int) : State × List Delivery :=
  match (if ev.type = "m.room.member" then ev.stateKey else none) with
  | none =>
    let (users, joinCount) := Tracker.joinedUsersForRoom s.jrt room (wanted s)
    (s, notifyListeners s room ev nid joinCount 0 users "" false)
  | some target =>
    let (jrt, force, left) :=
      if ev.membership = "invite" then (Tracker.usersInvitedToRoom s.jrt [target] room, false, false)
      else if ev.membership = "join" then
        let (t, b) := Tracker.userJoinedRoom s.jrt target room
        (t, b, false)
      else if ev.membership = "ban" ∨ ev.membership = "leave" then
        let (t, b) := Tracker.userLeftRoom s.jrt target room
        (t, false, b)
      else (s.jrt, false, false)
    let s' := { s with jrt }
    let (users, joinCount) := Tracker.joinedUsersForRoom jrt room (wanted s')
    let users := if left then users ++ [target] else users
    (s', notifyListeners s' room ev nid joinCount (Tracker.numInvited jrt room) users target force)

/-- Dispatch events one after the other. -/
def onNewEvents (s : State) (room : String) (evs : List Event) : State × List Delivery :=
  evs.foldl (fun p e => ((onNewEvent p.1 room e 0).1, p.2 ++ (onNewEvent p.1 room e 0).2)) (s, [])

/-- State keys of the member events with the given membership,
`sync3/dispatcher.go:136-150`. -/
def members (evs : List Event) (m : String) : List String :=
  evs.filterMap fun e => if e.type = "m.room.member" ∧ e.membership = m then e.stateKey else none

/-- `OnNewInitialRoomState`, `sync3/dispatcher.go:122-168`. -/
def onNewInitialRoomState (s : State) (room : String) (evs : List Event) : State × List Delivery :=
  if (Tracker.joinedUsersForRoom s.jrt room (fun _ => true)).2 > 0 then onNewEvents s room evs
  else
    let (jrt, force) := Tracker.usersJoinedRoom s.jrt (members evs "join") room
    let jrt := Tracker.usersInvitedToRoom jrt (members evs "invite") room
    let inviteCount := Tracker.numInvited jrt room
    let s' := { s with jrt }
    let (users, joinCount) := Tracker.joinedUsersForRoom jrt room (wanted s')
    (s', evs.flatMap fun ev => notifyListeners s' room ev 0 joinCount inviteCount users "" force)

/-- `OnEphemeralEvent` and `OnReceipt`, `sync3/dispatcher.go:215-267`: who is
notified, in order. -/
def onEphemeral (s : State) (room : String) : List String :=
  let (users, _) := Tracker.joinedUsersForRoom s.jrt room (wanted s)
  (if registered s allUsers then [allUsers] else []) ++ users.filter (registered s)

/-- `OnInvalidateRoom`, `sync3/dispatcher.go:296-299`. -/
def onInvalidateRoom (s : State) (room : String) (joins invites : List String) : State :=
  { s with jrt := Tracker.reload s.jrt room joins invites }

inductive Op
  | register (u : String)
  | unregister (us : List String)
  | event (room : String) (ev : Event) (nid : Int)
  | initial (room : String) (evs : List Event)
  | invalidate (room : String) (joins invites : List String)
  deriving Repr

def step (s : State) : Op → State
  | .register u => register s u
  | .unregister us => (unregister s us).1
  | .event r e n => (onNewEvent s r e n).1
  | .initial r es => (onNewInitialRoomState s r es).1
  | .invalidate r j i => onInvalidateRoom s r j i

/-- A dispatcher started with the given memberships, after some operations. -/
def run (m : List (String × List String)) (ops : List Op) : State :=
  ops.foldl step ⟨Tracker.startup m, []⟩

end Verif.Dispatcher
