import Verif.Leaving
/-!
# Invites and highlight counts of a room, from several pollers to the user's cache

One user and one room. What happens upstream is a list: member events of the user and changes of the highlight count. Pollers of the
user's devices, and those of other users in the room, deliver it piecewise and at their own pace (`parseRoomsResponse`,
`sync2/poller.go:784-955`); what they deliver goes to the tables (`sync2/handler2/handler.go:260-394,450-562`,
`state/accumulator.go:346-566`, `state/invites_table.go:50-104`) and to the user's cache (`sync3/caches/user.go:546-569,593-695`).

Simplifications:
* Only member events of the user and the highlight count are modelled. Membership changes that are not changes (profiles) are not.
* The database and the pub/sub do not fail, and messages arrive at once and in order (C87, C94).
* A response of a poller that goes from one place of the list to another has the room in the section of the user's membership at the
  end. When the user is joined, or for pollers of other users, state and timeline have all member events that are not stored yet;
  events before the last stored one are not new (`filterToNewTimelineEvents`, C39). In the `leave` section only the events since the
  last response of this poller are there.
* State that arrives in a block is dispatched event by event (`sync3/dispatcher.go:120-168` does the same to the user).
-/
namespace Verif.InviteFlow
open Verif.Leaving (Membership track)

/-- Something happens upstream. -/
inductive Item
  | member (m : Membership)
  | count (n : Nat)
  deriving DecidableEq

/-- `UserRoomData`, `sync3/caches/user.go:41-68`. -/
structure Urd where
  isInvite : Bool := false
  hasLeft : Bool := false
  highlight : Nat := 0
  deriving DecidableEq

structure State where
  hist : List Item := []
  /-- how far the poller of each device has come -/
  pos : Nat → Nat := fun _ => 0
  /-- member events before this place are stored, or older than a stored one -/
  top : Nat := 0
  /-- whether there is a snapshot of the room -/
  room : Bool := false
  /-- whether there is a row in the invites table -/
  row : Bool := false
  /-- the highlight count in the unread table -/
  stored : Nat := 0
  /-- the entry of `unreadMap` -/
  last : Option Nat := none
  /-- the user in the `JoinedRoomsTracker` -/
  joined : Bool := false
  invited : Bool := false
  urd : Urd := {}

/-- The member events in a part of the list. -/
def members (l : List Item) : List Membership :=
  l.filterMap fun
    | .member m => some m
    | .count _ => none

/-- The member events from one place to another. -/
def between (h : List Item) (a b : Nat) : List Membership := members ((h.take b).drop a)

/-- The membership at a place. -/
def memAt (h : List Item) (n : Nat) : Option Membership := (members (h.take n)).getLast?

/-- The highlight counts in a part of the list. -/
def counts (l : List Item) : List Nat :=
  l.filterMap fun
    | .member _ => none
    | .count n => some n

/-- The highlight count at a place: 0 before the first. -/
def countAt (h : List Item) (n : Nat) : Nat := (counts (h.take n)).getLast?.getD 0

/-- `OnNewEvent` for a member event of the user, `sync3/caches/user.go:593-605`. -/
def onEvent (u : Urd) (m : Membership) : Urd :=
  if u.isInvite then
    if m = .invite then u else { u with isInvite := false, highlight := 0 }
  else u

/-- `OnInvite`, `sync3/caches/user.go:621-634`. -/
def onInvite (u : Urd) : Urd := { u with isInvite := true, hasLeft := false, highlight := 1 }

/-- `OnLeftRoom`, `sync3/caches/user.go:650-659`. -/
def onLeft (u : Urd) : Urd := { u with isInvite := false, hasLeft := true, highlight := 0 }

/-- A new member event is dispatched, `sync3/dispatcher.go:170-214`. -/
def dispatch (s : State) (m : Membership) : State :=
  match track s.joined s.invited (some m) with
  | (j, i, told) => { s with joined := j, invited := i, urd := if j || told then onEvent s.urd m else s.urd }

/-- `RemoveSupersededInvites` with the new events, `state/invites_table.go:65-91`. -/
def supersede (row : Bool) (ms : List Membership) : Bool :=
  match ms.getLast? with
  | none => row
  | some .invite => row
  | some _ => false

/-- `Accumulate` and `Initialise` of the member events from one place to another, and the dispatch of the new ones. -/
def accumulate (s : State) (a b : Nat) : State :=
  let new := between s.hist (max a s.top) b
  let s := { s with row := supersede s.row new, top := max s.top b }
  new.foldl dispatch s

/-- `UpdateUnreadCounts`, `sync2/handler2/handler.go:450-485`, and `OnUnreadCounts`, `sync3/caches/user.go:546-569`. -/
def unread (s : State) (n : Nat) : State :=
  if s.last = some n then s
  else { s with last := some n, stored := n, urd := { s.urd with highlight := n } }

inductive Op
  /-- something happens -/
  | happen (x : Item)
  /-- the poller of a device delivers up to a place -/
  | deliver (d j : Nat)
  /-- a poller of another user delivers the timeline of the room up to a place -/
  | other (j : Nat)
  /-- the cache is made anew, `sync3/handler/handler.go:525-573` -/
  | reload
  /-- the process restarts: invites are not loaded into the tracker, `sync3/tracker.go:35-54` -/
  | restart
  deriving DecidableEq

/-- The cache loaded from the tables: the counts, then the invites. -/
def load (s : State) : Urd :=
  let u : Urd := { highlight := s.stored }
  if s.row then onInvite u else u

/-- The room in the sections of a response, `sync2/poller.go:800-921`. -/
def receive (s : State) (d j : Nat) : State :=
  let seg := between s.hist (s.pos d) j
  let s1 := { s with pos := fun x => if x = d then j else s.pos x }
  match memAt s.hist j with
  | none => s1
  | some .invite => if seg ≠ [] then { s1 with row := true, urd := onInvite s.urd } else s1
  | some .join => unread (accumulate { s1 with room := true } 0 j) (countAt s.hist j)
  | some _ =>
    if seg = [] then s1 else
    -- without a snapshot the timeline is skipped, `state/accumulator.go:394-426`
    let s2 := if s.room then accumulate s1 (s.pos d) j else s1
    if Membership.leave ∈ seg then { s2 with row := false, urd := onLeft s2.urd } else s2

def step (s : State) : Op → State
  | .happen x => { s with hist := s.hist ++ [x] }
  | .deliver d j => if s.pos d ≤ j ∧ j ≤ s.hist.length then receive s d j else s
  | .other j => if j ≤ s.hist.length then accumulate { s with room := true } 0 j else s
  | .reload => { s with urd := load s }
  | .restart => { s with urd := load s, last := none, invited := false }

def run (ops : List Op) : State := ops.foldl step {}

end Verif.InviteFlow
