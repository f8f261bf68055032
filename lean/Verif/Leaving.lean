import Verif.Lists
/-!
# Rooms a user joins and leaves, from the dispatcher to the lists of a connection

Composes what the dispatcher (`sync3/dispatcher.go`) tells the cache of one user, the flags `IsInvite` and `HasLeft` the cache
keeps for each room (`sync3/caches/user.go`), the updates a connection gets (`OnRoomUpdate`,
`sync3/handler/connstate.go:744-764`) and its lists (`Lists`).

Simplifications:
* Events are new to the connection and not from ignored users (`sync3/handler/connstate_live.go:139-160`); state blocks are
  not modelled.
* The rest of the room data in an update is arbitrary.
-/
namespace Verif.Leaving
open Verif

/-- `membership` of a member event of the user. -/
inductive Membership
  | invite | join | leave | ban
  deriving DecidableEq

/-- The fields of `UserRoomData` that memberships change, `sync3/caches/user.go:41-68`. -/
structure Urd where
  isInvite : Bool := false
  hasLeft : Bool := false
  deriving DecidableEq

/-- The data of an update besides these fields, and the lists of the request. -/
structure Up where
  req : String → Lists.Req
  r : Lists.Room

/-- `joined` and `invited` are the rooms of the user in the `JoinedRoomsTracker`. -/
structure State where
  joined : String → Bool := fun _ => false
  invited : String → Bool := fun _ => false
  urd : String → Urd := fun _ => {}
  lists : Lists.State := {}

inductive Op
  /-- a timeline event of the room is dispatched; `own` if it is a member event of the user -/
  | event (own : Option Membership) (u : Up)
  /-- `OnLeftRoom`, called after the timeline of a room in the `leave` section has been dispatched, if it has a leave event of
  the user (`sync2/poller.go:889-916`); `kick` if the sender is someone else -/
  | leftRoom (kick : Bool) (u : Up)
  /-- `OnInvite` -/
  | invite (u : Up)
  /-- an update without event: account data, unread counts -/
  | quiet (u : Up)
  /-- what requests do to the lists -/
  | list (o : Lists.Op)

variable (S : Lists.Strs)

/-- A map with one entry replaced. -/
def put {α : Type} (f : String → α) (k : String) (v : α) : String → α := fun x => if x = k then v else f x

/-- The room data of an update: `*rup.UserRoomMetadata()`, `sync3/handler/connstate_live.go:371-375`. -/
def dataOf (urd : String → Urd) (r : Lists.Room) : Lists.Room :=
  { r with f := { r.f with hasLeft := (urd r.id).hasLeft, isInvite := (urd r.id).isInvite } }

/-- The update reaches the lists of the connection. -/
def emit (s : State) (u : Up) : Option State :=
  (Lists.update S s.lists u.req (dataOf s.urd u.r)).map fun l => { s with lists := l }

/-- The tracker, `sync3/dispatcher.go:175-197`, `sync3/tracker.go:79-138,178-189`: joined and invited afterwards, and whether
the user is told about a leave. -/
def track (joined invited : Bool) : Option Membership → Bool × Bool × Bool
  | none => (joined, invited, false)
  | some .invite => (joined, true, false)
  | some .join => (true, false, false)
  | some .leave => (false, false, joined || invited)
  | some .ban => (false, false, joined || invited)

/-- `UserCache.OnNewEvent`, `sync3/caches/user.go:593-619`: the flags. -/
def onEvent (urd : Urd) (own : Option Membership) : Urd :=
  if urd.isInvite && own.isSome then { urd with isInvite := decide (own = some .invite) } else urd

def step (s : State) : Op → Option State
  | .event own u =>
    let room := u.r.id
    let (j, i, told) := track (s.joined room) (s.invited room) own
    let s1 := { s with joined := put s.joined room j, invited := put s.invited room i }
    -- `sync3/dispatcher.go:199-213`: the joined users, and the one who left
    if j || told then emit S { s1 with urd := put s.urd room (onEvent (s.urd room) own) } u else some s1
  | .leftRoom kick u =>
    -- `sync3/caches/user.go:650-695`; the connection drops it unless `AlwaysProcess`, `sync3/handler/connstate.go:746-754`
    let wasInvite := (s.urd u.r.id).isInvite
    let s1 := { s with urd := put s.urd u.r.id { isInvite := false, hasLeft := true } }
    if wasInvite || kick then emit S s1 u else some s1
  | .invite u =>
    -- `sync3/caches/user.go:621-648`
    emit S { s with urd := put s.urd u.r.id { isInvite := true, hasLeft := false } } u
  | .quiet u => emit S s u
  | .list o => (Lists.step S s.lists o).map fun l => { s with lists := l }

def run (s : State) : List Op → Option State
  | [] => some s
  | o :: os => (step S s o).bind (run · os)

end Verif.Leaving
