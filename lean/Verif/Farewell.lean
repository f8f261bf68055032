import Verif.ConnLoad
/-!
# Model of how a user is told that they left a room, were kicked or rejected an invite

Two ways lead there. The leave event is stored from a timeline and dispatched (`sync3/dispatcher.go:170-214`,
`UserCache.OnNewEvent`, `sync3/caches/user.go:593-619`), and each poller of the user hands it to `OnLeftRoom` in addition
(`sync2/poller.go:889-916`, `sync3/caches/user.go:650-695`), whose update is dropped by connections unless it is `AlwaysProcess`
(`sync3/handler/connstate.go:747-757`). The second part is what `AlwaysProcess` updates do to the timelines a client has, on top of
the load positions of a connection (`ConnLoad`).

Simplified: one user and one room; the user has a cache and a connection all the time; the queues between the parts are left out, and the
events of a timeline that are new are all stored (no failures). Member events of others are like any other event.
-/
namespace Verif.Farewell

/-- `membership` of a member event of the user. -/
inductive Membership
  | invite | join | leave | ban
  deriving DecidableEq

/-- An event of the room. `own` is its membership if it is a member event of the user; `byOther` if someone else sent it. -/
structure Ev where
  id : Nat
  own : Option Membership := none
  byOther : Bool := false
  deriving DecidableEq

structure State where
  /-- the events table -/
  stored : List Nat := []
  /-- the user in the `JoinedRoomsTracker` -/
  joined : Bool := false
  invited : Bool := false
  /-- `UserRoomData.IsInvite` -/
  isInvite : Bool := false
  /-- the events in the updates the connection was given, oldest first -/
  told : List Nat := []

/-- `UserJoinedRoom`, `UsersInvitedToRoom` and `UserLeftRoom`, `sync3/tracker.go:70-138,178-189`, and whether the user is told:
joined users are told of every event, and of a leave those who were joined or invited, `sync3/dispatcher.go:199-213`. -/
def track (s : State) : Option Membership → State × Bool
  | none => (s, s.joined)
  | some .invite => ({ s with invited := true }, s.joined)
  | some .join => ({ s with joined := true, invited := false }, true)
  | some .leave => ({ s with joined := false, invited := false }, s.joined || s.invited)
  | some .ban => ({ s with joined := false, invited := false }, s.joined || s.invited)

/-- `UserCache.OnNewEvent`, `sync3/caches/user.go:593-619`. -/
def onNewEvent (s : State) (e : Ev) : State :=
  { s with
    isInvite := if s.isInvite && e.own.isSome then decide (e.own = some .invite) else s.isInvite
    told := s.told ++ [e.id] }

/-- `Dispatcher.OnNewEvent`, `sync3/dispatcher.go:170-214`. -/
def dispatch (s : State) (e : Ev) : State :=
  let t := track s e.own
  if t.2 then onNewEvent t.1 e else t.1

/-- `Accumulate`: an event of the timeline that is new is stored and dispatched (C39). -/
def accumulate1 (s : State) (e : Ev) : State :=
  if e.id ∈ s.stored then s else dispatch { s with stored := s.stored ++ [e.id] } e

def accumulate (s : State) (tl : List Ev) : State := tl.foldl accumulate1 s

/-- The event the poller takes for the leave: the first of the timeline, `sync2/poller.go:900-907`. -/
def isLeave (e : Ev) : Bool := decide (e.own = some .leave)

/-- `UserCache.OnLeftRoom`, `sync3/caches/user.go:650-695`, and `OnRoomUpdate`, `sync3/handler/connstate.go:747-757`. -/
def onLeftRoom (s : State) (e : Ev) : State :=
  { s with isInvite := false, told := if s.isInvite || e.byOther then s.told ++ [e.id] else s.told }

inductive Op
  /-- a poller of anyone in the room hands in a timeline -/
  | timeline (tl : List Ev)
  /-- a poller of the user has the room in its `leave` section, `sync2/poller.go:889-916` -/
  | left (tl : List Ev)
  /-- a poller of the user has an invite, `sync3/caches/user.go:621-647`. The update has no event for the timeline. -/
  | invite

def step (s : State) : Op → State
  | .timeline tl => accumulate s tl
  | .left tl =>
    let s := accumulate s tl
    match tl.find? isLeave with
    | none => s
    | some e => onLeftRoom s e
  | .invite => { s with isInvite := true }

def run (s : State) (ops : List Op) : State := ops.foldl step s

/-! ## At the connection -/

/-- An event of the log, by its position, or one sent outside of it. -/
inductive Item
  | log (n : Nat)
  | out (e : Nat)
  deriving DecidableEq

/-- A connection, and the timelines the client has with the events sent outside of the log. -/
structure Conn where
  c : ConnLoad.State
  tl : Nat → Option (List Item) := fun _ => none

def connect (log : List Nat) : Conn := { c := ConnLoad.connect log }

/-- `ConnLoad.load1`: the timeline of a room is sent. -/
def load1 (s : Conn) (x : Nat × Nat) : Conn :=
  { c := ConnLoad.load1 s.c x, tl := ConnLoad.set s.tl x.1 (some ((ConnLoad.latest s.c.log s.c.anchor x.2 x.1).map .log)) }

def loads (s : Conn) (xs : List (Nat × Nat)) : Conn := xs.foldl load1 s

/-- `ConnLoad.deliver`, `sync3/handler/connstate_live.go:133-245`. -/
def deliver (s : Conn) (r n : Nat) (vis : Bool) (xs : List (Nat × Nat)) : Conn :=
  if 0 < s.c.lp r ∧ n < s.c.lp r then s
  else
    let s1 := loads { s with c := { s.c with anchor := max s.c.anchor n } } xs
    if vis then
      { c := ConnLoad.appendLive s1.c r n
        tl := if n ≤ s1.c.lp r then s1.tl else ConnLoad.set s1.tl r (some ((s1.tl r).getD [] ++ [.log n])) }
    else if xs.any (·.1 = r) then s1
    else { c := { s1.c with view := ConnLoad.set s1.c.view r none }, tl := ConnLoad.set s1.tl r none }

/-- An `AlwaysProcess` update, `sync3/handler/connstate_live.go:142,226-245`: positions are neither asked nor changed, as it has no NID. -/
def always (s : Conn) (r e : Nat) (vis : Bool) (xs : List (Nat × Nat)) : Conn :=
  let s1 := loads s xs
  if vis then { s1 with tl := ConnLoad.set s1.tl r ((s1.tl r).map (· ++ [.out e])) } else s1

inductive COp
  | base (o : ConnLoad.Op)
  | always (r e : Nat) (vis : Bool) (xs : List (Nat × Nat))

def cstep (s : Conn) : COp → Conn
  | .base (.append r) => { s with c := { s.c with log := s.c.log ++ [r] } }
  | .base (.request xs) => loads s xs
  | .base (.deliver i vis xs) =>
    match s.c.log[i]? with
    | none => s
    | some r => deliver s r (i + 1) vis xs
  | .always r e vis xs => always s r e vis xs

def crun (s : Conn) (ops : List COp) : Conn := ops.foldl cstep s

end Verif.Farewell
