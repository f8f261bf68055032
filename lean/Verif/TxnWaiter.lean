import Verif.Util
/-!
# Model of `sync3/handler/txn_id_waiter.go`

The lock makes `Ingest` and `PublishUpToNID` atomic.  `time.AfterFunc` timers all have
the same delay, so they fire in the order in which they were started; a pending timer is
an entry of `timers`.  `published` records the calls of `publish`.
-/
namespace Verif.TxnWaiter

/-- The fields of `caches.RoomEventUpdate` that are read. `tag` identifies the update. -/
structure Ev where
  tag : Nat
  room : String
  nid : Int
  state : Bool
  sender : String
  txnID : String
  deriving DecidableEq

/-- `caches.Update`: an event update or something else. -/
inductive Upd
  | event (e : Ev)
  | other (tag : Nat)
  deriving DecidableEq

/-- `TxnIDWaiter`, `txn_id_waiter.go:9-16`, with the timers and the calls of `publish`.
Rooms without a queue are `none`. -/
structure State where
  queues : String → Option (List Ev) := fun _ => none
  timers : List (String × Int) := []
  published : List (Bool × Upd) := []

def setQ (q : String → Option (List Ev)) (room : String) (v : Option (List Ev)) : String → Option (List Ev) :=
  fun r => if r = room then v else q r

/-- The condition in `txn_id_waiter.go:49`. -/
def missing (user : String) (e : Ev) : Bool := !e.state && decide (e.sender = user) && decide (e.txnID = "")

/-- `Ingest`, `txn_id_waiter.go:29-64`; `delay` says whether `maxDelay > 0`. -/
def ingest (user : String) (delay : Bool) (s : State) (u : Upd) : State :=
  if !delay then { s with published := s.published ++ [(false, u)] }
  else match u with
    | .other _ => { s with published := s.published ++ [(false, u)] }
    | .event e =>
      if missing user e || (s.queues e.room).isSome then
        { s with queues := setQ s.queues e.room (some ((s.queues e.room).getD [] ++ [e]))
                 timers := s.timers ++ [(e.room, e.nid)] }
      else { s with published := s.published ++ [(false, u)] }

/-- The number of events to publish, `txn_id_waiter.go:75-81`. -/
def prefixLen (nid : Int) : List Ev → Nat
  | [] => 0
  | e :: es => if e.nid > nid then 0 else prefixLen nid es + 1

/-- `PublishUpToNID`, `txn_id_waiter.go:66-94`. -/
def publishUpTo (s : State) (room : String) (nid : Int) : State :=
  match s.queues room with
  | none => s
  | some q =>
    let i := prefixLen nid q
    let rest := q.drop i
    { s with queues := setQ s.queues room (if rest.length = 0 then none else some rest)
             published := s.published ++ (q.take i).map fun e => (true, .event e) }

inductive Op
  | ingest (u : Upd)
  /-- the all-clear for a position, `connstate.go:768-770` -/
  | release (room : String) (nid : Int)
  /-- the oldest timer fires -/
  | tick

def step (user : String) (delay : Bool) (s : State) : Op → State
  | .ingest u => ingest user delay s u
  | .release room nid => publishUpTo s room nid
  | .tick =>
    match s.timers with
    | [] => s
    | (room, nid) :: ts => publishUpTo { s with timers := ts } room nid

def run (user : String) (delay : Bool) (s : State) (ops : List Op) : State := ops.foldl (step user delay) s

end Verif.TxnWaiter
