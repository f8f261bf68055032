/-!
# Model of `sync3/handler/connstate_live.go`: the buffer of updates of a connection and the live loop

The updates of a connection are queued in a channel by several goroutines (the listener which feeds the user caches, and
timers that release events held back for their transaction IDs, `sync3/handler/txn_id_waiter.go:62`) and taken from it by the
request being answered (requests of a connection are serialised by `Conn`).  All sides are modelled as a machine of small
steps that interleave in any order.

Simplifications:
* What an update does to the response (`processUpdate`) and whether the response has data are parameters.
* Time is not modelled: the producer may give up whenever it is waiting, and the request may time out or be cancelled
  whenever it is at the `select` of the loop.
* `bufferFull` is read and written in one step with the rest of `onUpdate`.
-/
namespace Verif.LiveLoop

/-- `processUpdate`, `sync3/handler/connstate_live.go:116-131`, and the negated condition of the loop,
`sync3/handler/connstate_live.go:65`, which depends on `isInitial`. -/
structure Prog (U R : Type) where
  apply : R → U → R
  hasData : Bool → R → Bool
  /-- `maxPendingEventUpdates`, `sync3/handler/connstate.go:83` -/
  cap : Nat
  /-- the goroutine that hands the update to `onUpdate` -/
  src : U → Nat

/-- The request being answered.  `took` are the updates processed for it; before the catch-up their number is
`numProcessedUpdates`.  `r0` and `queued` (the response and the queue when the loop is reached) are only recorded. -/
structure Cur (U R : Type) where
  initial : Bool
  /-- `hasLiveStreamed` -/
  live : Bool := false
  r0 : R
  queued : List U
  took : List U := []
  r : R

/-- Where the request is. -/
inductive Pc (U R : Type)
  /-- no request -/
  | idle
  /-- at the condition of the outer loop, line 65 -/
  | loop (c : Cur U R)
  /-- at the condition of the inner loop, line 88 -/
  | inner (c : Cur U R)
  /-- behind the outer loop, line 100 -/
  | after (c : Cur U R)
  /-- in the catch-up loop with `k` updates to go, line 102 -/
  | catchup (k : Nat) (c : Cur U R)

/-- A finished request; `quit` says that it timed out or was cancelled. -/
structure Done (U R : Type) where
  c : Cur U R
  quit : Bool

structure State (U R : Type) where
  /-- `s.updates` -/
  queue : List U := []
  /-- the update each producer is blocked on, `connstate_live.go:37-38` -/
  waiting : Nat → Option U := fun _ => none
  /-- `s.bufferFull` -/
  full : Bool := false
  pc : Pc U R := .idle
  /-- all updates handed to `onUpdate`, recorded -/
  offered : List U := []
  /-- all responses, recorded -/
  done : List (Done U R) := []

inductive Act (U R : Type)
  /-- `onUpdate` is called -/
  | offer (u : U)
  /-- a blocked producer finds room in the channel -/
  | deliver (p : Nat)
  /-- a blocked producer has waited for `BufferWaitTime` -/
  | giveUp (p : Nat)
  /-- a request reaches the live loop with this response -/
  | begin (initial : Bool) (r : R)
  /-- the request goes on -/
  | go
  /-- the request times out or is cancelled at the `select` -/
  | quit

variable {U R : Type} (P : Prog U R)

/-- The update is processed for the request. -/
def Cur.take (c : Cur U R) (u : U) : Cur U R := { c with took := c.took ++ [u], r := P.apply c.r u }

/-- The request is answered. -/
def finish (s : State U R) (c : Cur U R) (quit : Bool) : State U R := { s with pc := .idle, done := s.done ++ [⟨c, quit⟩] }

/-- The entry of one producer is replaced. -/
def setAt (f : Nat → Option U) (p : Nat) (v : Option U) : Nat → Option U := fun x => if x = p then v else f x

/-- `onUpdate`, `sync3/handler/connstate_live.go:33-47`, up to the `select`; a producer that is waiting does not call it. -/
def offer (s : State U R) (u : U) : Option (State U R) :=
  match s.waiting (P.src u) with
  | some _ => none
  | none =>
    let s := { s with offered := s.offered ++ [u] }
    if s.full then some s
    else if s.queue.length < P.cap then some { s with queue := s.queue ++ [u] }
    else some { s with waiting := setAt s.waiting (P.src u) (some u) }

/-- The `select` sends the update, `sync3/handler/connstate_live.go:38`. -/
def deliver (s : State U R) (p : Nat) : Option (State U R) :=
  match s.waiting p with
  | none => none
  | some u =>
    if s.queue.length < P.cap then some { s with queue := s.queue ++ [u], waiting := setAt s.waiting p none } else none

/-- The `select` times out, `sync3/handler/connstate_live.go:39-45`: the update is dropped and the connection destroyed
(the cancellation of the request by `Destroy` is a `quit`). -/
def giveUp (s : State U R) (p : Nat) : Option (State U R) :=
  match s.waiting p with
  | none => none
  | some _ => some { s with waiting := setAt s.waiting p none, full := true }

/-- A request reaches `liveUpdate`, `sync3/handler/connstate_live.go:49-64`.  A dead connection is removed before it gets
another request (`getConn`, `sync3/connmap.go:119-134`, `Alive`, `sync3/handler/connstate.go:733-735`). -/
def «begin» (s : State U R) (initial : Bool) (r : R) : Option (State U R) :=
  match s.pc with
  | .idle => if s.full then none else some { s with pc := .loop { initial := initial, r0 := r, queued := s.queue, r := r } }
  | _ => none

/-- The next step of the request, `sync3/handler/connstate_live.go:65-115`; `none` if it is blocked. -/
def go (s : State U R) : Option (State U R) :=
  match s.pc with
  | .idle => none
  | .loop c =>
    if P.hasData c.initial c.r then some { s with pc := .after c }
    else
      match s.queue with
      | [] => none
      | u :: q => some { s with queue := q, pc := .inner (({ c with live := true } : Cur U R).take P u) }
  | .inner c =>
    match s.queue with
    | [] => some { s with pc := .loop c }
    | u :: q => if c.took.length < 100 then some { s with queue := q, pc := .inner (c.take P u) } else some { s with pc := .loop c }
  | .after c =>
    if !c.live && !c.initial && decide (s.queue.length > 0) then some { s with pc := .catchup s.queue.length c }
    else some (finish s c false)
  | .catchup 0 c => some (finish s c false)
  | .catchup (k + 1) c =>
    match s.queue with
    | [] => none
    | u :: q => some { s with queue := q, pc := .catchup k (c.take P u) }

/-- The request times out, `sync3/handler/connstate_live.go:70-73,80-83`, or is cancelled,
`sync3/handler/connstate_live.go:76-79`. -/
def quit (s : State U R) : Option (State U R) :=
  match s.pc with
  | .loop c => if P.hasData c.initial c.r then none else some (finish s { c with live := true } true)
  | _ => none

def step (s : State U R) : Act U R → Option (State U R)
  | .offer u => offer P s u
  | .deliver p => deliver P s p
  | .giveUp p => giveUp s p
  | .begin i r => «begin» s i r
  | .go => go P s
  | .quit => quit P s

/-- A sequence of steps; `none` if one of them is not possible. -/
def run (s : State U R) : List (Act U R) → Option (State U R)
  | [] => some s
  | a :: as => (step P s a).bind (run · as)

end Verif.LiveLoop
