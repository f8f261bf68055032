/-!
# Model of a channel of the pub/sub

`pubsub/pubsub.go`: `Notify` (78-94), `Close` (96-107), `Listen` (109-118), over a Go channel with a buffer of `n` payloads.
Any number of goroutines notify, one listens. Every step another goroutine can see is an operation, in any order.

Simplified: one channel name; the mutex of the `PubSub` is modelled. `Close` is called by one goroutine, so that its unlocked read
of `closed` is not a race. Time-outs may happen at any time. Callbacks do not panic.
-/
namespace Verif.PubSub

inductive Item
  | msg (p : Nat)
  /-- `emptyPayload`, `pubsub.go:30-34` -/
  | empty
  deriving DecidableEq

/-- Where a goroutine is in `Notify`. -/
inductive Phase
  | idle
  /-- in the `select`, `pubsub.go:80-85` -/
  | sending (p : Nat)
  /-- before `ps.mu.Lock()`, `pubsub.go:89` -/
  | locking (p : Nat)
  /-- at `ch <- &emptyPayload{}`, `pubsub.go:90` -/
  | syncing (p : Nat)
  deriving DecidableEq

/-- Where the listener is in `Listen`. -/
inductive Lsn
  | waiting
  | busy (p : Nat)
  | ended
  deriving DecidableEq

structure State where
  n : Nat
  buf : List Item := []
  closed : Bool := false
  lsn : Lsn := .waiting
  ph : Nat → Phase := fun _ => .idle
  /-- who holds `ps.mu` -/
  mu : Option Nat := none
  /-- the payloads whose callback has returned -/
  delivered : List Nat := []
  /-- what calls of `Notify` returned: the goroutine, the payload, and whether there was no error -/
  results : List (Nat × Nat × Bool) := []

inductive Op
  /-- a goroutine calls `Notify`, up to `getChan` -/
  | call (t p : Nat)
  | send (t : Nat)
  | timeout (t : Nat)
  | lock (t : Nat)
  | sync (t : Nat)
  /-- the listener receives -/
  | recv
  /-- the callback returns -/
  | done
  | close
  deriving DecidableEq

inductive Res
  /-- the goroutine is not there, or blocked -/
  | stuck
  | panic
  | ok (s : State)

def setPh (s : State) (t : Nat) (x : Phase) : Nat → Phase := fun u => if u = t then x else s.ph u

/-- What the listener does with an item, `pubsub.go:111-116`. -/
def take : Item → Lsn
  | .msg p => .busy p
  | .empty => .waiting

/-- A send on the channel, if it does not block. Without a buffer it needs the listener at its receive. -/
def push (s : State) (x : Item) : Option State :=
  if s.n = 0 then
    if s.lsn = .waiting then some { s with lsn := take x } else none
  else if s.buf.length < s.n then some { s with buf := s.buf ++ [x] }
  else none

def step (s : State) : Op → Res
  | .call t p =>
    -- `getChan` takes the mutex, `pubsub.go:68-77`
    if s.ph t = .idle ∧ s.mu = none then .ok { s with ph := setPh s t (.sending p) } else .stuck
  | .send t =>
    match s.ph t with
    | .sending p =>
      if s.closed then .panic
      else match push s (.msg p) with
        | none => .stuck
        | some s' =>
          if s.n = 0 then .ok { s' with ph := setPh s t (.locking p) }
          else .ok { s' with ph := setPh s t .idle, results := s.results ++ [(t, p, true)] }
    | _ => .stuck
  | .timeout t =>
    match s.ph t with
    | .sending p => .ok { s with ph := setPh s t .idle, results := s.results ++ [(t, p, false)] }
    | _ => .stuck
  | .lock t =>
    match s.ph t with
    | .locking p => if s.mu = none then .ok { s with mu := some t, ph := setPh s t (.syncing p) } else .stuck
    | _ => .stuck
  | .sync t =>
    match s.ph t with
    | .syncing p =>
      if s.closed then .panic
      else match push s .empty with
        | none => .stuck
        | some s' => .ok { s' with mu := none, ph := setPh s t .idle, results := s.results ++ [(t, p, true)] }
    | _ => .stuck
  | .recv =>
    match s.lsn with
    | .waiting =>
      match s.buf with
      | x :: rest => .ok { s with buf := rest, lsn := take x }
      | [] => if s.closed then .ok { s with lsn := .ended } else .stuck
    | _ => .stuck
  | .done =>
    match s.lsn with
    | .busy p => .ok { s with lsn := .waiting, delivered := s.delivered ++ [p] }
    | _ => .stuck
  | .close =>
    if s.closed then .ok s
    else if s.mu = none then .ok { s with closed := true } else .stuck

/-- Steps one after the other; ends at the first that does not go through. -/
def run (s : State) : List Op → Res
  | [] => .ok s
  | o :: os =>
    match step s o with
    | .ok s' => run s' os
    | r => r

end Verif.PubSub
