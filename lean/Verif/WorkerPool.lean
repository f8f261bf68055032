/-!
# Model of the worker pool and of `OnE2EEData`

`internal/pool.go:44-67`: `n` workers and a Go channel with a buffer of `n` functions; `sync2/handler2/handler.go:230-253`: each call
queues one function that writes to the database, and waits for it. The callers are the pollers, one call of each at a time.

Simplified: the write, `Remember` and `wg.Done()` are one step. The pool is never stopped. Functions do not panic.
-/
namespace Verif.WorkerPool

/-- A queued function: who waits for it, and the data it writes. -/
abbrev Job := Nat × Nat

/-- Where a caller is in `OnE2EEData`. -/
inductive Phase
  | idle
  /-- at `wp.ch <- fn`, `pool.go:59` -/
  | queueing (d : Nat)
  /-- at `wg.Wait()`, `handler.go:251` -/
  | waiting (d : Nat)
  /-- after `wg.Done()`, with `retErr == nil` or not -/
  | finished (d : Nat) (ok : Bool)
  deriving DecidableEq

structure State where
  n : Nat
  ch : List Job := []
  /-- what the busy workers run -/
  running : List Job := []
  ph : Nat → Phase := fun _ => .idle
  /-- the successful writes, in order -/
  wrote : List Job := []
  /-- what calls returned: the caller, the data, and whether there was no error -/
  results : List (Nat × Nat × Bool) := []

inductive Op
  | call (c d : Nat)
  | queue (c : Nat)
  /-- a free worker receives from the channel -/
  | take
  /-- the function of this caller ends; `ok` if the write succeeded -/
  | finish (c : Nat) (ok : Bool)
  | ret (c : Nat)
  deriving DecidableEq

def setPh (s : State) (c : Nat) (x : Phase) : Nat → Phase := fun u => if u = c then x else s.ph u

/-- One step; `none` if the caller is not there, or blocked. -/
def step (s : State) : Op → Option State
  | .call c d => if s.ph c = .idle then some { s with ph := setPh s c (.queueing d) } else none
  | .queue c =>
    match s.ph c with
    | .queueing d =>
      if s.ch.length < s.n then some { s with ch := s.ch ++ [(c, d)], ph := setPh s c (.waiting d) } else none
    | _ => none
  | .take =>
    match s.ch with
    | j :: rest => if s.running.length < s.n then some { s with ch := rest, running := s.running ++ [j] } else none
    | [] => none
  | .finish c ok =>
    match s.running.find? (fun j => j.1 == c) with
    | some j =>
      some { s with running := s.running.eraseP (fun j => j.1 == c), ph := setPh s c (.finished j.2 ok),
                    wrote := if ok then s.wrote ++ [j] else s.wrote }
    | none => none
  | .ret c =>
    match s.ph c with
    | .finished d ok => some { s with ph := setPh s c .idle, results := s.results ++ [(c, d, ok)] }
    | _ => none

def run (s : State) : List Op → Option State
  | [] => some s
  | o :: os => (step s o).bind fun s' => run s' os

end Verif.WorkerPool
