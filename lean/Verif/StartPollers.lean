/-!
# Model of starting the pollers at start-up

`StartV2Pollers`, `sync2/handler2/handler.go:124-177`: workers take the tokens from a channel and share the variable `err`.
-/
namespace Verif.StartPollers

/-- A row of `TokenForEachDevice`; the access token is empty if it could not be decrypted. -/
structure Token where
  user : String
  dev : String
  access : String
deriving DecidableEq, Repr

/-- Where a worker is, `handler.go:151-171`. -/
inductive Phase
  /-- about to receive from the channel -/
  | idle
  /-- in `EnsurePolling`, line 156 -/
  | calling (t : Token)
  /-- `err` is assigned, line 156; line 160 is next -/
  | wrote (t : Token)
  /-- past line 160-164; the notification of line 165 is next, which reads `err` again -/
  | checked (t : Token)
deriving DecidableEq, Repr

structure State where
  /-- the closed channel -/
  queue : List Token
  workers : List Phase
  /-- whether the shared `err` is not nil -/
  failed : Bool := false
  /-- the notifications, with `Success` -/
  sent : List (Token × Bool) := []
deriving DecidableEq, Repr

/-- `handler.go:124-149`, with any number of workers (the code has 16). -/
def start (tokens : List Token) (n : Nat) : State :=
  { queue := tokens.filter fun t => decide (t.access ≠ ""), workers := List.replicate n .idle }

inductive Act
  | take (w : Nat)
  /-- `EnsurePolling` returns; `ok` if without an error -/
  | finish (w : Nat) (ok : Bool)
  | check (w : Nat)
  | notify (w : Nat)
deriving DecidableEq, Repr

/-- One step of one worker; `none` if the worker is not there.  Steps are atomic: Go gives no such promise for the
unsynchronised `err`. -/
def step (s : State) : Act → Option State
  | .take w =>
    match s.workers[w]?, s.queue with
    | some .idle, t :: q => some { s with queue := q, workers := s.workers.set w (.calling t) }
    | _, _ => none
  | .finish w ok =>
    match s.workers[w]? with
    | some (.calling t) => some { s with failed := !ok, workers := s.workers.set w (.wrote t) }
    | _ => none
  | .check w =>
    match s.workers[w]? with
    | some (.wrote t) => some { s with workers := s.workers.set w (.checked t) }
    | _ => none
  | .notify w =>
    match s.workers[w]? with
    | some (.checked t) => some { s with sent := s.sent ++ [(t, !s.failed)], workers := s.workers.set w .idle }
    | _ => none

def run (s : State) : List Act → Option State
  | [] => some s
  | a :: l => (step s a).bind fun s' => run s' l

end Verif.StartPollers
