import Verif.Util
/-!
# Model of `sync3/handler/ensure_polling.go`

One `pendingPolls` entry (the entries of different devices do not interact).  The mutex makes each
critical section one step; waiting on a channel and what follows it is a separate step
(`wake`), possible once the channel is closed.  Closing a closed or nil channel panics, which
is `none`.
-/
namespace Verif.EnsurePoller

/-- `pendingInfo`, `ensure_polling.go:15-26`; `ch = none` is the nil channel. -/
structure Info where
  done : Bool
  expired : Bool
  ch : Option Nat
  deriving DecidableEq

structure State where
  /-- `pendingPolls[pid]` -/
  entry : Option Info := none
  closed : List Nat := []
  nextCh : Nat := 0
  /-- callers blocked on a channel: caller and channel -/
  waiting : List (Nat × Nat) := []
  /-- what callers were told: caller and whether the token is expired -/
  told : List (Nat × Bool) := []
  /-- number of `V3EnsurePolling` notifications -/
  notified : Nat := 0
  deriving DecidableEq

/-- `close(ch)`. -/
def close (s : State) : Option Nat → Option State
  | none => none
  | some c => if c ∈ s.closed then none else some { s with closed := c :: s.closed }

/-- The zero `pendingInfo` for a missing entry. -/
def zero : Info := ⟨false, false, none⟩

inductive Op
  /-- a caller enters `EnsurePolling` -/
  | call (id : Nat)
  /-- a caller blocked on a closed channel continues -/
  | wake (id : Nat)
  | complete (success : Bool)
  | expire
  deriving DecidableEq

/-- `EnsurePolling` from the point where the entry is known not to be finished,
`ensure_polling.go:87-122`. -/
def waitOrStart (s : State) (id : Nat) : State :=
  match (s.entry.getD zero).ch with
  | some c => { s with waiting := s.waiting ++ [(id, c)] }
  | none => { s with entry := some ⟨false, false, some s.nextCh⟩, nextCh := s.nextCh + 1,
                     waiting := s.waiting ++ [(id, s.nextCh)], notified := s.notified + 1 }

/-- `EnsurePolling` up to blocking or returning, `ensure_polling.go:66-122`. -/
def call (s : State) (id : Nat) : Option State :=
  let e := s.entry.getD zero
  if !e.expired && e.done then some { s with told := s.told ++ [(id, false)] }
  else if e.expired then
    match e.ch with
    | some c => (close s (some c)).map fun s => waitOrStart { s with entry := none } id
    | none => some (waitOrStart { s with entry := none } id)
  else some (waitOrStart s id)

/-- The rest of `EnsurePolling`, `ensure_polling.go:96-101,121-127`: all callers waiting with
this id whose channel is closed. -/
def wake (s : State) (id : Nat) : State :=
  let ready := s.waiting.filter fun w => w.1 = id && decide (w.2 ∈ s.closed)
  { s with waiting := s.waiting.filter (fun w => !(w.1 = id && decide (w.2 ∈ s.closed)))
           told := s.told ++ ready.map fun w => (w.1, (s.entry.getD zero).expired) }

/-- `OnInitialSyncComplete`, `ensure_polling.go:130-167`. -/
def complete (s : State) (success : Bool) : Option State :=
  match s.entry with
  | none => some { s with entry := some ⟨true, !success, none⟩ }
  | some p =>
    if p.done then some s
    else close { s with entry := some ⟨true, p.expired || !success, none⟩ } p.ch

/-- `OnExpiredToken`, `ensure_polling.go:169-184`. -/
def expire (s : State) : State :=
  match s.entry with
  | none => s
  | some p => { s with entry := some { p with expired := true } }

def step (s : State) : Op → Option State
  | .call id => call s id
  | .wake id => some (wake s id)
  | .complete b => complete s b
  | .expire => some (expire s)

/-- Run; `none` after a panic. -/
def run (s : State) : List Op → Option State
  | [] => some s
  | o :: os => (step s o).bind fun s' => run s' os

end Verif.EnsurePoller
