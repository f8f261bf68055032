import Verif.Util
/-!
`PollerMap` (sync2/poller.go 83-310) and the life of a poller (sync2/poller.go 477-544).

`EnsurePolling` holds the mutex up to the point where it waits, so each call is one step. Pollers terminate (by
themselves, by `ExpirePollers` or by `Terminate`) and their goroutines end at any moment in between. The
executor, metrics and the requests are not modelled here.
-/
namespace Verif.PollerMap

/-- User and device. -/
abbrev Pid := String × String

/-- A poller. -/
structure P where
  pid : Pid
  /-- the flag `terminated` -/
  terminated : Bool := false
  /-- the goroutine running `Poll` has ended -/
  stopped : Bool := false
  /-- `wg.Done` was called: waiters continue -/
  synced : Bool := false
  toDeviceOnly : Bool := false
deriving DecidableEq, Repr

/-- All pollers ever made, in order, and the map, from ids to positions. -/
structure State where
  all : List P := []
  cur : List (Pid × Nat) := []
deriving DecidableEq, Repr

def lookup (m : List (Pid × Nat)) (pid : Pid) : Option Nat := (m.find? fun e => decide (e.1 = pid)).map (·.2)

/-- Map assignment. -/
def assign (m : List (Pid × Nat)) (pid : Pid) (i : Nat) : List (Pid × Nat) :=
  m.filter (fun e => decide (e.1 ≠ pid)) ++ [(pid, i)]

/-- The poller at a position exists and is not terminated. -/
def live (s : State) (i : Nat) : Bool :=
  match s.all[i]? with
  | none => false
  | some p => !p.terminated

inductive Res
  /-- there is a poller: wait for its first sync -/
  | existing (i : Nat)
  /-- a poller was started; wait for its first sync if told so -/
  | created (i : Nat) (wait : Bool)
deriving DecidableEq, Repr

/-- sync2/poller.go 256-305 `EnsurePolling`, up to waiting. -/
def ensure (s : State) (pid : Pid) (isStartup : Bool) : State × Res :=
  match (lookup s.cur pid).filter (live s) with
  | some i => (s, .existing i)
  | none =>
    let needToWait := !(s.cur.any fun e => decide (e.1.1 = pid.1) && decide (e.1.2 ≠ pid.2) && live s e.2)
    ({ all := s.all ++ [{ pid := pid, toDeviceOnly := !needToWait && !isStartup }]
       cur := assign s.cur pid s.all.length }, .created s.all.length needToWait)

def update (s : State) (i : Nat) (f : P → P) : State :=
  match s.all[i]? with
  | none => s
  | some p => { s with all := s.all.set i (f p) }

inductive Op
  | ensure (pid : Pid) (isStartup : Bool)
  /-- `Terminate` on a poller: by itself (sync2/poller.go 559-560, 590-591), by `ExpirePollers` (239) or all (180). -/
  | terminate (i : Nat)
  /-- the first sync is done (sync2/poller.go 649-652) -/
  | synced (i : Nat)
  /-- `Poll` returns after its loop (sync2/poller.go 528-543): it does so only once terminated, as every error of `poll`
  comes with termination. -/
  | stop (i : Nat)
  /-- `Poll` ends by a panic, which is recovered (sync2/poller.go 512-522). -/
  | panic (i : Nat)
deriving DecidableEq, Repr

def step (s : State) : Op → State
  | .ensure pid b => (ensure s pid b).1
  | .terminate i => update s i fun p => { p with terminated := true }
  | .synced i => update s i fun p => if p.stopped then p else { p with synced := true }
  | .stop i => update s i fun p => if p.terminated then { p with stopped := true, synced := true } else p
  | .panic i => update s i fun p => { p with stopped := true }

def run (ops : List Op) : State := ops.foldl step {}

end Verif.PollerMap
