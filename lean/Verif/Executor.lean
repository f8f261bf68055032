import Verif.EndToEndMembers
/-!
# Model of the goroutine on which the calls of all pollers are made

Pollers run side by side (`sync2/poller.go:262-312`); `Accumulate` and `Initialise` of the `PollerMap` put a function into a channel without a buffer and
wait for it (`sync2/poller.go:323-340`), and one goroutine runs the functions (`sync2/poller.go:314-318`). A function stores a section of a response in
one transaction (C48) and then publishes what it stored (`sync2/handler2/handler.go:294-316,378-393`), while the listener, requests and live updates (`EndToEnd`)
go on. Between any two of these steps any other may happen; a poller is told from others by a number. The other calls that go through the channel
(`sync2/poller.go:341-415`) are of the same form.

Left out: `Terminate` (`sync2/poller.go:176-199`), which closes the channel and is for tests, and panics, which end the process.
-/
namespace Verif.Executor
open Verif.Store (DB)
open Verif.EndToEnd (Cfg Msg)

/-- Where a poller is in a call, `sync2/poller.go:323-332`. -/
inductive Status
  /-- handling the response, or asking for the next one -/
  | idle
  /-- at `h.executor <- func() {…}` -/
  | offering (o : Store.Op)
  /-- at `wg.Wait()` -/
  | waiting (o : Store.Op)
  /-- `wg.Done()` was called; `ok` says that `err` is nil -/
  | ready (o : Store.Op) (ok : Bool)

/-- Where the function is that the goroutine runs. -/
inductive Stage
  | taken
  | stored (pub : List Msg) (ok : Bool)
  | published (ok : Bool)

structure State where
  /-- the rest of the process -/
  e : EndToEnd.State := {}
  /-- `executorRunning`, `sync2/poller.go:264-267` -/
  running : Bool := false
  pollers : Nat → Option Status := fun _ => none
  /-- the function that is run: whose call it is, what is to be stored -/
  exec : Option (Nat × Store.Op × Stage) := none
  /-- recorded, since the process started: the calls pollers made -/
  asked : List (Nat × Store.Op) := []
  /-- recorded, since the process started: what was stored, for whom, and if there was no error -/
  log : List (Nat × Store.Op × Bool) := []
  /-- recorded, since the process started: the calls that have returned, with what they returned -/
  rets : List (Nat × Store.Op × Bool) := []
  /-- recorded: the database when the process started -/
  db0 : DB := {}
  /-- recorded: all that was ever stored -/
  all : List Store.Op := []

/-- The transaction has no error. -/
def succeeds (db : DB) : Store.Op → Bool
  | .acc r k l t => (Store.accumulate db r k l t).isSome
  | .init r k b => (Store.initialise db r k b).isSome

def setP (f : Nat → Option Status) (t : Nat) (v : Status) : Nat → Option Status := fun x => if x = t then some v else f x

inductive Op
  /-- `EnsurePolling` starts a poller, `sync2/poller.go:262-312` -/
  | ensure (t : Nat)
  /-- a poller calls `Accumulate` or `Initialise`, `sync2/poller.go:323-340` -/
  | call (t : Nat) (o : Store.Op)
  /-- the goroutine receives a function, `sync2/poller.go:315` -/
  | take (t : Nat)
  /-- the transaction of the function -/
  | store
  /-- its messages are published -/
  | publish
  /-- `wg.Done()`, and the function returns -/
  | done
  /-- the call returns, `sync2/poller.go:330-331` -/
  | ret (t : Nat)
  | recv
  | «open»
  | request (xs : List (String × Nat))
  | view (vis : Bool) (xs : List (String × Nat))
  /-- the process ends, at any moment, and starts again -/
  | restart

/-- One step; a step that is not possible changes nothing. -/
def step (cfg : Cfg) (s : State) : Op → State
  | .ensure t =>
    match s.pollers t with
    | none => { s with running := true, pollers := setP s.pollers t .idle }
    | some _ => { s with running := true }
  | .call t o =>
    match s.pollers t with
    | some .idle => { s with pollers := setP s.pollers t (.offering o), asked := s.asked ++ [(t, o)] }
    | _ => s
  | .take t =>
    match s.running, s.exec, s.pollers t with
    | true, none, some (.offering o) => { s with exec := some (t, o, .taken), pollers := setP s.pollers t (.waiting o) }
    | _, _, _ => s
  | .store =>
    match s.exec with
    | some (t, o, .taken) =>
      { s with
        e := { s.e with db := Store.step s.e.db o }
        exec := some (t, o, .stored (EndToEnd.publish s.e.db o) (succeeds s.e.db o))
        log := s.log ++ [(t, o, succeeds s.e.db o)]
        all := s.all ++ [o] }
    | _ => s
  | .publish =>
    match s.exec with
    | some (t, o, .stored pub ok) => { s with e := { s.e with bus := s.e.bus ++ pub }, exec := some (t, o, .published ok) }
    | _ => s
  | .done =>
    match s.exec with
    | some (t, o, .published ok) => { s with exec := none, pollers := setP s.pollers t (.ready o ok) }
    | _ => s
  | .ret t =>
    match s.pollers t with
    | some (.ready o ok) => { s with pollers := setP s.pollers t .idle, rets := s.rets ++ [(t, o, ok)] }
    | _ => s
  | .recv => { s with e := EndToEnd.step cfg s.e .recv }
  | .open => { s with e := EndToEnd.step cfg s.e .open }
  | .request xs => { s with e := EndToEnd.step cfg s.e (.request xs) }
  | .view vis xs => { s with e := EndToEnd.step cfg s.e (.take vis xs) }
  | .restart => { e := EndToEnd.restart cfg s.e, db0 := s.e.db, all := s.all }

def run (cfg : Cfg) (ops : List Op) : State := ops.foldl (step cfg) {}

end Verif.Executor
