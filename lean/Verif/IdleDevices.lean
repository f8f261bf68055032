import Verif.Tokens
/-!
# Expiry of the pollers of idle devices

Every hour `ExpireOldPollers` (`sync2/handler2/handler.go:614-630`) asks the database for devices that have made no request for 30 days and
has their pollers terminated (`sync2/poller.go:225-247`). The query, the look-up of the pollers under the lock of the `PollerMap`, and
the end of each poller are steps of their own; requests fall in between. The tokens are those of `Tokens`; `EnsurePolling` is one step that
starts a poller if none is alive. That a poller whose token is refused ends and deletes the token (`sync2/poller.go:549-585`) is a step.
Writing does not fail.
-/
namespace Verif.IdleDevices
open Verif

abbrev Dev := String × String

/-- A poller: its number, its token, and whether it is not terminated. -/
structure Poller where
  id : Nat
  tok : String
  alive : Bool
  deriving DecidableEq

structure W where
  toks : Tokens.S := {}
  /-- `PollerMap.Pollers` -/
  pollers : List (Dev × Poller) := []
  next : Nat := 0
  /-- the devices of `FindOldDevices` in `ExpireOldPollers` -/
  found : List Dev := []
  /-- `pollersToTerminate` -/
  marked : List (Dev × Poller) := []

inductive Op
  /-- a step of a request at the tokens -/
  | req (o : Tokens.Op)
  /-- `EnsurePolling` for a device with a token -/
  | ensure (d : Dev) (tok : String)
  /-- the poller of the device ends because its token is refused -/
  | refused (d : Dev)
  /-- the query -/
  | find (period now : Int)
  /-- the loop under the lock -/
  | mark
  /-- one turn of the loop after it -/
  | kill

def ensure (w : W) (d : Dev) (tok : String) : W :=
  match Assoc.get w.toks.rows tok with
  | none => w
  | some t =>
    if (t.user, t.device) ≠ d then w
    else
      match Assoc.get w.pollers d with
      | some p => if p.alive then w else { w with pollers := Assoc.set w.pollers d ⟨w.next, tok, true⟩, next := w.next + 1 }
      | none => { w with pollers := Assoc.set w.pollers d ⟨w.next, tok, true⟩, next := w.next + 1 }

/-- `Terminate`, `sync2/poller.go:485-487`: of that poller, which may not be in the map any more. -/
def terminate (ps : List (Dev × Poller)) (id : Nat) : List (Dev × Poller) :=
  ps.map fun e => if e.2.id = id then (e.1, { e.2 with alive := false }) else e

/-- `pollersToTerminate`, `sync2/poller.go:228-235`. -/
def grab (ps : List (Dev × Poller)) : List Dev → List (Dev × Poller)
  | [] => []
  | d :: ds =>
    match Assoc.get ps d with
    | none => grab ps ds
    | some p => if p.alive then (d, p) :: grab ps ds else grab ps ds

/-- What ends a poller: `Terminate` and `OnExpiredToken`, `sync2/poller.go:238-244` and `sync2/handler2/handler.go:198-209`. -/
def finish (w : W) (p : Poller) : W :=
  { w with pollers := terminate w.pollers p.id, toks := Tokens.step w.toks (.delete p.tok) }

def step (w : W) : Op → W
  | .req o => { w with toks := Tokens.step w.toks o }
  | .ensure d tok => ensure w d tok
  | .refused d =>
    match Assoc.get w.pollers d with
    | none => w
    | some p => if p.alive then finish w p else w
  | .find period now => { w with found := Tokens.findOld w.toks period now }
  | .mark => { w with marked := grab w.pollers w.found, found := [] }
  | .kill =>
    match w.marked with
    | [] => w
    | (_, p) :: ms => { finish w p with marked := ms }

def run (ops : List Op) : W := ops.foldl step {}

end Verif.IdleDevices
