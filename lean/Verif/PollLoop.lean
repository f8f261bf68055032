import Verif.Poller
/-!
# Model of a poller's life: the loop around `poll`

`Poll` (`sync2/poller.go:499-544`): the loop, what ends it, and what it does at its end. `poll` itself is in `Poller`.

Simplified: `poll` panics (a step) only before it announces the first sync; its panic leaves the receiver in any state. The
callbacks that run on the executor's goroutine (`sync2/poller.go:314-318`) are not recovered there, so a panic in one ends the
process; a panic here is one in the poller's own goroutine.
-/
namespace Verif.PollLoop
open Verif.Poller

variable {σ : Type}

/-- A poller: the variables of its loop, whether `Poll` has returned, and the calls of `OnTerminated`. -/
structure St (σ : Type) where
  w : World σ
  returned : Bool := false
  ended : Nat := 0

/-- What a poller goes through. -/
inductive Step (σ : Type)
  /-- `Terminate` is called by another goroutine, `sync2/poller.go:485-487` -/
  | kill
  /-- the loop comes to its test -/
  | turn (t : Turn)
  /-- so, and `poll` panics -/
  | panic (m : M σ)

/-- A new poller, `sync2/poller.go:464-478,523-529`. -/
def start (m : M σ) (since : String) (toDeviceOnly : Bool) : St σ :=
  { w := ⟨m, { since := since, toDeviceOnly := toDeviceOnly }, since⟩ }

/-- After the loop, `sync2/poller.go:538-543`, and the deferred call, `sync2/poller.go:511-521`. -/
def finish (s : St σ) (w : World σ) : St σ :=
  { w := if w.lp.firstTime then { w with lp := { w.lp with firstTime := false, ready := w.lp.ready + 1 } } else w
    returned := true
    ended := s.ended + 1 }

/-- sync2/poller.go 530-537 (and the deferred function for a panic). -/
def step (rcv : Rcv σ) (user : String) (s : St σ) : Step σ → St σ
  | .kill => { s with w := { s.w with lp := { s.w.lp with terminated := true } } }
  | .turn t =>
    if s.returned then s
    else if s.w.lp.terminated then finish s s.w
    else
      let r := poll rcv user s.w t
      if r.2 then { s with w := r.1 } else finish s r.1
  | .panic m =>
    if s.returned then s
    else if s.w.lp.terminated then finish s s.w
    else { w := { s.w with m := m }, returned := true, ended := s.ended + 1 }

end Verif.PollLoop
