import Verif.E2EE
import Verif.ConnFlow
/-!
One-time key counts and unused fallback key types from the homeserver to the client: the poller (`E2EE.parse`,
sync2/poller.go 709-772, with the v2 handler as receiver, sync2/handler2/handler.go 230-253), the row of `syncv3_device_data`
(`E2EE.upsert`, `E2EE.read`), the extension, the connection with its buffer of responses and the client (`ConnFlow`).

One device with one poller and one connection at a time. A request begins with a read of the tables if the extension is on
(sync3/handler/connstate.go 226-237), may be woken up and read again while it has nothing (sync3/extensions/e2ee.go 43-55), and
ends. The rest of a response is not modelled, device lists are as far as they decide whether a request is woken up (C119 is about
them).
-/
namespace Verif.KeyFlow
open Verif
open Verif.E2EE (Map Out Ev Sync)

/-- What the client has: counts and fallback key types. -/
structure Has where
  otk : Option Map := none
  fallback : Option (List String) := none

/-- The client takes what is in a response. Counts without an entry are left out of it (`omitempty`,
sync3/extensions/e2ee.go 25-29), fallback key types without an entry are not (a pointer). -/
def put (h : Has) (o : Out) : Has where
  otk := match o.otk with
    | some (x :: m) => some (x :: m)
    | _ => h.otk
  fallback := match o.fallback with
    | some f => some f
    | none => h.fallback

/-- The whole. `evs` is what happened to the poller and the tables. -/
structure State where
  evs : List Ev := []
  c : ConnFlow.Client Out Has := { has := {} }

/-- The tables. -/
def State.srv (s : State) : E2EE.State := (E2EE.evRun s.evs).2

/-- What is possible. -/
structure Mode where
  /-- a request, not the first of its connection, fails after reading counts or fallback key types -/
  fails : Prop
  /-- the extension is not in the first request of a connection -/
  late : Prop

/-- No restriction. -/
def Mode.any : Mode := ⟨True, True⟩

/-- Executions. -/
inductive Run (ok : Mode) : State → Prop
  /-- a device unknown to the proxy -/
  | start : Run ok {}
  /-- a response of the homeserver; `stored`: the database takes the write, else the error is returned and the request repeated -/
  | sync {s : State} (r : Sync) (stored : Bool) (h : Run ok s) : Run ok { s with evs := s.evs ++ [.sync r stored] }
  /-- a new poller -/
  | restart {s : State} (h : Run ok s) : Run ok { s with evs := s.evs ++ [.restart] }
  /-- a request which is answered without the handler -/
  | again {s : State} (body : Nat) (arrives : Bool) (h : Run ok s) (hb : s.c.busy = none) (hc : s.c.calls body = false) :
      Run ok { s with c := s.c.repeated put body arrives }
  /-- a request without the extension -/
  | without {s : State} (body : Nat) (h : Run ok s) (hb : s.c.busy = none) (hc : s.c.calls body = true)
      (hl : ¬ ok.late → s.c.pos ≠ 0) : Run ok { s with c := s.c.serve ⟨body, false, {}⟩ }
  /-- a request with it, sync3/handler/handler.go 592-633 -/
  | ask {s : State} (body : Nat) (h : Run ok s) (hb : s.c.busy = none) (hc : s.c.calls body = true) :
      Run ok { s with
        evs := s.evs ++ [.read (decide (s.c.pos = 0))]
        c := s.c.serve ⟨body, true, (E2EE.read s.srv (decide (s.c.pos = 0))).2⟩ }
  /-- the request is woken up and reads again, as there is nothing yet -/
  | wake {s : State} {b : ConnFlow.Busy Out} (h : Run ok s) (hb : s.c.busy = some b) (hon : b.on = true)
      (he : (b.out.otk = none ∨ b.out.otk = some []) ∧ b.out.fallback = none ∧ ∀ u, b.out.lists u = none) :
      Run ok { s with
        evs := s.evs ++ [.read false]
        c := { s.c with busy := some { b with out := (E2EE.read s.srv false).2 } } }
  /-- the request ends -/
  | done {s : State} {b : ConnFlow.Busy Out} (fails arrives : Bool) (h : Run ok s) (hb : s.c.busy = some b)
      (hf : ¬ ok.fails → fails = true → s.c.pos = 0 ∨ (b.out.otk = none ∧ b.out.fallback = none)) :
      Run ok { s with c := s.c.finish put b fails arrives }
  /-- the proxy restarts or the connection expires (a restart of the poller is a step of its own) -/
  | crash {s : State} (h : Run ok s) : Run ok { s with c := s.c.lose }

end Verif.KeyFlow
