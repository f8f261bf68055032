import Verif.KeyFlowProps
/-! C121: how counts and fallback key types are missed, and a run that meets the hypotheses of the theorems. -/
namespace Verif.KeyFlow
open Verif
open Verif.E2EE (Map Out Ev Sync)

def Mode.failing : Mode := { Mode.good with fails := True }
def Mode.lately : Mode := { Mode.good with late := True }

/-- Responses of the homeserver. -/
def one : Sync := { otk := some [("signed_curve25519", 50)], fallback := some ["signed_curve25519"] }
def two : Sync := { otk := some [("signed_curve25519", 49)], fallback := some [] }

def answered (r : Sync) (s : State) : State := { s with evs := s.evs ++ [.sync r true] }
def asked (body : Nat) (s : State) : State := { s with
  evs := s.evs ++ [.read (decide (s.c.pos = 0))]
  c := s.c.serve ⟨body, true, (E2EE.read s.srv (decide (s.c.pos = 0))).2⟩ }
def ended (b : ConnFlow.Busy Out) (fails arrives : Bool) (s : State) : State := { s with c := s.c.finish put b fails arrives }

/-- The client is connected and has the first counts; new ones are stored and the next request has read them. -/
def fetched : State :=
  asked 2 (answered two (ended ⟨1, true, (E2EE.read (answered one {}).srv true).2⟩ false true (asked 1 (answered one {}))))

theorem fetched_run (ok : Mode) : Run ok fetched := by
  have r1 := Run.sync one true (Run.start (ok := ok))
  have r2 := Run.ask 1 r1 rfl (by decide +kernel)
  have r3 := Run.done false true r2 rfl (fun _ h => by cases h)
  have r4 := Run.sync two true r3
  exact Run.ask 2 r4 rfl (by decide +kernel)

theorem fetched_busy : ∃ b, fetched.c.busy = some b ∧ b.out.otk = two.otk ∧ b.out.fallback = two.fallback :=
  ⟨_, rfl, by decide +kernel, by decide +kernel⟩

/-- The client is said to have caught up, but does not have the last fallback key types. -/
theorem missed {ok : Mode} {s : State} (h : Run ok s) (hb : s.c.busy = none) (h0 : s.c.pos ≠ 0) (h1 : s.srv.otkBit = false)
    (h2 : s.srv.fbBit = false) (h3 : ∃ k, s.c.conn = some k ∧ ∀ r ∈ k.buf, r.pos ≤ s.c.pos)
    (hf : s.c.has.fallback ≠ E2EE.upstreamFB s.evs) : ¬ Arrives ok :=
  fun ha => hf (ha s h ⟨hb, h0, h1, h2, h3⟩).1

/-- The request that has read the new counts and fallback key types fails afterwards, by a panic for instance
(sync3/conn.go 224-234). They are marked as sent (state/device_data_table.go 87-103), so the client, which repeats its request, is
not told, until they change again or it connects anew. -/
theorem C121_violated_failing : ¬ Arrives Mode.failing := by
  have r6 := fetched_run Mode.failing
  obtain ⟨b, hb, _⟩ := fetched_busy
  have r7 := Run.done true true r6 hb (fun h => absurd trivial h)
  cases hb
  have r8 := Run.ask 2 r7 rfl (by decide +kernel)
  have r9 := Run.done false true r8 rfl (fun _ h => by cases h)
  exact missed r9 rfl (by decide +kernel) (by decide +kernel) (by decide +kernel) ⟨_, rfl, by decide +kernel⟩ (by decide +kernel)

/-- The response with the new counts and fallback key types is lost with the connection. The client connects again, but turns the
extension on only in its second request: that is no initial one, so only what changed is reported
(sync3/extensions/e2ee.go 65-72). -/
theorem C121_violated_late : ¬ Arrives Mode.lately := by
  have r6 := fetched_run Mode.lately
  have r7 := Run.crash r6
  have r8 := Run.again 2 true r7 rfl (by decide +kernel)
  have r9 := Run.without 3 r8 rfl (by decide +kernel) (fun h => absurd trivial h)
  have r10 := Run.done false true r9 rfl (fun _ h => by cases h)
  have r11 := Run.ask 4 r10 rfl (by decide +kernel)
  have r12 := Run.done false true r11 rfl (fun _ h => by cases h)
  exact missed r12 rfl (by decide +kernel) (by decide +kernel) (by decide +kernel) ⟨_, rfl, by decide +kernel⟩ (by decide +kernel)

/-- C121 for counts of all kinds. -/
def ArrivesAny (ok : Mode) : Prop := ∀ s, Run ok s → CaughtUp s → E2EE.SameOpt s.c.has.otk (E2EE.upstreamOTK s.evs)

/-- After counts for one algorithm the homeserver reports only a zero for another: the poller takes it for no change
(sync2/poller.go 715-727, C37), so the client goes on with keys that are used up. -/
theorem C121_violated_zero : ¬ ArrivesAny Mode.good := by
  intro ha
  have r1 := Run.sync { otk := some [("b", 5)] } true (Run.start (ok := Mode.good))
  have r2 := Run.ask 1 r1 rfl (by decide +kernel)
  have r3 := Run.done false true r2 rfl (fun _ h => by cases h)
  have r4 := Run.sync { otk := some [("a", 0)] } true r3
  have r5 := Run.ask 2 r4 rfl (by decide +kernel)
  have r6 := Run.done false true r5 rfl (fun _ h => by cases h)
  have h := ha _ r6 ⟨rfl, (by decide +kernel), (by decide +kernel), (by decide +kernel), _, rfl, by decide +kernel⟩
  have h' := h "b"
  revert h'
  decide +kernel

/-- The hypotheses are met: a response is lost, the client sends another request at the same position and gets the lost one, then
the other. -/
example : ∃ s, Run Mode.good s ∧ CaughtUp s ∧ s.c.pos = 3 ∧ s.c.has.otk = two.otk ∧ s.c.has.fallback = some [] ∧ Counts s.evs := by
  have r6 := fetched_run Mode.good
  obtain ⟨b, hb, _⟩ := fetched_busy
  have r7 := Run.done false false r6 hb (fun _ h => by cases h)
  cases hb
  have r8 := Run.ask 3 r7 rfl (by decide +kernel)
  have r9 := Run.done false true r8 rfl (fun _ h => by cases h)
  have r10 := Run.again 3 true r9 rfl (by decide +kernel)
  refine ⟨_, r10, ⟨rfl, (by decide +kernel), (by decide +kernel), (by decide +kernel), _, rfl, by decide +kernel⟩, by decide +kernel,
    by decide +kernel, by decide +kernel, ?_⟩
  exact ⟨by decide +kernel, by decide +kernel⟩

/-- And those of `C121_next_partial`, with something new to fetch. -/
example : ∃ s, Run Mode.good s ∧ s.c.busy = none ∧ s.c.calls 2 = true ∧ (∃ k, s.c.conn = some k ∧ k.lastPos = s.c.pos) ∧
    s.srv.otkBit = true ∧ s.c.has.otk ≠ s.srv.otk := by
  have r1 := Run.sync one true (Run.start (ok := Mode.good))
  have r2 := Run.ask 1 r1 rfl (by decide +kernel)
  have r3 := Run.done false true r2 rfl (fun _ h => by cases h)
  have r4 := Run.sync two true r3
  exact ⟨_, r4, rfl, by decide +kernel, ⟨_, rfl, by decide +kernel⟩, by decide +kernel, by decide +kernel⟩

end Verif.KeyFlow
