import Verif.PubSub
/-! # C87: payloads on a channel of the pub/sub -/
namespace Verif.PubSub

/-! ## Specification -/

/-- The payloads sent, in order, read off the operations: a goroutine sends what it last called `Notify` with. -/
def sent (pend : Nat → Option Nat) : List Op → List Nat
  | [] => []
  | .call t p :: os => sent (fun u => if u = t then some p else pend u) os
  | .send t :: os => (pend t).toList ++ sent pend os
  | _ :: os => sent pend os

/-- The payload whose callback runs. -/
def current (s : State) : List Nat :=
  match s.lsn with
  | .busy p => [p]
  | _ => []

/-- The payloads in the buffer. -/
def waiting : List Item → List Nat
  | [] => []
  | .msg p :: b => p :: waiting b
  | .empty :: b => waiting b

/-- The payloads of successful calls, in the order of their return. -/
def succeeded (s : State) : List Nat := s.results.filterMap fun r => if r.2.2 then some r.2.1 else none

/-! ## Lemmas -/

theorem waiting_append (a b : List Item) : waiting (a ++ b) = waiting a ++ waiting b := by
  induction a with
  | nil => rfl
  | cons x a ih => cases x <;> simp [waiting, ih]

/-- Everything the channel has taken, in order. -/
def all (s : State) : List Nat := s.delivered ++ current s ++ waiting s.buf

def itemList : Item → List Nat
  | .msg p => [p]
  | .empty => []

structure Inv (s : State) : Prop where
  bound : s.buf.length ≤ s.n
  mem : ∀ t p, s.ph t = .locking p ∨ s.ph t = .syncing p → p ∈ all s ∧ s.n = 0
  mu : ∀ t, s.mu = some t ↔ ∃ p, s.ph t = .syncing p
  ended : s.lsn = .ended → s.buf = [] ∧ s.closed = true
  zero : s.n = 0 → ∀ r ∈ s.results, r.2.2 = true → r.2.1 ∈ s.delivered
  pos : s.n ≠ 0 → succeeded s = all s

theorem push_all {s s' : State} {x : Item} (h : Inv s) (hp : push s x = some s') : all s' = all s ++ itemList x := by
  unfold push at hp
  split at hp
  · rename_i hn
    have hb : s.buf = [] := List.length_eq_zero_iff.1 (by have := h.bound; omega)
    split at hp
    · rename_i hl
      cases hp
      cases x <;> simp [all, current, take, hl, hb, waiting, itemList]
    · cases hp
  · split at hp
    · cases hp
      cases x <;> simp [all, current, waiting_append, waiting, itemList]
    · cases hp

/-- What `push` leaves alone, and what holds after it. -/
theorem push_frame {s s' : State} {x : Item} (hp : push s x = some s') :
    s'.n = s.n ∧ s'.closed = s.closed ∧ s'.ph = s.ph ∧ s'.mu = s.mu ∧ s'.delivered = s.delivered ∧ s'.results = s.results ∧
    (s.buf.length ≤ s.n → s'.buf.length ≤ s'.n) ∧ (s'.lsn = .ended → s.lsn = .ended ∧ s.n ≠ 0 ) := by
  unfold push at hp
  split at hp
  · split at hp
    · cases hp
      refine ⟨rfl, rfl, rfl, rfl, rfl, rfl, id, fun h => ?_⟩
      cases x <;> simp [take] at h
    · cases hp
  · rename_i hn
    split at hp
    · rename_i hl
      cases hp
      exact ⟨rfl, rfl, rfl, rfl, rfl, rfl, fun _ => by simp; omega, fun h => ⟨h, hn⟩⟩
    · cases hp

theorem init_inv (n : Nat) : Inv { n := n } := by
  refine ⟨by simp, fun t p h => ?_, fun t => ?_, fun h => (by cases h), fun _ r h => (by cases h), fun _ => rfl⟩
  · rcases h with h | h <;> cases h
  · simp

/-- What a step adds to what the channel has taken. -/
def adds (s : State) : Op → List Nat
  | .send t => match s.ph t with | .sending p => [p] | _ => []
  | _ => []

theorem succeeded_snoc (s : State) (t p : Nat) (b : Bool) (s' : State) (h : s'.results = s.results ++ [(t, p, b)]) :
    succeeded s' = succeeded s ++ (if b then [p] else []) := by
  unfold succeeded
  rw [h, List.filterMap_append]
  cases b <;> rfl

theorem step_inv {s s' : State} {o : Op} (h : Inv s) (hs : step s o = .ok s') :
    Inv s' ∧ s'.n = s.n ∧ all s' = all s ++ adds s o := by
  cases o with
  | call t p =>
    unfold step at hs
    simp only at hs
    split at hs
    · rename_i hc
      cases hs
      refine ⟨⟨h.bound, fun u q hu => h.mem u q ?_, fun u => ?_, h.ended, h.zero, h.pos⟩, rfl, by simp [adds]; rfl⟩
      · simp only [setPh] at hu
        split at hu
        · rcases hu with hu | hu <;> cases hu
        · exact hu
      · simp only [setPh]
        split
        · rename_i hu; subst hu; simp [hc.2]
        · exact h.mu u
    · cases hs
  | send t =>
    unfold step at hs
    simp only at hs
    split at hs
    · rename_i p hph
      split at hs
      · cases hs
      · rename_i hcl
        split at hs
        · cases hs
        · rename_i s1 hp
          have ha := push_all h hp
          obtain ⟨f1, f2, f3, f4, f5, f6, f7, f8⟩ := push_frame hp
          have hadd : adds s (.send t) = [p] := by simp [adds, hph]
          have hend : s1.lsn = .ended → s1.buf = [] ∧ s1.closed = true := fun he =>
            absurd (h.ended (f8 he).1).2 hcl
          split at hs
          · rename_i hn
            cases hs
            refine ⟨⟨f7 h.bound, fun u q hu => ?_, fun u => ?_, hend, fun _ r hr hb => ?_, fun hn' => absurd (f1.trans hn) hn'⟩, f1, ?_⟩
            · have hall : q ∈ all s1 → q ∈ all { s1 with ph := setPh s t (.locking p) } := id
              simp only [setPh] at hu
              split at hu
              · rcases hu with hu | hu
                · cases hu
                  exact ⟨hall (by rw [ha]; simp [itemList]), f1.trans hn⟩
                · cases hu
              · exact ⟨hall (by rw [ha]; exact List.mem_append_left _ (h.mem u q hu).1), f1.trans hn⟩
            · show s1.mu = some u ↔ _
              rw [f4, h.mu u]
              simp only [setPh]
              split
              · rename_i hu; subst hu; simp [hph]
              · exact Iff.rfl
            · have hr : r ∈ s1.results := hr
              rw [f6] at hr
              show r.2.1 ∈ s1.delivered
              rw [f5]
              exact h.zero hn r hr hb
            · rw [hadd]; exact ha
          · rename_i hn
            cases hs
            refine ⟨⟨f7 h.bound, fun u q hu => ?_, fun u => ?_, hend, fun hn' => absurd (f1.symm.trans hn') hn, fun _ => ?_⟩, f1, ?_⟩
            · simp only [setPh] at hu
              split at hu
              · rcases hu with hu | hu <;> cases hu
              · exact absurd (h.mem u q hu).2 hn
            · show s1.mu = some u ↔ _
              rw [f4, h.mu u]
              simp only [setPh]
              split
              · rename_i hu; subst hu; simp [hph]
              · exact Iff.rfl
            · rw [succeeded_snoc s t p true _ rfl, h.pos hn]
              exact ha.symm
            · rw [hadd]; exact ha
    · cases hs
  | timeout t =>
    unfold step at hs
    simp only at hs
    split at hs
    · rename_i p hph
      cases hs
      refine ⟨⟨h.bound, fun u q hu => h.mem u q ?_, fun u => ?_, h.ended, fun hn r hr hb => ?_, fun hn => ?_⟩, rfl, by simp [adds]; rfl⟩
      · simp only [setPh] at hu
        split at hu
        · rcases hu with hu | hu <;> cases hu
        · exact hu
      · show s.mu = some u ↔ _
        rw [h.mu u]
        simp only [setPh]
        split
        · rename_i hu; subst hu; simp [hph]
        · exact Iff.rfl
      · have hr : r ∈ s.results ++ [(t, p, false)] := hr
        rcases List.mem_append.1 hr with hr | hr
        · exact h.zero hn r hr hb
        · rw [List.mem_singleton.1 hr] at hb; cases hb
      · rw [succeeded_snoc s t p false _ rfl]
        exact (List.append_nil _).trans (h.pos hn)
    · cases hs
  | lock t =>
    unfold step at hs
    simp only at hs
    split at hs
    · rename_i p hph
      split at hs
      · rename_i hm
        cases hs
        refine ⟨⟨h.bound, fun u q hu => ?_, fun u => ?_, h.ended, h.zero, h.pos⟩, rfl, by simp [adds]; rfl⟩
        · simp only [setPh] at hu
          split at hu
          · rename_i hut
            subst hut
            rcases hu with hu | hu
            · cases hu
            · cases hu
              exact h.mem u p (.inl hph)
          · exact h.mem u q hu
        · show some t = some u ↔ _
          simp only [setPh]
          split
          · rename_i hu; subst hu; simp
          · rename_i hu
            constructor
            · intro e; cases e; exact absurd rfl hu
            · intro e; have := (h.mu u).2 e; rw [hm] at this; cases this
      · cases hs
    · cases hs
  | sync t =>
    unfold step at hs
    simp only at hs
    split at hs
    · rename_i p hph
      have hmem := h.mem t p (.inr hph)
      have hmu : s.mu = some t := (h.mu t).2 ⟨p, hph⟩
      split at hs
      · cases hs
      · rename_i hcl
        split at hs
        · cases hs
        · rename_i s1 hp
          have ha := push_all h hp
          obtain ⟨f1, f2, f3, f4, f5, f6, f7, f8⟩ := push_frame hp
          have hl : s.lsn = .waiting := by
            unfold push at hp
            rw [if_pos hmem.2] at hp
            split at hp
            · assumption
            · cases hp
          have hb : s.buf = [] := List.length_eq_zero_iff.1 (by have := h.bound; omega)
          have hdel : s.delivered = all s := by simp [all, current, hl, hb, waiting]
          cases hs
          refine ⟨⟨f7 h.bound, fun u q hu => ?_, fun u => ?_, fun he => absurd (h.ended (f8 he).1).2 hcl, fun _ r hr hb => ?_,
            fun hn => absurd (f1.trans hmem.2) hn⟩, f1, ?_⟩
          · simp only [setPh] at hu
            split at hu
            · rcases hu with hu | hu <;> cases hu
            · have := h.mem u q hu
              refine ⟨?_, f1.trans this.2⟩
              show q ∈ all s1
              rw [ha]
              exact List.mem_append_left _ this.1
          · show none = some u ↔ _
            simp only [setPh]
            split
            · simp
            · rename_i hu
              constructor
              · intro e; cases e
              · intro e
                have := (h.mu u).2 e
                rw [hmu] at this
                cases this
                exact absurd rfl hu
          · have hr : r ∈ s.results ++ [(t, p, true)] := hr
            show r.2.1 ∈ s1.delivered
            rw [f5]
            rcases List.mem_append.1 hr with hr | hr
            · exact h.zero hmem.2 r hr hb
            · rw [List.mem_singleton.1 hr, hdel]
              exact hmem.1
          · exact ha
    · cases hs
  | recv =>
    unfold step at hs
    simp only at hs
    split at hs
    · rename_i hl
      split at hs
      · rename_i x rest hb
        cases hs
        have ha : all { s with buf := rest, lsn := take x } = all s := by
          cases x <;> simp [all, current, take, hl, hb, waiting]
        refine ⟨⟨?_, fun u q hu => ?_, h.mu, fun he => ?_, h.zero, fun hn => ?_⟩, rfl, by simpa [adds] using ha⟩
        · have := h.bound
          rw [hb] at this
          simp at this
          show rest.length ≤ s.n
          omega
        · rw [ha]; exact h.mem u q hu
        · cases x <;> cases he
        · rw [ha]; exact h.pos hn
      · rename_i hb
        split at hs
        · rename_i hc
          cases hs
          have ha : all { s with lsn := .ended } = all s := by simp [all, current, hl, hb]
          refine ⟨⟨h.bound, fun u q hu => ?_, h.mu, fun _ => ⟨hb, hc⟩, h.zero, fun hn => ?_⟩, rfl, by simpa [adds] using ha⟩
          · rw [ha]; exact h.mem u q hu
          · rw [ha]; exact h.pos hn
        · cases hs
    · cases hs
  | done =>
    unfold step at hs
    simp only at hs
    split at hs
    · rename_i p hl
      cases hs
      have ha : all { s with lsn := .waiting, delivered := s.delivered ++ [p] } = all s := by simp [all, current, hl]
      refine ⟨⟨h.bound, fun u q hu => ?_, h.mu, fun he => (by cases he), fun hn r hr hb => ?_, fun hn => ?_⟩, rfl, by simpa [adds] using ha⟩
      · rw [ha]; exact h.mem u q hu
      · exact List.mem_append_left _ (h.zero hn r hr hb)
      · rw [ha]; exact h.pos hn
    · cases hs
  | close =>
    unfold step at hs
    simp only at hs
    split at hs
    · cases hs
      exact ⟨h, rfl, by simp [adds]⟩
    · split at hs
      · cases hs
        refine ⟨⟨h.bound, h.mem, h.mu, fun he => ⟨(h.ended he).1, rfl⟩, h.zero, h.pos⟩, rfl, by simp [adds]; rfl⟩
      · cases hs

theorem run_cons {s s' : State} {o : Op} {os : List Op} (h : run s (o :: os) = .ok s') :
    ∃ s1, step s o = .ok s1 ∧ run s1 os = .ok s' := by
  unfold run at h
  cases hs : step s o with
  | stuck => rw [hs] at h; cases h
  | panic => rw [hs] at h; cases h
  | ok s1 => rw [hs] at h; exact ⟨s1, rfl, h⟩

theorem run_inv {s s' : State} {os : List Op} (h : Inv s) (hr : run s os = .ok s') : Inv s' ∧ s'.n = s.n := by
  induction os generalizing s with
  | nil => cases hr; exact ⟨h, rfl⟩
  | cons o os ih =>
    obtain ⟨s1, h1, h2⟩ := run_cons hr
    obtain ⟨i, hn, _⟩ := step_inv h h1
    exact ⟨(ih i h2).1, (ih i h2).2.trans hn⟩

/-- The pending calls agree with the phases. -/
def Agrees (pend : Nat → Option Nat) (s : State) : Prop := ∀ t p, s.ph t = .sending p → pend t = some p

theorem step_sent {s s' : State} {o : Op} {os : List Op} {pend : Nat → Option Nat} (hg : Agrees pend s) (hs : step s o = .ok s') :
    ∃ pend', sent pend (o :: os) = adds s o ++ sent pend' os ∧ Agrees pend' s' := by
  cases o with
  | call t p =>
    refine ⟨_, rfl, fun u q hu => ?_⟩
    unfold step at hs
    simp only at hs
    split at hs
    · cases hs
      simp only [setPh] at hu
      by_cases h : u = t
      · rw [if_pos h] at hu ⊢; cases hu; rfl
      · rw [if_neg h] at hu ⊢; exact hg u q hu
    · cases hs
  | send t =>
    unfold step at hs
    simp only at hs
    split at hs
    · rename_i p hph
      refine ⟨pend, by simp [sent, adds, hph, hg t p hph], ?_⟩
      split at hs
      · cases hs
      · split at hs
        · cases hs
        · split at hs <;>
          · cases hs
            intro u q hu
            simp only [setPh] at hu
            split at hu
            · cases hu
            · exact hg u q hu
    · cases hs
  | timeout t =>
    refine ⟨pend, rfl, fun u q hu => ?_⟩
    unfold step at hs
    simp only at hs
    split at hs
    · cases hs
      simp only [setPh] at hu
      split at hu
      · cases hu
      · exact hg u q hu
    · cases hs
  | lock t =>
    refine ⟨pend, rfl, fun u q hu => ?_⟩
    unfold step at hs
    simp only at hs
    split at hs
    · split at hs
      · cases hs
        simp only [setPh] at hu
        split at hu
        · cases hu
        · exact hg u q hu
      · cases hs
    · cases hs
  | sync t =>
    refine ⟨pend, rfl, fun u q hu => ?_⟩
    unfold step at hs
    simp only at hs
    split at hs
    · split at hs
      · cases hs
      · split at hs
        · cases hs
        · cases hs
          simp only [setPh] at hu
          split at hu
          · cases hu
          · exact hg u q hu
    · cases hs
  | recv =>
    refine ⟨pend, rfl, fun u q hu => hg u q ?_⟩
    unfold step at hs
    simp only at hs
    split at hs
    · split at hs
      · cases hs; exact hu
      · split at hs
        · cases hs; exact hu
        · cases hs
    · cases hs
  | done =>
    refine ⟨pend, rfl, fun u q hu => hg u q ?_⟩
    unfold step at hs
    simp only at hs
    split at hs
    · cases hs; exact hu
    · cases hs
  | close =>
    refine ⟨pend, rfl, fun u q hu => hg u q ?_⟩
    unfold step at hs
    simp only at hs
    split at hs
    · cases hs; exact hu
    · split at hs
      · cases hs; exact hu
      · cases hs

theorem run_all {s s' : State} {os : List Op} {pend : Nat → Option Nat} (h : Inv s) (hg : Agrees pend s) (hr : run s os = .ok s') :
    all s' = all s ++ sent pend os := by
  induction os generalizing s pend with
  | nil => cases hr; simp [sent]
  | cons o os ih =>
    obtain ⟨s1, h1, h2⟩ := run_cons hr
    obtain ⟨i, _, ha⟩ := step_inv h h1
    obtain ⟨pend', e, hg'⟩ := step_sent (os := os) hg h1
    rw [ih i hg' h2, ha, e, List.append_assoc]

/-! ## C87 -/

/-- C87: payloads are handed to the callback one at a time, each sent payload once, in the order they were sent; those not yet
handed over are in the buffer, which never has more than its size. -/
theorem C87_fifo (n : Nat) (os : List Op) (s : State) (h : run { n := n } os = .ok s) :
    s.delivered ++ current s ++ waiting s.buf = sent (fun _ => none) os ∧ s.buf.length ≤ n := by
  have a := run_all (pend := fun _ => none) (init_inv n) (fun t p hp => (by cases hp)) h
  have b := run_inv (init_inv n) h
  refine ⟨by simpa [all, current, waiting] using a, ?_⟩
  have := b.1.bound
  rw [b.2] at this
  exact this

/-- C87: with a buffer, the payloads of the calls that returned without an error are exactly those handed over or in the
buffer, in the order the calls returned. -/
theorem C87_success (n : Nat) (hn : n ≠ 0) (os : List Op) (s : State) (h : run { n := n } os = .ok s) :
    succeeded s = s.delivered ++ current s ++ waiting s.buf := by
  have b := run_inv (init_inv n) h
  exact b.1.pos (by rw [b.2]; exact hn)

/-- C87: without a buffer, a call that returned without an error returned after the callback. -/
theorem C87_synchronous (os : List Op) (s : State) (h : run { n := 0 } os = .ok s) (t p : Nat) (hr : (t, p, true) ∈ s.results) :
    p ∈ s.delivered :=
  have b := run_inv (init_inv 0) h
  b.1.zero b.2 _ hr rfl

/-- C87: when `Listen` returns after `Close`, everything that was sent was handed over. -/
theorem C87_drained (n : Nat) (os : List Op) (s : State) (h : run { n := n } os = .ok s) (he : s.lsn = .ended) :
    s.delivered = sent (fun _ => none) os := by
  have b := run_inv (init_inv n) h
  have := (C87_fifo n os s h).1
  rw [(b.1.ended he).1] at this
  simpa [current, he, waiting] using this

/-- C87: before `Close`, whenever a call of `Notify` or a callback is going on or a payload waits, some goroutine can go on, even
without time-outs, as long as callbacks return. -/
theorem C87_live (n : Nat) (os : List Op) (s : State) (h : run { n := n } os = .ok s) (hc : s.closed = false)
    (hw : s.buf ≠ [] ∨ (∃ t, s.ph t ≠ .idle) ∨ ∃ p, s.lsn = .busy p) :
    ∃ o s', (∀ t p, o ≠ .call t p) ∧ (∀ t, o ≠ .timeout t) ∧ o ≠ .close ∧ step s o = .ok s' := by
  have b := run_inv (init_inv n) h
  cases hl : s.lsn with
  | ended => exact absurd (b.1.ended hl).2 (by rw [hc]; simp)
  | busy p => exact ⟨.done, _, by simp, by simp, by simp, by unfold step; simp only [hl]; rfl⟩
  | waiting =>
    cases hb : s.buf with
    | cons x rest => exact ⟨.recv, _, by simp, by simp, by simp, by unfold step; simp only [hl, hb]; rfl⟩
    | nil =>
      have ht : ∃ t, s.ph t ≠ .idle := by
        rcases hw with hw | hw | ⟨p, hw⟩
        · exact absurd hb hw
        · exact hw
        · rw [hl] at hw; cases hw
      have hpush : ∀ x, ∃ s', push s x = some s' := by
        intro x
        unfold push
        by_cases hn : s.n = 0
        · rw [if_pos hn, if_pos hl]; exact ⟨_, rfl⟩
        · rw [if_neg hn, if_pos (by rw [hb]; simp; omega)]; exact ⟨_, rfl⟩
      cases hm : s.mu with
      | some u =>
        obtain ⟨p, hp⟩ := (b.1.mu u).1 hm
        obtain ⟨s', hs'⟩ := hpush .empty
        exact ⟨.sync u, _, by simp, by simp, by simp, by unfold step; simp only [hp, hc, hs']; rfl⟩
      | none =>
        obtain ⟨t, ht⟩ := ht
        cases hp : s.ph t with
        | idle => exact absurd hp ht
        | sending p =>
          obtain ⟨s', hs'⟩ := hpush (.msg p)
          by_cases hn : s.n = 0
          · exact ⟨.send t, _, by simp, by simp, by simp, by unfold step; simp only [hp, hc, hs', hn]; rfl⟩
          · exact ⟨.send t, _, by simp, by simp, by simp, by unfold step; simp only [hp, hc, hs', hn]; rfl⟩
        | locking p => exact ⟨.lock t, _, by simp, by simp, by simp, by unfold step; simp only [hp, hm]; rfl⟩
        | syncing p =>
          have := (b.1.mu t).2 ⟨p, hp⟩
          rw [hm] at this; cases this

/-! ### Violations -/

/-- What can be seen of a result. -/
def seen : Res → Option (List Nat × List Nat × List (Nat × Nat × Bool))
  | .ok s => some (s.delivered, waiting s.buf, s.results)
  | _ => none

def isPanic : Res → Bool
  | .panic => true
  | _ => false

def isStuck : Res → Bool
  | .stuck => true
  | _ => false

/-- C87 is violated if a callback takes longer than the time-out while the buffer is full: the payload is lost. `Notify` returns an
error, which none of its callers looks at. -/
theorem C87_violated_lost :
    seen (run { n := 1 } [.call 0 1, .send 0, .recv, .call 0 2, .send 0, .call 0 3, .timeout 0, .done, .recv, .done]) =
      some ([1, 2], [], [(0, 1, true), (0, 2, true), (0, 3, false)]) := by decide +kernel

/-- C87 is violated at shutdown: `Notify` panics if the channel is closed before or while it sends. -/
theorem C87_violated_panic (n : Nat) : isPanic (run { n := n } [.call 0 1, .close, .send 0]) = true := by
  simp [run, step, setPh, isPanic]

/-- C87 is violated without a buffer if a callback itself calls `Notify`, on any channel: the caller holds the mutex and waits for
the callback, the callback waits for the mutex. -/
theorem C87_violated_deadlock :
    let os : List Op := [.call 0 1, .send 0, .lock 0]
    isStuck (run { n := 0 } os) = false ∧ isStuck (run { n := 0 } (os ++ [.sync 0])) = true ∧
      isStuck (run { n := 0 } (os ++ [.call 1 2])) = true := by decide +kernel

/-- Two goroutines and a full buffer, up to the end of `Listen`. -/
example : seen (run { n := 2 } [.call 0 1, .call 1 2, .send 1, .recv, .send 0, .call 0 3, .send 0, .done, .close, .recv, .done, .recv, .done, .recv]) =
    some ([2, 1, 3], [], [(1, 2, true), (0, 1, true), (0, 3, true)]) := by decide +kernel

/-- Without a buffer. -/
example : seen (run { n := 0 } [.call 0 1, .call 1 2, .send 0, .done, .send 1, .done, .lock 1, .sync 1, .lock 0, .sync 0]) =
    some ([1, 2], [], [(1, 2, true), (0, 1, true)]) := by decide +kernel

end Verif.PubSub
