import Verif.WorkerPool
/-! # C88: end-to-end encryption data is written by the worker pool -/
namespace Verif.WorkerPool

/-! ## Specification -/

/-- The data a caller called with, in order, read off the operations. -/
def calls (c : Nat) : List Op → List Nat
  | [] => []
  | .call u d :: os => if u = c then d :: calls c os else calls c os
  | _ :: os => calls c os

/-- The data of the calls of a caller that returned. -/
def returned (c : Nat) (s : State) : List Nat := s.results.filterMap fun r => if r.1 = c then some r.2.1 else none

/-- The data of the calls of a caller that returned without an error. -/
def succeeded (c : Nat) (s : State) : List Nat :=
  s.results.filterMap fun r => if r.1 = c ∧ r.2.2 = true then some r.2.1 else none

/-- The call of a caller that goes on. -/
def outstanding : Phase → List Nat
  | .idle => []
  | .queueing d => [d]
  | .waiting d => [d]
  | .finished d _ => [d]

/-- The call of a caller that is about to return without an error. -/
def about : Phase → List Nat
  | .finished d true => [d]
  | _ => []

/-- What was written for a caller, in order. -/
def writes (c : Nat) (s : State) : List Nat := s.wrote.filterMap fun j => if j.1 = c then some j.2 else none

/-! ## Invariant -/

structure Inv (s : State) : Prop where
  chB : s.ch.length ≤ s.n
  runB : s.running.length ≤ s.n
  job : ∀ c d, (c, d) ∈ s.ch ∨ (c, d) ∈ s.running ↔ s.ph c = .waiting d
  nodup : ((s.ch ++ s.running).map (·.1)).Nodup
  wr : ∀ c, writes c s = succeeded c s ++ about (s.ph c)

theorem init_inv (n : Nat) : Inv { n := n } :=
  ⟨by simp, by simp, fun c d => by simp, by simp, fun c => rfl⟩

theorem find_spec {l : List Job} {c : Nat} {j : Job} (h : l.find? (fun j => j.1 == c) = some j) : j ∈ l ∧ j.1 = c :=
  ⟨List.mem_of_find?_eq_some h, by simpa using List.find?_some h⟩

theorem eraseP_split {l : List Job} {c : Nat} {j : Job} (h : l.find? (fun j => j.1 == c) = some j) :
    ∃ a b, l = a ++ j :: b ∧ l.eraseP (fun j => j.1 == c) = a ++ b := by
  obtain ⟨hp, a, b, hl, ha⟩ := List.find?_eq_some_iff_append.1 h
  refine ⟨a, b, hl, ?_⟩
  rw [hl, List.eraseP_append_right _ (fun x hx => by have := ha x hx; simpa using this)]
  rw [List.eraseP_cons_of_pos (p := fun j : Job => j.1 == c) hp]

theorem step_inv {s s' : State} {o : Op} (h : Inv s) (hs : step s o = some s') :
    Inv s' ∧ s'.n = s.n ∧ ∀ c, returned c s' ++ outstanding (s'.ph c) = returned c s ++ outstanding (s.ph c) ++ calls c [o] := by
  cases o with
  | call c d =>
    unfold step at hs
    simp only at hs
    split at hs
    · rename_i hi
      cases hs
      refine ⟨⟨h.chB, h.runB, fun u e => ?_, h.nodup, fun u => ?_⟩, rfl, fun u => ?_⟩
      · rw [h.job u e]
        simp only [setPh]
        split
        · rename_i hu; subst hu; simp [hi]
        · exact Iff.rfl
      · show writes u s = succeeded u s ++ about (setPh s c (.queueing d) u)
        rw [h.wr u]
        simp only [setPh]
        split
        · rename_i hu; subst hu; simp [hi, about]
        · rfl
      · show returned u s ++ outstanding (setPh s c (.queueing d) u) = _
        simp only [setPh, calls]
        by_cases hu : u = c
        · subst hu; simp [hi, outstanding]
        · rw [if_neg hu, if_neg (Ne.symm hu)]; simp
    · cases hs
  | queue c =>
    unfold step at hs
    simp only at hs
    split at hs
    · rename_i d hq
      split at hs
      · rename_i hl
        cases hs
        have hno : ∀ e, ¬ ((c, e) ∈ s.ch ∨ (c, e) ∈ s.running) := fun e he => by
          have := (h.job c e).1 he
          rw [hq] at this; cases this
        refine ⟨⟨by simp; omega, h.runB, fun u e => ?_, ?_, fun u => ?_⟩, rfl, fun u => ?_⟩
        · simp only [setPh, List.mem_append, List.mem_singleton, Prod.mk.injEq]
          split
          · rename_i hu
            subst hu
            constructor
            · rintro ((he | he) | he)
              · exact absurd (.inl he) (hno e)
              · rw [he.2]
              · exact absurd (.inr he) (hno e)
            · intro he; cases he; exact .inl (.inr ⟨rfl, rfl⟩)
          · rename_i hu
            rw [← h.job u e]
            simp [hu]
        · have : ((s.ch ++ [(c, d)] ++ s.running).map (·.1)).Perm (c :: (s.ch ++ s.running).map (·.1)) := by
            simp only [List.map_append, List.map_cons, List.append_assoc, List.singleton_append]
            exact List.perm_middle
          refine this.nodup_iff.2 (List.nodup_cons.2 ⟨fun hm => ?_, h.nodup⟩)
          obtain ⟨⟨x, e⟩, hj, hx⟩ := List.mem_map.1 hm
          have hx : x = c := hx
          subst hx
          exact hno e (List.mem_append.1 hj)
        · show writes u s = succeeded u s ++ about (setPh s c (.waiting d) u)
          rw [h.wr u]
          simp only [setPh]
          split
          · rename_i hu; subst hu; simp [hq, about]
          · rfl
        · show returned u s ++ outstanding (setPh s c (.waiting d) u) = _
          simp only [setPh, calls]
          split
          · rename_i hu; subst hu; simp [hq, outstanding]
          · simp
      · cases hs
    · cases hs
  | take =>
    unfold step at hs
    simp only at hs
    split at hs
    · rename_i j rest hc
      split at hs
      · rename_i hl
        cases hs
        have hb := h.chB
        have hj := h.job
        have hn := h.nodup
        rw [hc] at hb hj hn
        simp only [List.length_cons] at hb
        refine ⟨⟨by show rest.length ≤ s.n; omega, by simp; omega, fun u e => ?_, ?_, h.wr⟩, rfl, fun u => by simp [calls]; rfl⟩
        · rw [← hj u e]
          simp only [List.mem_append, List.mem_cons, List.not_mem_nil, or_false]
          constructor
          · rintro (h1 | h1 | h1)
            · exact .inl (.inr h1)
            · exact .inr h1
            · exact .inl (.inl h1)
          · rintro ((h1 | h1) | h1)
            · exact .inr (.inr h1)
            · exact .inl h1
            · exact .inr (.inl h1)
        · refine (List.Perm.nodup_iff (List.Perm.map _ ?_)).1 hn
          show (j :: rest ++ s.running).Perm (rest ++ (s.running ++ [j]))
          rw [← List.append_assoc]
          exact (List.perm_append_singleton j (rest ++ s.running)).symm
      · cases hs
    · cases hs
  | finish c ok =>
    unfold step at hs
    simp only at hs
    split at hs
    · rename_i j hf
      cases hs
      obtain ⟨x, d⟩ := j
      obtain ⟨hm, hx⟩ := find_spec hf
      have hx : x = c := hx
      subst hx
      obtain ⟨a, b, hl, he⟩ := eraseP_split hf
      have hw : s.ph x = .waiting d := (h.job x d).1 (.inr hm)
      have hn := h.nodup
      rw [hl] at hn
      have hperm : (s.ch ++ (a ++ (x, d) :: b)).Perm ((x, d) :: (s.ch ++ (a ++ b))) := by
        rw [← List.append_assoc, ← List.append_assoc]
        exact List.perm_middle
      have hn' := (hperm.map (·.1)).nodup_iff.1 hn
      rw [List.map_cons, List.nodup_cons] at hn'
      refine ⟨⟨h.chB, ?_, fun u e => ?_, ?_, fun u => ?_⟩, rfl, fun u => ?_⟩
      · show (s.running.eraseP _).length ≤ s.n
        have := h.runB
        rw [he]
        rw [hl] at this
        simp at this ⊢
        omega
      · show (u, e) ∈ s.ch ∨ (u, e) ∈ s.running.eraseP _ ↔ setPh s x (.finished d ok) u = _
        rw [he]
        simp only [setPh]
        split
        · rename_i hu
          subst hu
          constructor
          · intro hj
            exact absurd (List.mem_map.2 ⟨(u, e), List.mem_append.2 hj, rfl⟩) hn'.1
          · intro hj; cases hj
        · rename_i hu
          rw [← h.job u e, hl]
          simp [hu]
      · show ((s.ch ++ s.running.eraseP _).map (·.1)).Nodup
        rw [he]
        exact hn'.2
      · show writes u { s with wrote := if ok then s.wrote ++ [(x, d)] else s.wrote } = succeeded u s ++ about (setPh s x (.finished d ok) u)
        have h0 := h.wr u
        simp only [setPh]
        unfold writes at h0 ⊢
        by_cases hu : u = x
        · subst hu
          rw [hw] at h0
          cases ok
          · simpa [about] using h0
          · simp only [if_true, List.filterMap_append, h0]
            simp [about]
        · rw [if_neg hu]
          cases ok
          · simpa using h0
          · simp only [if_true, List.filterMap_append, h0]
            simp [Ne.symm hu]
      · show returned u s ++ outstanding (setPh s x (.finished d ok) u) = _
        simp only [setPh, calls]
        split
        · rename_i hu; subst hu; simp [hw, outstanding]
        · simp
    · cases hs
  | ret c =>
    unfold step at hs
    simp only at hs
    split at hs
    · rename_i d ok hp
      cases hs
      refine ⟨⟨h.chB, h.runB, fun u e => ?_, h.nodup, fun u => ?_⟩, rfl, fun u => ?_⟩
      · rw [h.job u e]
        simp only [setPh]
        split
        · rename_i hu; subst hu; simp [hp]
        · exact Iff.rfl
      · show writes u s = succeeded u { s with results := s.results ++ [(c, d, ok)] } ++ about (setPh s c .idle u)
        rw [h.wr u]
        simp only [setPh, succeeded, List.filterMap_append]
        by_cases hu : u = c
        · subst hu; rw [hp]; cases ok <;> simp [about]
        · rw [if_neg hu]; simp [Ne.symm hu]
      · show returned u { s with results := s.results ++ [(c, d, ok)] } ++ outstanding (setPh s c .idle u) = _
        simp only [setPh, returned, List.filterMap_append, calls]
        by_cases hu : u = c
        · subst hu; rw [hp]; simp [outstanding]
        · rw [if_neg hu]; simp [Ne.symm hu]
    · cases hs

theorem calls_cons (c : Nat) (o : Op) (os : List Op) : calls c (o :: os) = calls c [o] ++ calls c os := by
  cases o <;> simp only [calls, List.nil_append]
  split <;> rfl

theorem run_inv {s s' : State} {os : List Op} (h : Inv s) (hr : run s os = some s') :
    Inv s' ∧ s'.n = s.n ∧ ∀ c, returned c s' ++ outstanding (s'.ph c) = returned c s ++ outstanding (s.ph c) ++ calls c os := by
  induction os generalizing s with
  | nil => cases hr; exact ⟨h, rfl, fun c => by simp [calls]⟩
  | cons o os ih =>
    obtain ⟨s1, h1, h2⟩ := Option.bind_eq_some_iff.1 hr
    obtain ⟨i, hn, hc⟩ := step_inv h h1
    obtain ⟨i2, hn2, hc2⟩ := ih i h2
    refine ⟨i2, hn2.trans hn, fun c => ?_⟩
    rw [hc2, hc, calls_cons c o os]
    simp [List.append_assoc]

/-! ## C88 -/

/-- C88: the calls of a caller return in order, each once, and the one that has not returned is the last. -/
theorem C88_calls (n : Nat) (os : List Op) (s : State) (h : run { n := n } os = some s) (c : Nat) :
    returned c s ++ outstanding (s.ph c) = calls c os := by
  simpa [returned, outstanding] using (run_inv (init_inv n) h).2.2 c

/-- C88: for each caller the database has exactly the data of the calls that returned without an error, and of the one about to,
once each and in the order of the calls, whatever the other workers do. -/
theorem C88_writes (n : Nat) (os : List Op) (s : State) (h : run { n := n } os = some s) (c : Nat) :
    writes c s = succeeded c s ++ about (s.ph c) :=
  (run_inv (init_inv n) h).1.wr c

/-- C88: no more than `n` functions run and no more than `n` are queued. -/
theorem C88_bounded (n : Nat) (os : List Op) (s : State) (h : run { n := n } os = some s) :
    s.running.length ≤ n ∧ s.ch.length ≤ n := by
  obtain ⟨i, hn, _⟩ := run_inv (init_inv n) h
  have hn : s.n = n := hn
  exact ⟨by rw [← hn]; exact i.runB, by rw [← hn]; exact i.chB⟩

/-- C88: a pool with workers never stands still while a call goes on. -/
theorem C88_live (n : Nat) (hn : n ≠ 0) (os : List Op) (s : State) (h : run { n := n } os = some s) (c : Nat) (hc : s.ph c ≠ .idle) :
    ∃ o s', (∀ c d, o ≠ .call c d) ∧ step s o = some s' := by
  obtain ⟨i, hsn, _⟩ := run_inv (init_inv n) h
  have hsn : s.n = n := hsn
  have fin : ∀ j, j ∈ s.running → ∃ o s', (∀ c d, o ≠ .call c d) ∧ step s o = some s' := by
    intro j hj
    cases hf : s.running.find? (fun x => x.1 == j.1) with
    | none => exact absurd (List.find?_eq_none.1 hf j hj) (by simp)
    | some x => exact ⟨.finish j.1 true, _, by simp, by unfold step; simp only [hf]; rfl⟩
  have tk : s.ch ≠ [] → ∃ o s', (∀ c d, o ≠ .call c d) ∧ step s o = some s' := by
    intro hch
    cases hr : s.running with
    | cons j r => exact fin j (by rw [hr]; simp)
    | nil =>
      cases hcc : s.ch with
      | nil => exact absurd hcc hch
      | cons j r =>
        have hl : s.running.length < s.n := by rw [hr]; simp; omega
        exact ⟨.take, { s with ch := r, running := s.running ++ [j] }, by simp, by unfold step; simp only [hcc]; rw [if_pos hl]⟩
  cases hp : s.ph c with
  | idle => exact absurd hp hc
  | queueing d =>
    by_cases hl : s.ch.length < s.n
    · exact ⟨.queue c, _, by simp, by unfold step; simp only [hp]; rw [if_pos hl]⟩
    · exact tk (fun e => by rw [e] at hl; simp at hl; omega)
  | waiting d =>
    rcases (i.job c d).2 hp with hj | hj
    · exact tk (fun e => by rw [e] at hj; cases hj)
    · exact fin _ hj
  | finished d ok => exact ⟨.ret c, _, by simp, by unfold step; simp only [hp]; rfl⟩

/-- Three callers and two workers: the writes of different callers change places, those of one caller do not, and a failed write
is reported. -/
example : (run { n := 2 } [.call 0 1, .call 1 2, .call 2 3, .queue 0, .queue 1, .take, .take, .queue 2, .finish 1 true, .take,
    .finish 2 false, .ret 2, .ret 1, .call 1 4, .queue 1, .take, .finish 1 true, .finish 0 true, .ret 0]).map
      (fun s => (s.wrote, s.results)) =
    some ([(1, 2), (1, 4), (0, 1)], [(2, 3, false), (1, 2, true), (0, 1, true)]) := by decide +kernel

end Verif.WorkerPool
