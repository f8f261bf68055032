import Verif.EnsurePoller
/-! # C30: callers of `EnsurePolling` are released and told the truth -/
namespace Verif.EnsurePoller

structure Inv (s : State) : Prop where
  fresh : ∀ c ∈ s.closed, c < s.nextCh
  freshCh : ∀ p c, s.entry = some p → p.ch = some c → c < s.nextCh ∧ c ∉ s.closed
  done : ∀ p, s.entry = some p → (p.done = true ↔ p.ch = none)
  waits : ∀ w ∈ s.waiting, w.2 ∈ s.closed ∨ ∃ p, s.entry = some p ∧ p.ch = some w.2

theorem inv_init : Inv {} := ⟨nofun, nofun, nofun, nofun⟩

theorem inv_waitOrStart (s : State) (id : Nat) (h : Inv s) (hd : ∀ p, s.entry = some p → p.done = false) :
    Inv (waitOrStart s id) := by
  unfold waitOrStart
  cases he : s.entry with
  | none =>
    simp only [Option.getD_none, zero]
    refine ⟨?_, ?_, ?_, ?_⟩
    · intro c hc; have := h.fresh c hc; simp only; omega
    · intro p c hp hc
      simp only [Option.some.injEq] at hp
      subst hp
      simp only [Option.some.injEq] at hc
      subst hc
      exact ⟨by simp, fun hc => by have := h.fresh _ hc; omega⟩
    · intro p hp
      simp only [Option.some.injEq] at hp
      subst hp; simp
    · intro w hw
      simp only [List.mem_append, List.mem_singleton] at hw
      rcases hw with hw | rfl
      · rcases h.waits w hw with h1 | ⟨p, h1, _⟩
        · exact Or.inl h1
        · rw [he] at h1; cases h1
      · exact Or.inr ⟨_, rfl, rfl⟩
  | some p =>
    have hdp := hd p he
    cases hc : p.ch with
    | none => rw [(h.done p he).2 hc] at hdp; cases hdp
    | some c =>
      simp only [Option.getD_some, hc]
      rw [← he]
      refine ⟨h.fresh, h.freshCh, h.done, ?_⟩
      intro w hw
      simp only [List.mem_append, List.mem_singleton] at hw
      rcases hw with hw | rfl
      · exact h.waits w hw
      · exact Or.inr ⟨p, he, hc⟩

theorem inv_step (s : State) (o : Op) (h : Inv s) : ∃ s', step s o = some s' ∧ Inv s' := by
  cases o with
  | call id =>
    simp only [step, call]
    cases he : s.entry with
    | none =>
      simp only [Option.getD_none, zero]
      refine ⟨_, rfl, inv_waitOrStart s id h (by rw [he]; nofun)⟩
    | some p =>
      simp only [Option.getD_some]
      split
      · refine ⟨_, rfl, ?_⟩
        rw [← he]
        exact ⟨h.fresh, h.freshCh, h.done, h.waits⟩
      · rename_i hnd
        split
        · rename_i hex
          cases hc : p.ch with
          | none =>
            simp only
            refine ⟨_, rfl, inv_waitOrStart _ id ?_ nofun⟩
            refine ⟨h.fresh, nofun, nofun, ?_⟩
            intro w hw
            rcases h.waits w hw with h1 | ⟨q, h1, h2⟩
            · exact Or.inl h1
            · rw [he] at h1; simp only [Option.some.injEq] at h1; subst h1; rw [hc] at h2; cases h2
          | some c =>
            have hf := h.freshCh p c he hc
            simp only [close, if_neg hf.2, Option.map_some]
            refine ⟨_, rfl, inv_waitOrStart _ id ?_ nofun⟩
            refine ⟨?_, nofun, nofun, ?_⟩
            · intro x hx
              rcases List.mem_cons.1 hx with rfl | hx
              · exact hf.1
              · exact h.fresh x hx
            · intro w hw
              rcases h.waits w hw with h1 | ⟨q, h1, h2⟩
              · exact Or.inl (List.mem_cons_of_mem _ h1)
              · rw [he] at h1; simp only [Option.some.injEq] at h1; subst h1
                rw [hc] at h2
                simp only [Option.some.injEq] at h2
                exact Or.inl (by simp [h2])
        · rename_i hex
          refine ⟨_, rfl, inv_waitOrStart s id h ?_⟩
          intro q hq
          rw [he] at hq; simp only [Option.some.injEq] at hq; subst hq
          cases hd : p.done with
          | false => rfl
          | true => cases hx : p.expired <;> simp [hd, hx] at hnd hex
  | wake id =>
    refine ⟨_, rfl, ?_⟩
    refine ⟨h.fresh, h.freshCh, h.done, ?_⟩
    intro w hw
    exact h.waits w (List.mem_filter.1 hw).1
  | complete b =>
    simp only [step, complete]
    cases he : s.entry with
    | none =>
      refine ⟨_, rfl, h.fresh, ?_, ?_, ?_⟩
      · intro p c hp hc
        simp only [Option.some.injEq] at hp
        subst hp; cases hc
      · intro p hp
        simp only [Option.some.injEq] at hp
        subst hp; simp
      · intro w hw
        rcases h.waits w hw with h1 | ⟨p, h1, _⟩
        · exact Or.inl h1
        · rw [he] at h1; cases h1
    | some p =>
      simp only
      split
      · exact ⟨s, rfl, h⟩
      · rename_i hnd
        cases hc : p.ch with
        | none => exact absurd ((h.done p he).2 hc) hnd
        | some c =>
          have hf := h.freshCh p c he hc
          simp only [close, if_neg hf.2]
          refine ⟨_, rfl, ?_, ?_, ?_, ?_⟩
          · intro x hx
            rcases List.mem_cons.1 hx with rfl | hx
            · exact hf.1
            · exact h.fresh x hx
          · intro q c' hq hc'
            simp only [Option.some.injEq] at hq
            subst hq; cases hc'
          · intro q hq
            simp only [Option.some.injEq] at hq
            subst hq; simp
          · intro w hw
            rcases h.waits w hw with h1 | ⟨q, h1, h2⟩
            · exact Or.inl (List.mem_cons_of_mem _ h1)
            · rw [he] at h1; simp only [Option.some.injEq] at h1; subst h1
              rw [hc] at h2
              simp only [Option.some.injEq] at h2
              exact Or.inl (by simp [h2])
  | expire =>
    refine ⟨_, rfl, ?_⟩
    unfold expire
    cases he : s.entry with
    | none => exact h
    | some p =>
      refine ⟨h.fresh, ?_, ?_, ?_⟩
      · intro q c hq hc
        simp only [Option.some.injEq] at hq
        subst hq
        exact h.freshCh p c he hc
      · intro q hq
        simp only [Option.some.injEq] at hq
        subst hq
        exact h.done p he
      · intro w hw
        rcases h.waits w hw with h1 | ⟨q, h1, h2⟩
        · exact Or.inl h1
        · rw [he] at h1; simp only [Option.some.injEq] at h1; subst h1
          exact Or.inr ⟨_, rfl, h2⟩

theorem run_inv (s : State) (ops : List Op) (h : Inv s) : ∃ s', run s ops = some s' ∧ Inv s' := by
  induction ops generalizing s with
  | nil => exact ⟨s, rfl, h⟩
  | cons o ops ih =>
    obtain ⟨s1, h1, h2⟩ := inv_step s o h
    obtain ⟨s2, h3, h4⟩ := ih s1 h2
    exact ⟨s2, by simp [run, h1, h3], h4⟩

/-- C30: for every interleaving, no channel is closed twice and no nil channel is closed. -/
theorem C30_no_panic (ops : List Op) : run {} ops ≠ none := by
  obtain ⟨s, h, _⟩ := run_inv {} ops inv_init
  rw [h]; nofun

theorem run_append (s : State) (a b : List Op) : run s (a ++ b) = (run s a).bind fun s' => run s' b := by
  induction a generalizing s with
  | nil => rfl
  | cons o a ih =>
    simp only [List.cons_append, run]
    cases step s o with
    | none => rfl
    | some s1 => exact ih s1

/-- C30, partial: after the completion of the sync no caller is blocked any more: once each blocked caller
got to run, nobody waits and everybody was told something.  Missing: the expiry of a token does not
release the callers by itself (`C30_expiry_violated`). -/
theorem C30_released_partial (ops : List Op) (b : Bool) (s : State) (h : run {} (ops ++ [.complete b]) = some s) :
    (∀ w ∈ s.waiting, w.2 ∈ s.closed) ∧
    (∀ w ∈ s.waiting, w ∉ (wake s w.1).waiting ∧ ∃ x, (w.1, x) ∈ (wake s w.1).told) := by
  obtain ⟨s', h1, hi⟩ := run_inv {} (ops ++ [.complete b]) inv_init
  rw [h] at h1
  simp only [Option.some.injEq] at h1
  subst h1
  have hnone : ∀ p, s.entry = some p → p.ch = none := by
    rw [run_append] at h
    obtain ⟨s1, h2, hi1⟩ := run_inv {} ops inv_init
    rw [h2] at h
    simp only [Option.bind_some, run, step, complete] at h
    cases he : s1.entry with
    | none =>
      rw [he] at h
      simp only [Option.bind_some, Option.some.injEq] at h
      subst h
      intro p hp
      simp only [Option.some.injEq] at hp
      subst hp; rfl
    | some q =>
      rw [he] at h
      simp only at h
      split at h
      · rename_i hd
        simp only [Option.bind_some, Option.some.injEq] at h
        subst h
        intro p hp
        rw [he] at hp; simp only [Option.some.injEq] at hp; subst hp
        exact (hi1.done q he).1 hd
      · cases hc : q.ch with
        | none => rw [hc] at h; cases h
        | some c =>
          rw [hc] at h
          simp only [close, if_neg (hi1.freshCh q c he hc).2, Option.bind_some, Option.some.injEq] at h
          subst h
          intro p hp
          simp only [Option.some.injEq] at hp
          subst hp; rfl
  have hcl : ∀ w ∈ s.waiting, w.2 ∈ s.closed := by
    intro w hw
    rcases hi.waits w hw with h1 | ⟨p, h1, h2⟩
    · exact h1
    · rw [hnone p h1] at h2; cases h2
  refine ⟨hcl, ?_⟩
  intro w hw
  have := hcl w hw
  refine ⟨?_, (s.entry.getD zero).expired, ?_⟩
  · simp [wake, this]
  · unfold wake
    simp only [List.mem_append, List.mem_map, List.mem_filter]
    right
    exact ⟨w, ⟨hw, by simp [this]⟩, rfl⟩

/-- At any time a blocked caller waits either for a closed channel or for the current one, which a
completion closes; and the pollers were asked to poll whenever there is a current one. -/
theorem C30_waiting (ops : List Op) (s : State) (h : run {} ops = some s) :
    ∀ w ∈ s.waiting, w.2 ∈ s.closed ∨ ∃ p, s.entry = some p ∧ p.done = false ∧ p.ch = some w.2 := by
  obtain ⟨s', h1, hi⟩ := run_inv {} ops inv_init
  rw [h] at h1
  simp only [Option.some.injEq] at h1
  subst h1
  intro w hw
  rcases hi.waits w hw with h1 | ⟨p, h1, h2⟩
  · exact Or.inl h1
  · refine Or.inr ⟨p, h1, ?_, h2⟩
    cases hd : p.done with
    | false => rfl
    | true => rw [(hi.done p h1).1 hd] at h2; cases h2

/-- No caller enters while the entry is marked expired and other callers have not returned yet. -/
def NoOverlap (s : State) : List Op → Prop
  | [] => True
  | o :: os => (∀ id, o = .call id → ∀ p, s.entry = some p → p.expired = true → s.waiting = []) ∧
      ∀ s', step s o = some s' → NoOverlap s' os

theorem told_valid (ops : List Op) (s : State) (ok : Bool) (hi : Inv s)
    (hs : ∀ p, s.entry = some p → p.done = true → p.expired = false → ok = true)
    (hw : ∀ w ∈ s.waiting, w.2 ∈ s.closed → ok = true ∨ ∃ p, s.entry = some p ∧ p.done = true)
    (ht : ∀ id, (id, false) ∈ s.told → ok = true) (hno : NoOverlap s ops) (s' : State) (h : run s ops = some s') (id : Nat)
    (htold : (id, false) ∈ s'.told) : ok = true ∨ .complete true ∈ ops := by
  induction ops generalizing s ok with
  | nil =>
    simp only [run, Option.some.injEq] at h
    subst h
    exact Or.inl (ht id htold)
  | cons o ops ih =>
    obtain ⟨s1, h1, hi1⟩ := inv_step s o hi
    simp only [run, h1, Option.bind_some] at h
    have hno1 := hno.2 s1 h1
    have hno0 := hno.1
    clear hno
    -- `ok'` after the step
    have key : ∀ ok' : Bool, (ok' = true → ok = true ∨ o = .complete true) →
        (∀ p, s1.entry = some p → p.done = true → p.expired = false → ok' = true) →
        (∀ w ∈ s1.waiting, w.2 ∈ s1.closed → ok' = true ∨ ∃ p, s1.entry = some p ∧ p.done = true) →
        (∀ id, (id, false) ∈ s1.told → ok' = true) → ok = true ∨ .complete true ∈ o :: ops := by
      intro ok' h0 a1 a2 a3
      rcases ih s1 ok' hi1 a1 a2 a3 hno1 h with h' | h'
      · rcases h0 h' with h' | h'
        · exact Or.inl h'
        · exact Or.inr (by simp [h'])
      · exact Or.inr (List.mem_cons_of_mem _ h')
    cases o with
    | wake i =>
      simp only [step, Option.some.injEq] at h1
      subst h1
      refine key ok Or.inl hs ?_ ?_
      · intro w hw' hc; exact hw w (List.mem_filter.1 hw').1 hc
      · intro i' hm
        unfold wake at hm
        simp only [List.mem_append, List.mem_map, List.mem_filter] at hm
        rcases hm with hm | ⟨w, ⟨hwm, hwc⟩, he⟩
        · exact ht i' hm
        · simp only [Bool.and_eq_true, decide_eq_true_eq] at hwc
          simp only [Prod.mk.injEq] at he
          rcases hw w hwm hwc.2 with h' | ⟨p, hp, hd⟩
          · exact h'
          · rw [hp] at he
            exact hs p hp hd he.2
    | expire =>
      simp only [step, Option.some.injEq] at h1
      subst h1
      unfold expire at *
      cases he : s.entry with
      | none =>
        rw [he] at key
        exact key ok Or.inl hs hw ht
      | some p =>
        rw [he] at key
        simp only at key
        refine key ok Or.inl ?_ ?_ ht
        · intro q hq _ hx
          simp only [Option.some.injEq] at hq
          subst hq; cases hx
        · intro w hw' hc
          rcases hw w hw' hc with h' | ⟨q, hq, hd⟩
          · exact Or.inl h'
          · rw [he] at hq; simp only [Option.some.injEq] at hq; subst hq
            exact Or.inr ⟨_, rfl, hd⟩
    | complete b =>
      simp only [step, complete] at h1
      cases he : s.entry with
      | none =>
        rw [he] at h1
        simp only [Option.some.injEq] at h1
        subst h1
        refine key (ok || b) ?_ ?_ ?_ ?_
        · cases ok <;> cases b <;> simp
        · intro p hp _ hx
          simp only [Option.some.injEq] at hp
          subst hp
          simp only [Bool.not_eq_false'] at hx
          simp [hx]
        · intro w hw' hc
          exact Or.inr ⟨_, rfl, rfl⟩
        · intro i hm; simp [ht i hm]
      | some p =>
        rw [he] at h1
        simp only at h1
        split at h1
        · simp only [Option.some.injEq] at h1
          subst h1
          exact key ok Or.inl (by rw [← he] at *; exact hs) hw ht
        · cases hc : p.ch with
          | none => rw [hc] at h1; cases h1
          | some c =>
            rw [hc] at h1
            simp only [close, if_neg (hi.freshCh p c he hc).2, Option.some.injEq] at h1
            subst h1
            refine key (ok || b) ?_ ?_ ?_ ?_
            · cases ok <;> cases b <;> simp
            · intro q hq _ hx
              simp only [Option.some.injEq] at hq
              subst hq
              simp only [Bool.or_eq_false_iff, Bool.not_eq_false'] at hx
              simp [hx.2]
            · intro w hw' hc'
              exact Or.inr ⟨_, rfl, rfl⟩
            · intro i hm; simp [ht i hm]
    | call i =>
      have hno0 := hno0 i rfl
      simp only [step, call] at h1
      -- starting afresh with nobody waiting
      have fresh : ∀ s2 : State, s2.entry = none → s2.waiting = [] → s2.told = s.told → Inv s2 →
          s1 = waitOrStart s2 i → ok = true ∨ .complete true ∈ .call i :: ops := by
        intro s2 e1 e2 e3 hi2 e4
        subst e4
        have hws : (waitOrStart s2 i) =
            { s2 with entry := some ⟨false, false, some s2.nextCh⟩, nextCh := s2.nextCh + 1, waiting := [(i, s2.nextCh)], notified := s2.notified + 1 } := by
          simp [waitOrStart, e1, e2, zero]
        refine key ok Or.inl ?_ ?_ ?_
        · rw [hws]
          intro p hp hd
          simp only [Option.some.injEq] at hp
          subst hp; cases hd
        · rw [hws]
          intro w hw' hc
          simp only [List.mem_singleton] at hw'
          subst hw'
          exact absurd (hi2.fresh _ hc) (by simp)
        · rw [hws]
          intro i' hm; exact ht i' (e3 ▸ hm)
      cases he : s.entry with
      | none =>
        rw [he] at h1
        simp only [Option.getD_none, zero, Bool.not_false, Bool.and_false, Bool.false_eq_true, if_false,
          Option.some.injEq] at h1
        subst h1
        have hws : (waitOrStart s i) =
            { s with entry := some ⟨false, false, some s.nextCh⟩, nextCh := s.nextCh + 1, waiting := s.waiting ++ [(i, s.nextCh)], notified := s.notified + 1 } := by
          simp [waitOrStart, he, zero]
        refine key ok Or.inl ?_ ?_ ?_
        · rw [hws]
          intro p hp hd
          simp only [Option.some.injEq] at hp
          subst hp; cases hd
        · rw [hws]
          intro w hw' hc
          simp only [List.mem_append, List.mem_singleton] at hw'
          rcases hw' with hw' | rfl
          · rcases hw w hw' hc with h' | ⟨p, hp, _⟩
            · exact Or.inl h'
            · rw [he] at hp; cases hp
          · exact absurd (hi.fresh _ hc) (by simp)
        · rw [hws]; exact ht
      | some p =>
        rw [he] at h1
        simp only [Option.getD_some] at h1
        split at h1
        · rename_i hdn
          simp only [Bool.and_eq_true, Bool.not_eq_true'] at hdn
          simp only [Option.some.injEq] at h1
          subst h1
          have hok := hs p he hdn.2 hdn.1
          exact Or.inl hok
        · rename_i hnd
          split at h1
          · rename_i hex
            have hwn := hno0 p he hex
            cases hc : p.ch with
            | none =>
              rw [hc] at h1
              simp only [Option.some.injEq] at h1
              refine fresh { s with entry := none } rfl hwn rfl ?_ h1.symm
              exact ⟨hi.fresh, nofun, nofun, by simp [hwn]⟩
            | some c =>
              rw [hc] at h1
              have hf := hi.freshCh p c he hc
              simp only [close, if_neg hf.2, Option.map_some, Option.some.injEq] at h1
              refine fresh { s with closed := c :: s.closed, entry := none } rfl hwn rfl ?_ h1.symm
              refine ⟨?_, nofun, nofun, by simp [hwn]⟩
              intro x hx
              rcases List.mem_cons.1 hx with rfl | hx
              · exact hf.1
              · exact hi.fresh x hx
          · rename_i hex
            simp only [Option.some.injEq] at h1
            subst h1
            have hd : p.done = false := by
              cases hd : p.done with
              | false => rfl
              | true => cases hx : p.expired <;> simp [hd, hx] at hnd hex
            cases hc : p.ch with
            | none => rw [(hi.done p he).2 hc] at hd; cases hd
            | some c =>
              have hws : (waitOrStart s i) = { s with waiting := s.waiting ++ [(i, c)] } := by
                simp [waitOrStart, he, hc]
              refine key ok Or.inl ?_ ?_ ?_
              · rw [hws]; exact hs
              · rw [hws]
                intro w hw' hcl
                simp only [List.mem_append, List.mem_singleton] at hw'
                rcases hw' with hw' | rfl
                · exact hw w hw' hcl
                · exact absurd hcl (hi.freshCh p c he hc).2
              · rw [hws]; exact ht

/-- C30, partial: a caller is told that the token is valid only if a successful initial sync completed
before, provided no caller enters while the token is marked expired and earlier callers have
not returned.  Missing: such overlaps (`C30_truth_violated`). -/
theorem C30_truth_partial (ops : List Op) (hno : NoOverlap {} ops) (s : State) (h : run {} ops = some s) (id : Nat)
    (ht : (id, false) ∈ s.told) : .complete true ∈ ops := by
  rcases told_valid ops {} false inv_init nofun nofun nofun hno s h id ht with h' | h'
  · cases h'
  · exact h'

/-- C30 is violated: caller 1 waits, the token expires, caller 2 closes caller 1's channel and starts
afresh; caller 1 is told that the token is valid although no sync ever completed. -/
theorem C30_truth_violated : ∃ (ops : List Op) (s : State) (id : Nat), run {} ops = some s ∧
    (id, false) ∈ s.told ∧ ∀ b, .complete b ∉ ops := by
  refine ⟨[.call 1, .expire, .call 2, .wake 1],
    { entry := some ⟨false, false, some 1⟩, closed := [0], nextCh := 2, waiting := [(2, 1)], told := [(1, false)], notified := 2 },
    1, by decide, by decide, by intro b; cases b <;> decide⟩

/-- The same can happen when the sync failed: the caller released by the failure is told the token is
valid because another caller has replaced the entry. -/
theorem C30_truth_violated_failure : ∃ (ops : List Op) (s : State) (id : Nat), run {} ops = some s ∧
    (id, false) ∈ s.told ∧ .complete true ∉ ops := by
  refine ⟨[.call 1, .complete false, .call 2, .wake 1],
    { entry := some ⟨false, false, some 1⟩, closed := [0], nextCh := 2, waiting := [(2, 1)], told := [(1, false)], notified := 2 },
    1, by decide, by decide, by decide⟩

/-- Expiry alone does not release a waiting caller. -/
theorem C30_expiry_violated : ∃ (ops : List Op) (s : State), run {} (ops ++ [.expire]) = some s ∧
    ∃ w ∈ s.waiting, w.2 ∉ s.closed := by
  refine ⟨[.call 1], { entry := some ⟨false, true, some 0⟩, nextCh := 1, waiting := [(1, 0)], notified := 1 },
    by decide, (1, 0), by decide, by decide⟩

example : NoOverlap {} [.call 1, .call 2, .complete true, .wake 1, .wake 2, .call 3] ∧
    (run {} [.call 1, .call 2, .complete true, .wake 1, .wake 2, .call 3]).map (·.told)
      = some [(1, false), (2, false), (3, false)] := by
  refine ⟨?_, by decide⟩
  refine ⟨nofun, fun s1 h1 => ⟨?_, fun s2 h2 => ⟨nofun, fun s3 h3 => ⟨nofun, fun s4 h4 => ⟨nofun, fun s5 h5 =>
    ⟨?_, fun _ _ => trivial⟩⟩⟩⟩⟩⟩
  · intro i _ p hp hx
    cases h1
    cases hp
    cases hx
  · intro i _ p hp hx
    cases h1; cases h2; cases h3; cases h4; cases h5
    cases hp
    cases hx

end Verif.EnsurePoller
