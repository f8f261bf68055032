import Verif.Retention
/-!
# C141: transaction ids are kept for an hour, and not for long after
-/
namespace Verif.Retention

variable {κ τ : Type} [DecidableEq κ]

/-- The time that ids are kept: an hour, or the time between two cleanings if that is longer. -/
def Keep (n b : Nat) : Prop := hour ≤ b ∧ n ≤ b ∧ (b = hour ∨ b = n)

theorem keep_boundary (n b now : Nat) (h : Keep n b) : boundary n now = now - b := by
  obtain ⟨h1, h2, h3⟩ := h
  unfold boundary
  split
  · rcases h3 with rfl | rfl
    · rfl
    · omega
  · rcases h3 with rfl | rfl
    · have : n = hour := by omega
      rw [this]
    · rfl

theorem milli_lt (b now : Nat) (h : b + 1000000 ≤ now) : milli b < milli now := by
  unfold milli
  omega

theorem now_mono (n : Nat) (s : State κ τ) (op : Op κ τ) : s.now ≤ (step n s op).now := by
  cases op <;> simp only [step]
  · omega
  · omega
  · split <;> simp
  · omega

theorem now_mono_run (n : Nat) (ops : List (Op κ τ)) (s : State κ τ) : s.now ≤ (run n s ops).now := by
  induction ops generalizing s with
  | nil => exact Nat.le_refl _
  | cons op ops ih => exact Nat.le_trans (now_mono n s op) (ih (step n s op))

/-- The row is there and is the only one for its key. -/
def Only (s : State κ τ) (r : Row κ τ) : Prop := r ∈ s.rows ∧ ∀ q ∈ s.rows, q.key = r.key → q = r

theorem only_select (s : State κ τ) (r : Row κ τ) (h : Only s r) : select s r.key = some r.txn := by
  unfold select
  cases hf : s.rows.find? fun q => decide (q.key = r.key) with
  | none =>
    have := List.find?_eq_none.1 hf r h.1
    simp at this
  | some q =>
    have h1 := List.find?_some hf
    have h2 := h.2 q (List.mem_of_find?_eq_some hf) (by simpa using h1)
    rw [h2]
    rfl

theorem only_step (n b : Nat) (hb : Keep n b) (s : State κ τ) (r : Row κ τ) (op : Op κ τ) (h : Only s r)
    (hr : ∀ t, t ≤ (step n s op).now → milli (t - b) < r.ts) : Only (step n s op) r := by
  cases op with
  | pass d => exact h
  | shutdown => exact h
  | insert ids =>
    simp only [step, insert]
    split
    · exact h
    · rename_i hn
      refine ⟨List.mem_append_left _ h.1, fun q hq hk => ?_⟩
      rcases List.mem_append.1 hq with hq | hq
      · exact h.2 q hq hk
      · obtain ⟨p, hp, rfl⟩ := List.mem_map.1 hq
        exfalso
        apply hn
        exact List.any_eq_true.2 ⟨p, hp, List.any_eq_true.2 ⟨r, h.1, by simpa using hk.symm⟩⟩
  | clean ok =>
    simp only [step] at hr ⊢
    split
    · exact h
    · rename_i hc
      rw [if_neg hc] at hr
      cases ok with
      | false => exact h
      | true =>
        have := hr s.now (Nat.le_refl _)
        refine ⟨List.mem_filter.2 ⟨h.1, ?_⟩, fun q hq hk => h.2 q (List.mem_filter.1 hq).1 hk⟩
        rw [keep_boundary n b s.now hb]
        simp only [Bool.not_eq_true', decide_eq_false_iff_not]
        omega

theorem only_run (n b : Nat) (hb : Keep n b) (r : Row κ τ) (ops : List (Op κ τ)) (s : State κ τ) (h : Only s r)
    (hr : ∀ t, t ≤ (run n s ops).now → milli (t - b) < r.ts) : Only (run n s ops) r := by
  induction ops generalizing s with
  | nil => exact h
  | cons op ops ih =>
    exact ih (step n s op) (only_step n b hb s r op h fun t ht => hr t (Nat.le_trans ht (now_mono_run n ops (step n s op)))) hr

/-- C141: whatever state the process is in, when the ids of a timeline are stored, each is found, unchanged, until a millisecond before
the time that ids are kept is over: whatever else is stored, cleaned and shut down meanwhile.  (The clock is past the first millisecond of 1970.) -/
theorem C141_kept (n b : Nat) (hb : Keep n b) (s : State κ τ) (ids : List (κ × τ)) (hnew : ∀ p ∈ ids, select s p.1 = none)
    (hmap : (ids.map Prod.fst).Nodup) (hclock : 1000000 ≤ s.now) (ops : List (Op κ τ))
    (hage : (run n s (.insert ids :: ops)).now + 1000000 ≤ s.now + b) :
    ∀ p ∈ ids, select (run n s (.insert ids :: ops)) p.1 = some p.2 := by
  intro p hp
  have hnone : ∀ q ∈ ids, ∀ r ∈ s.rows, r.key ≠ q.1 := by
    intro q hq r hr hk
    have := hnew q hq
    unfold select at this
    rw [Option.map_eq_none_iff] at this
    have := List.find?_eq_none.1 this r hr
    simp [hk] at this
  have hs : step n s (.insert ids) = { s with rows := s.rows ++ ids.map fun p => ⟨p.1, p.2, milli s.now⟩ } := by
    simp only [step, insert]
    rw [if_neg]
    intro h
    obtain ⟨q, hq, h⟩ := List.any_eq_true.1 h
    obtain ⟨r, hr, h⟩ := List.any_eq_true.1 h
    exact hnone q hq r hr (by simpa using h)
  have honly : Only (step n s (.insert ids)) ⟨p.1, p.2, milli s.now⟩ := by
    rw [hs]
    refine ⟨List.mem_append_right _ (List.mem_map.2 ⟨p, hp, rfl⟩), fun q hq hk => ?_⟩
    rcases List.mem_append.1 hq with hq | hq
    · exact absurd hk (hnone p hp q hq)
    · obtain ⟨p', hp', rfl⟩ := List.mem_map.1 hq
      simp only at hk
      have : p' = p := by
        clear hs hnone hnew hage
        induction ids with
        | nil => cases hp
        | cons x xs ih =>
          simp only [List.map_cons, List.nodup_cons] at hmap
          rcases List.mem_cons.1 hp with rfl | hp1 <;> rcases List.mem_cons.1 hp' with rfl | hp2
          · rfl
          · exact absurd (hk ▸ List.mem_map_of_mem (f := Prod.fst) hp2) hmap.1
          · exact absurd (hk ▸ List.mem_map_of_mem (f := Prod.fst) hp1) hmap.1
          · exact ih hmap.2 hp1 hp2 (List.mem_append_right _ (List.mem_map.2 ⟨p', hp2, rfl⟩)) (List.mem_map.2 ⟨p', hp2, rfl⟩)
      rw [this]
  exact only_select _ _ (only_run n b hb _ ops _ honly fun t ht => milli_lt _ _ (by
    have : t ≤ (run n s (.insert ids :: ops)).now := ht
    omega))

/-- The cleaner is never more than `δ` late, its statements succeed, and the process is not shut down. -/
def Prompt (n δ : Nat) (s : State κ τ) : List (Op κ τ) → Prop
  | [] => s.now ≤ s.due + δ
  | op :: ops => s.now ≤ s.due + δ ∧ (match op with
      | .clean ok => ok = true
      | .shutdown => False
      | _ => True) ∧ Prompt n δ (step n s op) ops

theorem prompt_last (n δ : Nat) (ops : List (Op κ τ)) (s : State κ τ) (h : Prompt n δ s ops) : (run n s ops).now ≤ (run n s ops).due + δ := by
  induction ops generalizing s with
  | nil => exact h
  | cons op ops ih => exact ih _ h.2.2

theorem aged_run (n b δ : Nat) (hb : Keep n b) (old : List (Row κ τ)) (d0 : Nat) (ops : List (Op κ τ)) (s : State κ τ) (hp : Prompt n δ s ops)
    (hd : s.due ≤ s.now + n) (hdown : s.down = false)
    (h : ∀ r ∈ s.rows, (r ∈ old ∧ s.due = d0) ∨ s.due < r.ts * 1000000 + b + n) :
    ∀ r ∈ (run n s ops).rows, (r ∈ old ∧ (run n s ops).due = d0) ∨ (run n s ops).due < r.ts * 1000000 + b + n := by
  induction ops generalizing s with
  | nil => exact h
  | cons op ops ih =>
    obtain ⟨h1, h2, h3⟩ := hp
    refine ih (step n s op) h3 ?_ ?_ ?_
    · cases op <;> simp only [step]
      · omega
      · exact hd
      · split <;> (try simp only) <;> omega
      · exact hd
    · cases op <;> simp only [step]
      · exact hdown
      · exact hdown
      · split <;> exact hdown
      · exact h2.elim
    · cases op with
      | pass d => exact h
      | shutdown => exact h2.elim
      | insert ids =>
        simp only [step, insert]
        split
        · exact h
        · intro r hr
          rcases List.mem_append.1 hr with hr | hr
          · exact h r hr
          · right
            obtain ⟨p, _, rfl⟩ := List.mem_map.1 hr
            have hh : 1000000 ≤ b := Nat.le_trans (by decide) hb.1
            simp only [milli]
            omega
      | clean ok =>
        simp only at h2
        subst h2
        simp only [step]
        split
        · exact h
        · intro r hr
          right
          simp only [if_true, cleanRows] at hr
          have := (List.mem_filter.1 hr).2
          rw [keep_boundary n b s.now hb] at this
          have h4 : ¬ r.ts ≤ milli (s.now - b) := by simpa using this
          simp only [milli] at h4 ⊢
          omega

/-- C141: while the process runs and its cleaner is never more than `δ` late, every id that is still there is younger than the time that
ids are kept, the time between two cleanings and `δ` together; except for those that were there at the start, until the first cleaning. -/
theorem C141_gone (n b δ t0 : Nat) (hb : Keep n b) (old : List (Row κ τ)) (ops : List (Op κ τ))
    (hp : Prompt n δ (init n t0 old) ops) (r : Row κ τ) (hr : r ∈ (run n (init n t0 old) ops).rows) :
    (run n (init n t0 old) ops).now < r.ts * 1000000 + b + n + δ ∨ (r ∈ old ∧ (run n (init n t0 old) ops).now ≤ t0 + n + δ) := by
  have hlast := prompt_last n δ ops _ hp
  rcases aged_run n b δ hb old (t0 + n) ops (init n t0 old) hp (Nat.le_refl _) rfl (fun r hr => Or.inl ⟨hr, rfl⟩) r hr with ⟨h1, h2⟩ | h
  · exact Or.inr ⟨h1, by omega⟩
  · exact Or.inl (by omega)

/-- C141: the first cleaning is only `n` after the start, so that a process that runs for a shorter time removes nothing: if it is always
restarted before, ids are kept forever. -/
theorem C141_restarts (n t0 : Nat) (old : List (Row κ τ)) (ops : List (Op κ τ)) (h : (run n (init n t0 old) ops).now < t0 + n) :
    ∀ r ∈ old, r ∈ (run n (init n t0 old) ops).rows := by
  have key : ∀ (ops : List (Op κ τ)) (s : State κ τ), s.due = t0 + n → (run n s ops).now < t0 + n →
      ∀ r ∈ s.rows, r ∈ (run n s ops).rows := by
    intro ops
    induction ops with
    | nil => intro s _ _ r hr; exact hr
    | cons op ops ih =>
      intro s hd hlt r hr
      have h1 := now_mono_run n ops (step n s op)
      have h2 : (step n s op).now < t0 + n := Nat.lt_of_le_of_lt h1 hlt
      refine ih (step n s op) ?_ hlt r ?_
      · cases op <;> simp only [step] at h2 ⊢
        · exact hd
        · exact hd
        · split at h2
          · rw [if_pos (by assumption)]; exact hd
          · rename_i hc
            simp only [hd, Bool.or_eq_true, decide_eq_true_eq, not_or] at hc h2
            omega
        · exact hd
      · cases op <;> simp only [step] at h2 ⊢
        · exact hr
        · unfold insert
          split
          · exact hr
          · exact List.mem_append_left _ hr
        · split at h2
          · rw [if_pos (by assumption)]; exact hr
          · rename_i hc
            simp only [hd, Bool.or_eq_true, decide_eq_true_eq, not_or] at hc h2
            omega
        · exact hr
  exact key ops (init n t0 old) rfl h

/-! ## Cases -/

/-- `main` cleans every hour, `cmd/syncv3/main.go:223`. -/
example : Keep hour hour := ⟨Nat.le_refl _, Nat.le_refl _, Or.inl rfl⟩

/-- An id stored half an hour after the start survives the cleaning after one hour, and is gone after the second. -/
example : let s := run hour (init (κ := Nat) (τ := Nat) hour (10 * hour) []) [.pass (hour / 2)]
    let ops : List (Op Nat Nat) := [.pass (hour / 2), .clean true]
    select s 7 = none ∧ (run hour s (.insert [(7, 1)] :: ops)).now + 1000000 ≤ s.now + hour ∧
    select (run hour s (.insert [(7, 1)] :: ops)) 7 = some 1 ∧
    select (run hour s (.insert [(7, 1)] :: ops ++ [.pass hour, .clean true])) 7 = none := by decide +kernel

/-- Rows hold milliseconds and the boundary is included, so that an id can be removed a little less than a millisecond early. -/
example : let s := run hour (init (κ := Nat) (τ := Nat) hour (10 * hour) []) [.pass 999999]
    let s' := run hour s [.insert [(7, 1)], .pass (hour - 999999), .clean true]
    s'.now < s.now + hour ∧ select s' 7 = none := by decide +kernel

end Verif.Retention
