import Verif.RangesDelta
/-! Properties C01, C02, C03 of `sync3/range.go`. -/
namespace Verif.Ranges

/-! ## Specification -/

/-- Index `x` is covered by the range. -/
def Range.Has (r : Range) (x : Int) : Prop := r.1 ≤ x ∧ x ≤ r.2

/-! `Covers rs x` (index `x` is in one of the ranges) is defined in
`Verif.RangesSweep` as `∃ r ∈ rs, r.1 ≤ x ∧ x ≤ r.2`. -/

/-- Well-formed windows: every range is `0 ≤ a ≤ b` and no index is in two of
them (two different positions of the list). -/
def WellFormed (rs : Ranges) : Prop :=
  (∀ r ∈ rs, 0 ≤ r.1 ∧ r.1 ≤ r.2) ∧
  rs.Pairwise fun a b => ∀ x, ¬ (Range.Has a x ∧ Range.Has b x)

/-- **C01** -/
theorem C01_valid_iff (rs : Ranges) : valid rs = true ↔ WellFormed rs := by
  induction rs with
  | nil => simp [valid, WellFormed]
  | cons sr rest ih =>
    simp only [valid, WellFormed, List.mem_cons, forall_eq_or_imp, List.pairwise_cons] at *
    split
    · simp; omega
    · split
      · simp; omega
      · split
        · rename_i h1 h2 h
          simp only [List.any_eq_true] at h
          obtain ⟨t, ht, hc⟩ := h
          simp only [Bool.false_eq_true, false_iff]
          rintro ⟨⟨_, hw⟩, hp, _⟩
          have := hp t ht
          have hwt := hw t ht
          simp only [clash, Bool.or_eq_true, Bool.and_eq_true, decide_eq_true_eq] at hc
          simp only [Range.Has] at this
          rcases hc with ((hc | hc) | hc) | hc
          · exact this sr.1 (by omega)
          · exact this sr.2 (by omega)
          · exact this t.1 (by omega)
          · exact this t.2 (by omega)
        · rename_i h1 h2 h
          rw [ih]
          constructor
          · rintro ⟨hw, hp⟩
            refine ⟨⟨by omega, hw⟩, ?_, hp⟩
            intro t ht x hx
            apply h
            rw [List.any_eq_true]
            refine ⟨t, ht, ?_⟩
            have := hw t ht
            simp only [Range.Has] at hx
            simp only [clash, Bool.or_eq_true, Bool.and_eq_true, decide_eq_true_eq]
            omega
          · rintro ⟨⟨_, hw⟩, _, hp⟩
            exact ⟨hw, hp⟩

example : WellFormed [(0, 20), (25, 25), (21, 24)] := (C01_valid_iff _).1 (by decide)
example : ¬ WellFormed [(0, 20), (20, 24)] := fun h => absurd ((C01_valid_iff _).2 h) (by decide)

/-! ## C02: changing windows -/

/-- The full claim of C02 for one pair of range lists: `Delta` does not panic
and its three outputs are the set differences and the intersection. -/
def DeltaCorrect (old next : Ranges) : Prop :=
  ∃ d, delta old next = some d ∧ ∀ x,
    (Covers d.same x ↔ Covers old x ∧ Covers next x) ∧
    (Covers d.added x ↔ Covers next x ∧ ¬ Covers old x) ∧
    (Covers d.removed x ↔ Covers old x ∧ ¬ Covers next x)

/-- **C02, exact behaviour.** For all valid ranges `Delta` does not panic, the
unchanged indices are exactly the intersection, and the added (removed)
indices are exactly the set difference *minus* the one-index ranges of `next`
(`old`). -/
theorem C02_delta_exact {old next : Ranges} (ho : valid old = true) (hn : valid next = true) :
    ∃ d, delta old next = some d ∧ ∀ x,
      (Covers d.same x ↔ Covers old x ∧ Covers next x) ∧
      (Covers d.added x ↔ Covers next x ∧ ¬ Covers old x ∧ (x, x) ∉ next) ∧
      (Covers d.removed x ↔ Covers old x ∧ ¬ Covers next x ∧ (x, x) ∉ old) := by
  by_cases e : old = next
  · refine ⟨⟨[], [], next⟩, by simp [delta, e], fun x => ?_⟩
    subst e
    simp only [covers_nil]
    refine ⟨by simp, ?_, ?_⟩ <;> constructor <;> simp +contextual
  · obtain ⟨s, hs, h⟩ := sweep_valid ho hn
    exact ⟨⟨s.added, s.removed, s.same⟩, by simp only [delta, e, if_false, hs]; rfl, h⟩

/-- **C02 (partial).** The full claim holds when no one-index range occurs.
Missing: ranges `[x, x]`, for which the claim is false
(`C02_delta_violated`). -/
theorem C02_delta_partial {old next : Ranges} (ho : valid old = true) (hn : valid next = true)
    (so : ∀ x, (x, x) ∉ old) (sn : ∀ x, (x, x) ∉ next) : DeltaCorrect old next := by
  obtain ⟨d, h1, h2⟩ := C02_delta_exact ho hn
  refine ⟨d, h1, fun x => ?_⟩
  have := h2 x
  simpa [so x, sn x] using this

/-- **C02 is violated by the code**: after `[0,20]`, asking for
`[0,20],[21,21]` reports nothing as added, although index 21 is new. -/
theorem C02_delta_violated : ∃ old next : Ranges, valid old = true ∧ valid next = true ∧
    ¬ DeltaCorrect old next := by
  refine ⟨[(0, 20)], [(0, 20), (21, 21)], by decide, by decide, ?_⟩
  rintro ⟨d, h1, h2⟩
  obtain ⟨d', h3, h4⟩ := C02_delta_exact (old := [(0, 20)]) (next := [(0, 20), (21, 21)])
    (by decide) (by decide)
  have hd : d = d' := by rw [h1] at h3; exact Option.some.inj h3
  subst hd
  have a := (h2 21).2.1
  have b := (h4 21).2.1
  rw [b] at a
  simp [Covers] at a

example : DeltaCorrect [(0, 20), (30, 40)] [(10, 35), (50, 60)] :=
  C02_delta_partial (by decide) (by decide) (by simp; omega) (by simp; omega)

/-- `Delta` may also output an inverted (empty) range such as `[4,3]`: here
for adjacent windows being merged. -/
theorem C02_delta_inverted_range :
    valid [(0, 3), (4, 10)] = true ∧ valid [(0, 10)] = true ∧
    delta [(0, 3), (4, 10)] [(0, 10)] = some ⟨[(4, 3)], [], [(0, 3), (4, 10)]⟩ := by
  decide +kernel

/-! ## C03: windowing a list -/

/-- Rooms of `xs` whose position is inside the range, in list order. -/
def visibleIn {α} (xs : List α) (r : Range) : List α :=
  (xs.zipIdx.filter fun p => decide (r.1 ≤ (p.2 : Int)) && decide ((p.2 : Int) ≤ r.2)).map (·.1)

theorem filter_zipIdx_slice {α} (xs : List α) (off a b : Nat) :
    ((xs.zipIdx off).filter fun p => decide (a ≤ p.2) && decide (p.2 < b)).map (·.1)
      = (xs.drop (a - off)).take (b - max a off) := by
  induction xs generalizing off with
  | nil => simp
  | cons x xs ih =>
    rw [List.zipIdx_cons, List.filter_cons]
    have := ih (off + 1)
    by_cases h1 : a ≤ off
    · have h1' := h1
      have e1 : a - off = 0 := by omega
      have e2 : a - (off + 1) = 0 := by omega
      rw [e2] at this
      simp only [h1, e1, decide_true, Bool.true_and, List.drop_zero] at this ⊢
      by_cases h2 : off < b
      · simp only [h2, decide_true, if_true, List.map_cons, this]
        have : b - max a off = (b - max a (off + 1)) + 1 := by
          rw [Nat.max_eq_right h1', Nat.max_eq_right (Nat.le_succ_of_le h1')]; omega
        rw [this, List.take_succ_cons]
      · simp only [h2, decide_false, Bool.false_eq_true, if_false, this]
        have h3 : b - max a off = 0 := by
          rw [Nat.max_eq_right h1']; omega
        have h4 : b - max a (off+1) = 0 := by
          rw [Nat.max_eq_right (by omega)]; omega
        rw [h3, h4]; simp
    · simp only [h1, decide_false, Bool.false_and, Bool.false_eq_true, if_false, this]
      have : a - off = (a - (off + 1)) + 1 := by omega
      rw [this, List.drop_succ_cons]
      congr 1; rw [Nat.max_eq_left (by omega), Nat.max_eq_left (by omega)]

/-- **C03** For valid ranges, windowing never goes out of bounds (no panic) and
yields exactly the rooms at covered positions, range by range. -/
theorem C03_sliceInto {α} (xs : List α) {rs : Ranges} (hv : valid rs = true) :
    ∃ ss, sliceInto xs rs = some ss ∧ ss.flatten = rs.flatMap (visibleIn xs) := by
  have hle := valid_le hv
  clear hv
  induction rs with
  | nil => exact ⟨[], rfl, rfl⟩
  | cons r rs ih =>
    obtain ⟨ss, h1, h2⟩ := ih (fun a ha => hle a (by simp [ha]))
    have hr := hle r (by simp)
    have hvis : visibleIn xs r = (xs.drop r.1.toNat).take ((r.2 + 1 - r.1).toNat) := by
      have := filter_zipIdx_slice xs 0 r.1.toNat (r.2 + 1).toNat
      unfold visibleIn
      rw [show (r.2 + 1 - r.1).toNat = (r.2 + 1).toNat - max r.1.toNat 0 by
        rw [Nat.max_eq_left (Nat.zero_le _)]; omega]
      rw [Nat.sub_zero] at this
      rw [← this]
      congr 1
      apply List.filter_congr
      intro p _
      have e1 : (r.1 ≤ (p.2 : Int)) ↔ r.1.toNat ≤ p.2 := by omega
      have e2 : ((p.2 : Int) ≤ r.2) ↔ p.2 < (r.2 + 1).toNat := by omega
      simp only [e1, e2]
    simp only [sliceInto, List.flatMap_cons]
    by_cases hn : (xs.length : Int) = 0
    · have : xs = [] := List.length_eq_zero_iff.1 (by omega)
      subst this
      simp only [List.length_nil, Int.natCast_zero, if_true]
      exact ⟨ss, h1, by rw [h2, hvis]; simp⟩
    · simp only [hn, if_false]
      by_cases hge : r.1 ≥ (xs.length : Int)
      · have h2' : r.1 ≥ (xs.length : Int) ∧ r.2 ≥ (xs.length : Int) := by omega
        simp only [h2', and_self, if_true]
        refine ⟨ss, h1, ?_⟩
        rw [h2, hvis, List.drop_eq_nil_of_le (by omega)]; simp
      · simp only [hge, false_and, if_false]
        have hg : ∀ b : Int, b = (if r.2 ≥ (xs.length : Int) then (xs.length : Int) - 1 else r.2) →
            goSlice xs r.1 (b + 1) = some (visibleIn xs r) := by
          intro b hb
          have hb2 : r.1 ≤ b + 1 ∧ b + 1 ≤ (xs.length : Int) := by
            rw [hb]; split <;> omega
          have hc : 0 ≤ r.1 ∧ r.1 ≤ b + 1 ∧ b + 1 ≤ (xs.length : Int) := ⟨hr.1, hb2⟩
          unfold goSlice
          rw [if_pos hc, hvis]
          congr 1
          rw [hb]
          split
          · rw [List.take_of_length_le (by rw [List.length_drop]; omega),
              List.take_of_length_le (by rw [List.length_drop]; omega)]
          · rfl
        rw [hg _ rfl]
        exact ⟨visibleIn xs r :: ss, by simp [h1], by simp [h2]⟩

example : sliceInto [10, 11, 12, 13] [(0, 1), (3, 7), (9, 12)] = some [[10, 11], [13]] := by
  decide
/-- The hypothesis matters: an inverted range would panic. -/
example : sliceInto [10, 11, 12, 13] [(2, 0)] = none := by decide

end Verif.Ranges
