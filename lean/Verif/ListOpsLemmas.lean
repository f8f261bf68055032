import Verif.ListOpsSpec
import Verif.RangesDelta
/-! Lemmas about the move indexes of `Verif.ListOps`. -/
namespace Verif.ListOps
open Verif.Ranges Verif.Util

/-- Ranges in ascending order, each ending before the next one starts. -/
def Asc (S : Ranges) : Prop := S.Pairwise fun a b => a.2 < b.1

def flat (S : Ranges) : List Int := S.flatMap fun r => [r.1, r.2]

theorem valid_nodup {rs : Ranges} (hv : valid rs = true) : rs.Nodup := by
  induction rs with
  | nil => simp
  | cons c r ih =>
    simp only [valid] at hv
    split at hv; · cases hv
    split at hv; · cases hv
    split at hv; · cases hv
    rename_i h1 h2 h3
    rw [List.nodup_cons]
    refine ⟨fun hm => h3 ?_, ih hv⟩
    rw [List.any_eq_true]
    refine ⟨c, hm, ?_⟩
    simp only [clash, Bool.or_eq_true, Bool.and_eq_true, decide_eq_true_eq]
    omega

theorem sorted_asc {rs : Ranges} (hv : valid rs = true) :
    Asc (isort (fun a b => decide (a.1 ≤ b.1)) rs) := by
  have hp := isort_perm (fun a b : Range => decide (a.1 ≤ b.1)) rs
  have hs := isort_pairwise (le := fun a b : Range => decide (a.1 ≤ b.1))
    (fun a b c h1 h2 => by simp at *; omega) (fun a b => by simp; omega) rs
  have hn : (isort (fun a b : Range => decide (a.1 ≤ b.1)) rs).Nodup := hp.nodup_iff.2 (valid_nodup hv)
  unfold Asc
  have := (hs.and hn)
  refine List.Pairwise.imp_of_mem ?_ this
  intro a b ha hb hab
  obtain ⟨h1, h2⟩ := hab
  have ha := hp.mem_iff.1 ha
  have hb := hp.mem_iff.1 hb
  simp only [decide_eq_true_eq] at h1
  by_cases h : a.2 < b.1
  · exact h
  · exact absurd (valid_unique hv ha hb (y := b.1) ⟨h1, by omega⟩ ⟨Int.le_refl _, (valid_le hv b hb).2⟩) h2

theorem flat_sorted {S : Ranges} (ha : Asc S) (hle : ∀ r ∈ S, r.1 ≤ r.2) :
    (flat S).Pairwise fun a b => a ≤ b := by
  induction S with
  | nil => simp [flat]
  | cons r S ih =>
    have ha' := List.pairwise_cons.1 ha
    have hr := hle r (by simp)
    have ih := ih ha'.2 (fun q hq => hle q (by simp [hq]))
    have hall : ∀ x ∈ flat S, r.2 < x := by
      intro x hx
      simp only [flat, List.mem_flatMap] at hx
      obtain ⟨q, hq, hx⟩ := hx
      have h1 := ha'.1 q hq
      have h2 := hle q (by simp [hq])
      simp at hx
      rcases hx with rfl | rfl <;> omega
    show (r.1 :: r.2 :: flat S).Pairwise _
    rw [List.pairwise_cons, List.pairwise_cons]
    refine ⟨?_, ?_, ih⟩
    · intro x hx
      rcases List.mem_cons.1 hx with rfl | hx
      · exact hr
      · have := hall x hx; omega
    · intro x hx; have := hall x hx; omega

theorem bounds_eq {rs : Ranges} (hv : valid rs = true) :
    bounds rs = flat (isort (fun a b => decide (a.1 ≤ b.1)) rs) := by
  have hp := isort_perm (fun a b : Range => decide (a.1 ≤ b.1)) rs
  apply List.Perm.eq_of_pairwise (le := fun a b : Int => a ≤ b)
  · intro a b _ _ h1 h2; omega
  · have := isort_pairwise (le := fun a b : Int => decide (a ≤ b))
      (fun a b c h1 h2 => by simp at *; omega) (fun a b => by simp; omega)
      (rs.flatMap fun sr => [sr.1, sr.2])
    exact this.imp (fun h => by simpa using h)
  · exact flat_sorted (sorted_asc hv) (fun r hr => (valid_le hv r (hp.mem_iff.1 hr)).2)
  · exact (isort_perm _ _).trans (hp.symm.flatMap_right _)

theorem closestDown_flat {r : Range} {i : Int} (hi : r.1 ≤ i ∧ i ≤ r.2) :
    ∀ (S : Ranges) (j : Nat) (prev : Option Int), Asc S → (∀ q ∈ S, q.1 ≤ q.2) → r ∈ S → j % 2 = 0 →
      closestDown i j prev (flat S) = some r.1 := by
  intro S
  induction S with
  | nil => intro _ _ _ _ h; cases h
  | cons h S ih =>
    intro j prev ha hle hr hj
    have ha' := List.pairwise_cons.1 ha
    have hh := hle h (by simp)
    show closestDown i j prev (h.1 :: h.2 :: flat S) = _
    rcases List.mem_cons.1 hr with rfl | hr'
    · simp only [closestDown]
      by_cases h1 : r.1 = i
      · have h2 : r.1 ≥ i := by omega
        rw [if_pos h2]
        cases prev <;> simp [h1, hj]
      · have h2 : ¬ r.1 ≥ i := by omega
        have h3 : r.2 ≥ i := by omega
        have h4 : ¬ ((j + 1) % 2 = 0 ∧ r.2 = i) := by omega
        rw [if_neg h2, if_pos h3]
        simp only [h4, if_false]
    · have h1 := ha'.1 r hr'
      have h2 : ¬ h.1 ≥ i := by omega
      have h3 : ¬ h.2 ≥ i := by omega
      simp only [closestDown]
      rw [if_neg h2, if_neg h3]
      exact ih (j + 1 + 1) (some h.2) ha'.2 (fun q hq => hle q (by simp [hq])) hr' (by omega)

def flatR (S : Ranges) : List Int := S.flatMap fun r => [r.2, r.1]

theorem flat_reverse (S : Ranges) : (flat S).reverse = flatR S.reverse := by
  induction S with
  | nil => rfl
  | cons r S ih =>
    have : flat (r :: S) = [r.1, r.2] ++ flat S := rfl
    rw [this, List.reverse_append, ih]
    simp [flatR]

theorem flat_length (S : Ranges) : (flat S).length = 2 * S.length := by
  induction S with
  | nil => rfl
  | cons r S ih =>
    have : flat (r :: S) = r.1 :: r.2 :: flat S := rfl
    rw [this]; simp [ih]; omega

theorem closestUp_flat {r : Range} {i : Int} (hi : r.1 ≤ i ∧ i ≤ r.2) :
    ∀ (S : Ranges) (next : Option Int), (S.Pairwise fun a b => b.2 < a.1) → (∀ q ∈ S, q.1 ≤ q.2) → r ∈ S →
      closestUp i (2 * S.length - 1) next (flatR S) = some r.2 := by
  intro S
  induction S with
  | nil => intro _ _ _ h; cases h
  | cons h S ih =>
    intro next ha hle hr
    have ha' := List.pairwise_cons.1 ha
    have hh := hle h (by simp)
    show closestUp i (2 * (S.length + 1) - 1) next (h.2 :: h.1 :: flatR S) = _
    have hj : (2 * (S.length + 1) - 1) % 2 = 1 := by omega
    rcases List.mem_cons.1 hr with rfl | hr'
    · simp only [closestUp]
      by_cases h1 : r.2 = i
      · have h2 : r.2 ≤ i := by omega
        rw [if_pos h2]
        cases next <;> simp [h1, hj]
      · have h2 : ¬ r.2 ≤ i := by omega
        have h3 : r.1 ≤ i := by omega
        have h4 : ¬ ((2 * (S.length + 1) - 1 - 1) % 2 = 1 ∧ r.1 = i) := by omega
        rw [if_neg h2, if_pos h3]
        simp only [h4, if_false]
    · have h1 := ha'.1 r hr'
      have h2 : ¬ h.1 ≤ i := by omega
      have h3 : ¬ h.2 ≤ i := by omega
      simp only [closestUp]
      rw [if_neg h3, if_neg h2]
      have : 2 * (S.length + 1) - 1 - 1 - 1 = 2 * S.length - 1 := by omega
      rw [this]
      exact ih (some h.1) ha'.2 (fun q hq => hle q (by simp [hq])) hr'

/-- For valid ranges, snapping an index which lies inside a range gives the
bound of that very range. -/
theorem closest_valid {rs : Ranges} (hv : valid rs = true) {r : Range} (hr : r ∈ rs) {i : Int}
    (hi : r.1 ≤ i ∧ i ≤ r.2) (z : Bool) :
    closestInDirection rs i z = some (if z then r.1 else r.2) := by
  have hp := isort_perm (fun a b : Range => decide (a.1 ≤ b.1)) rs
  have hle : ∀ q ∈ isort (fun a b : Range => decide (a.1 ≤ b.1)) rs, q.1 ≤ q.2 :=
    fun q hq => (valid_le hv q (hp.mem_iff.1 hq)).2
  have ha := sorted_asc hv
  simp only [closestInDirection, bounds_eq hv]
  cases z with
  | true =>
    simpa using closestDown_flat hi _ 0 none ha hle (hp.mem_iff.2 hr) rfl
  | false =>
    rw [if_neg (by simp), flat_reverse, flat_length, ← List.length_reverse]
    have := closestUp_flat hi (isort (fun a b : Range => decide (a.1 ≤ b.1)) rs).reverse none
      (List.pairwise_reverse.2 ha) (fun q hq => hle q (List.mem_reverse.1 hq))
      (List.mem_reverse.2 (hp.mem_iff.2 hr))
    simpa using this

theorem inside_some {rs : Ranges} {i : Int} {r : Range} (h : inside rs i = some r) :
    r ∈ rs ∧ r.1 ≤ i ∧ i ≤ r.2 := by
  unfold inside at h
  have h1 := List.mem_of_find?_eq_some h
  have h2 := List.find?_some h
  simp at h2
  exact ⟨h1, h2⟩

theorem inside_none {rs : Ranges} {i : Int} (h : inside rs i = none) :
    ∀ r ∈ rs, ¬ (r.1 ≤ i ∧ i ≤ r.2) := by
  unfold inside at h
  rw [List.find?_eq_none] at h
  intro r hr
  simpa using h r hr

theorem inside_isSome_iff {rs : Ranges} {i : Int} : (inside rs i).isSome ↔ Covers rs i := by
  constructor
  · intro h
    obtain ⟨r, hr⟩ := Option.isSome_iff_exists.1 h
    exact ⟨r, inside_some hr⟩
  · rintro ⟨r, hr, h⟩
    cases hi : inside rs i with
    | none => exact absurd h (inside_none hi r hr)
    | some _ => rfl

theorem inside_isSome_false {rs : Ranges} {i : Int} : (inside rs i).isSome = false ↔ ¬ Covers rs i := by
  rw [← inside_isSome_iff]; simp

theorem inRange_iff {rs : Ranges} {i : Int} : inRange rs i = true ↔ Covers rs i := by
  unfold inRange Covers
  simp

/-- What the jumped-over loop contributes. -/
theorem jump_map {rs : Ranges} {a b : Int} (hle : ∀ r ∈ rs, r.1 ≤ r.2) :
    jumpPairs (jumpedOverRanges rs a b) a b =
      (rs.filter fun r => decide (between a b r)).map (clip a b) := by
  unfold jumpPairs jumpedOverRanges
  have hf : (rs.filter fun r => decide (r.1 > (if a < b then a else b)) && decide (r.1 < (if a < b then b else a)) &&
      decide (r.2 > (if a < b then a else b)) && decide (r.2 < (if a < b then b else a))) =
      rs.filter fun r => decide (between a b r) := by
    apply List.filter_congr
    intro r hr
    have := hle r hr
    rw [Bool.eq_iff_iff]
    simp only [Bool.and_eq_true, decide_eq_true_eq]
    unfold between
    split <;> omega
  simp only [hf]
  apply List.map_congr_left
  intro r hr
  have h1 := hle r (List.mem_filter.1 hr).1
  have h2 := (List.mem_filter.1 hr).2
  simp only [decide_eq_true_eq] at h2
  unfold between at h2
  simp only [clip]
  by_cases hab : a ≤ b
  · rw [if_neg (by omega), if_pos hab, Prod.mk.injEq]; omega
  · rw [if_pos (by omega), if_neg hab, Prod.mk.injEq]; omega

theorem perm_of_same_mem {l₁ l₂ : Ranges} (h1 : l₁.Nodup) (h2 : l₂.Nodup) (h : ∀ r, r ∈ l₁ ↔ r ∈ l₂) :
    l₁.Perm l₂ := (List.perm_ext_iff_of_nodup h1 h2).2 h

/-- The move indexes of a valid window: one move per range met by the move,
clipped to that range, listed with the ranges of the two ends first. -/
theorem move_ranges {rs : Ranges} (hv : valid rs = true) (a b : Int) :
    ∃ L : Ranges, calculateMoveIndexes rs a b = some (L.map (clip a b)) ∧
      L.Perm (rs.filter fun r => decide (touches a b r)) ∧
      (∀ r, inside rs b = some r → ∃ L1 L2, L = L1 ++ r :: L2 ∧ ∀ q ∈ L2, between a b q) := by
  have hle : ∀ r ∈ rs, r.1 ≤ r.2 := fun r hr => (valid_le hv r hr).2
  have hnd := valid_nodup hv
  have hndf : (rs.filter fun r => decide (touches a b r)).Nodup := hnd.filter _
  have hndj : (rs.filter fun r => decide (between a b r)).Nodup := hnd.filter _
  unfold calculateMoveIndexes
  simp only [jump_map hle]
  cases hA : inside rs a with
  | none =>
    have nA := inside_none hA
    cases hB : inside rs b with
    | none =>
      have nB := inside_none hB
      refine ⟨rs.filter fun r => decide (between a b r), by simp, ?_, by simp⟩
      have : (rs.filter fun r => decide (between a b r)) =
        rs.filter fun r => decide (touches a b r) := by
        apply List.filter_congr
        intro r hr
        have h1 := nA r hr
        have h2 := nB r hr
        have h3 := hle r hr
        simp only [decide_eq_decide]
        unfold touches between
        omega
      rw [this]
    | some q =>
      obtain ⟨mB, iB⟩ := inside_some hB
      have cB := closest_valid hv mB iB
      refine ⟨q :: rs.filter fun r => decide (between a b r), ?_, ?_, ?_⟩
      · have nA := nA q mB
        simp [cB]
        simp only [clip]
        split <;> rename_i hab
        · rw [if_pos (by omega), Prod.mk.injEq]; omega
        · rw [if_neg (by omega), Prod.mk.injEq]; omega
      · apply perm_of_same_mem _ hndf
        · intro r
          simp only [List.mem_cons, List.mem_filter, decide_eq_true_eq]
          unfold touches between
          constructor
          · rintro (rfl | ⟨hr, h⟩)
            · refine ⟨mB, ?_⟩; omega
            · have := hle r hr
              refine ⟨hr, ?_⟩; omega
          · rintro ⟨hr, h⟩
            by_cases hb : r.1 ≤ b ∧ b ≤ r.2
            · exact Or.inl (valid_unique hv hr mB hb iB)
            · have h1 := nA r hr
              have h2 := hle r hr
              right; refine ⟨hr, ?_⟩; omega
        · rw [List.nodup_cons]
          refine ⟨?_, hndj⟩
          simp only [List.mem_filter, decide_eq_true_eq, between.eq_1]
          rintro ⟨_, h⟩; omega
      · intro r hr
        cases hr
        refine ⟨[], _, rfl, ?_⟩
        intro r hr
        simpa using (List.mem_filter.1 hr).2
  | some p =>
    obtain ⟨mA, iA⟩ := inside_some hA
    have cA := closest_valid hv mA iA
    cases hB : inside rs b with
    | none =>
      have nB := inside_none hB
      refine ⟨p :: rs.filter fun r => decide (between a b r), ?_, ?_, by simp⟩
      · have nB := nB p mA
        simp [cA]
        simp only [clip]
        split <;> rename_i hab
        · rw [if_neg (by omega), Prod.mk.injEq]; omega
        · rw [if_pos (by omega), Prod.mk.injEq]; omega
      · apply perm_of_same_mem _ hndf
        · intro r
          simp only [List.mem_cons, List.mem_filter, decide_eq_true_eq]
          unfold touches between
          constructor
          · rintro (rfl | ⟨hr, h⟩)
            · refine ⟨mA, ?_⟩; omega
            · have := hle r hr
              refine ⟨hr, ?_⟩; omega
          · rintro ⟨hr, h⟩
            by_cases hb : r.1 ≤ a ∧ a ≤ r.2
            · exact Or.inl (valid_unique hv hr mA hb iA)
            · have h1 := nB r hr
              have h2 := hle r hr
              right; refine ⟨hr, ?_⟩; omega
        · rw [List.nodup_cons]
          refine ⟨?_, hndj⟩
          simp only [List.mem_filter, decide_eq_true_eq, between.eq_1]
          rintro ⟨_, h⟩; omega
    | some q =>
      obtain ⟨mB, iB⟩ := inside_some hB
      have cB := closest_valid hv mB iB
      by_cases hpq : p = q
      · subst hpq
        refine ⟨[p], ?_, ?_, ?_⟩
        · simp [clip]
          split
          · rw [Prod.mk.injEq]; omega
          · rw [Prod.mk.injEq]; omega
        · apply perm_of_same_mem (by simp) hndf
          intro r
          simp only [List.mem_singleton, List.mem_filter, decide_eq_true_eq]
          unfold touches
          constructor
          · rintro rfl; refine ⟨mA, ?_⟩; omega
          · rintro ⟨hr, h⟩
            have := hle r hr
            by_cases h1 : p.1 ≤ r.1
            · exact valid_unique hv hr mA (y := r.1) (by omega) (by omega)
            · exact valid_unique hv hr mA (y := p.1) (by omega) (by omega)
        · intro r hr
          cases hr
          exact ⟨[], [], rfl, by simp⟩
      · have nab : ¬ (p.1 ≤ b ∧ b ≤ p.2) := fun h => hpq (valid_unique hv mA mB h iB)
        have nba : ¬ (q.1 ≤ a ∧ a ≤ q.2) := fun h => hpq (valid_unique hv mA mB iA h)
        refine ⟨p :: q :: rs.filter fun r => decide (between a b r), ?_, ?_, ?_⟩
        · simp [cA, cB, hpq]
          simp only [clip]
          constructor
          · split <;> rename_i hab
            · rw [if_neg (by omega), Prod.mk.injEq]; omega
            · rw [if_pos (by omega), Prod.mk.injEq]; omega
          · split <;> rename_i hab
            · rw [if_pos (by omega), Prod.mk.injEq]; omega
            · rw [if_neg (by omega), Prod.mk.injEq]; omega
        · apply perm_of_same_mem _ hndf
          · intro r
            simp only [List.mem_cons, List.mem_filter, decide_eq_true_eq]
            unfold touches between
            constructor
            · rintro (rfl | rfl | ⟨hr, h⟩)
              · refine ⟨mA, ?_⟩; omega
              · refine ⟨mB, ?_⟩; omega
              · have := hle r hr
                refine ⟨hr, ?_⟩; omega
            · rintro ⟨hr, h⟩
              by_cases ha : r.1 ≤ a ∧ a ≤ r.2
              · exact Or.inl (valid_unique hv hr mA ha iA)
              by_cases hb : r.1 ≤ b ∧ b ≤ r.2
              · exact Or.inr (Or.inl (valid_unique hv hr mB hb iB))
              have h2 := hle r hr
              right; right; refine ⟨hr, ?_⟩; omega
          · rw [List.nodup_cons, List.nodup_cons]
            refine ⟨?_, ?_, hndj⟩
            · simp only [List.mem_cons, List.mem_filter, decide_eq_true_eq, between.eq_1]
              rintro (h | ⟨_, h⟩)
              · exact hpq h
              · omega
            · simp only [List.mem_filter, decide_eq_true_eq, between.eq_1]
              rintro ⟨_, h⟩; omega
        · intro r hr
          cases hr
          refine ⟨[p], _, rfl, ?_⟩
          intro r hr
          simpa using (List.mem_filter.1 hr).2

end Verif.ListOps
