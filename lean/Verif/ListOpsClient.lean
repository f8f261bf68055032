import Verif.ListOpsLemmas
/-! Lemmas about the replaying client of `Verif.ListOps`. -/
namespace Verif.ListOps
open Verif.Ranges

variable {α : Type _} [DecidableEq α]

theorem lookup_filter (m : CMap α) (i j : Int) :
    (m.filter fun p => p.1 ≠ i).lookup j = if j = i then none else m.lookup j := by
  induction m with
  | nil => simp
  | cons p m ih =>
    rw [List.filter_cons]
    by_cases hp : p.1 = i
    · simp only [hp, ne_eq, not_true_eq_false, decide_false, Bool.false_eq_true, if_false]
      simp only [ne_eq] at ih
      rw [ih]
      split
      · rfl
      · rename_i h
        rw [List.lookup_cons]
        have : (j == p.1) = false := by simp; omega
        rw [this]
    · simp only [hp, ne_eq, not_false_eq_true, decide_true, if_true]
      rw [List.lookup_cons, List.lookup_cons]
      simp only [ne_eq] at ih
      rw [ih]
      by_cases hj : j = p.1
      · have : ¬ j = i := by omega
        simp [hj, hp]
      · have : (j == p.1) = false := by simp; omega
        rw [this]

theorem get_set (m : CMap α) (i j : Int) (v : Option α) :
    (m.set i v).get j = if j = i then v else m.get j := by
  unfold CMap.get CMap.set
  rw [List.lookup_cons, lookup_filter]
  by_cases h : j = i
  · simp [h]
  · have : (j == i) = false := by simpa using h
    rw [this]
    simp [h]

theorem get_del (m : CMap α) (i j : Int) :
    (m.del i).get j = if j = i then none else m.get j := by
  unfold CMap.get CMap.del
  rw [lookup_filter]
  split <;> simp

theorem maxKey_foldl (m : CMap α) (a : Int) :
    a ≤ m.foldl (fun a p => if p.1 > a then p.1 else a) a ∧
    ∀ p ∈ m, p.1 ≤ m.foldl (fun a p => if p.1 > a then p.1 else a) a := by
  induction m generalizing a with
  | nil => simp
  | cons q m ih =>
    have := ih (if q.1 > a then q.1 else a)
    simp only [List.foldl_cons]
    obtain ⟨h1, h2⟩ := this
    refine ⟨?_, ?_⟩
    · refine Int.le_trans ?_ h1; split <;> omega
    · intro p hp
      rcases List.mem_cons.1 hp with rfl | hp
      · refine Int.le_trans ?_ h1; split <;> omega
      · exact h2 p hp

theorem get_gt_max (m : CMap α) (j : Int) (h : maxKey m < j) : m.get j = none := by
  unfold CMap.get
  cases hl : m.lookup j with
  | none => rfl
  | some v =>
    exfalso
    have : ∃ p ∈ m, p.1 = j := by
      clear h
      induction m with
      | nil => simp at hl
      | cons p m ih =>
        rw [List.lookup_cons] at hl
        by_cases hj : j = p.1
        · exact ⟨p, by simp, hj.symm⟩
        · have : (j == p.1) = false := by simpa using hj
          rw [this] at hl
          obtain ⟨q, hq, h⟩ := ih hl
          exact ⟨q, by simp [hq], h⟩
    obtain ⟨p, hp, hpj⟩ := this
    have := (maxKey_foldl m (-1)).2 p hp
    unfold maxKey at h
    omega

theorem get_shiftLeft (rs : Ranges) (n : Nat) : ∀ (low : Int) (m : CMap α) (i : Int),
    (shiftLeft rs low n m).get i =
      if low ≤ i ∧ i < low + n ∧ inRange rs i = true then m.get (i + 1) else m.get i := by
  induction n with
  | zero => intro low m i; simp [shiftLeft]; omega
  | succ n ih =>
    intro low m i
    simp only [shiftLeft]
    rw [ih]
    by_cases hi : i = low
    · subst hi
      by_cases hr : inRange rs i = true
      · rw [if_neg (by omega), if_pos hr, get_set, if_pos rfl, if_pos ⟨by omega, by omega, hr⟩]
      · rw [if_neg (by omega), if_neg hr, if_neg (by simp [hr])]
    · have hb : ∀ j, j ≠ low → CMap.get (if inRange rs low = true then m.set low (m.get (low + 1)) else m) j = m.get j := by
        intro j hj
        split
        · rw [get_set, if_neg hj]
        · rfl
      by_cases hc : low + 1 ≤ i ∧ i < low + 1 + n ∧ inRange rs i = true
      · rw [if_pos hc, hb _ (by omega), if_pos ⟨by omega, by omega, hc.2.2⟩]
      · rw [if_neg hc, hb _ hi, if_neg (fun h => hc ⟨by omega, by omega, h.2.2⟩)]

theorem get_shiftRight (rs : Ranges) (n : Nat) : ∀ (low : Int) (m : CMap α) (i : Int),
    (shiftRight rs low n m).get i =
      if low < i ∧ i ≤ low + n ∧ inRange rs i = true then m.get (i - 1) else m.get i := by
  induction n with
  | zero => intro low m i; simp [shiftRight]; omega
  | succ n ih =>
    intro low m i
    simp only [shiftRight]
    rw [ih]
    have hb : ∀ j, j ≠ low + n + 1 → CMap.get (if inRange rs (low + n + 1) = true then
        m.set (low + n + 1) (m.get (low + n + 1 - 1)) else m) j = m.get j := by
      intro j hj
      split
      · rw [get_set, if_neg hj]
      · rfl
    by_cases hi : i = low + n + 1
    · subst hi
      rw [if_neg (by omega)]
      by_cases hr : inRange rs (low + n + 1) = true
      · rw [if_pos hr, if_pos ⟨by omega, by omega, hr⟩, get_set, if_pos rfl]
      · rw [if_neg hr, if_neg (by simp [hr])]
    · by_cases hc : low < i ∧ i ≤ low + n ∧ inRange rs i = true
      · rw [if_pos hc, hb _ (by omega), if_pos ⟨by omega, by omega, hc.2.2⟩]
      · rw [if_neg hc, hb _ hi, if_neg (fun h => hc ⟨by omega, by omega, h.2.2⟩)]

theorem get_removeEntry (rs : Ranges) (m : CMap α) {g i : Int} (hg : 0 ≤ g) (hi : Covers rs i) :
    (removeEntry rs m g).get i = if i < g then m.get i else m.get (i + 1) := by
  unfold removeEntry
  have hr := inRange_iff.2 hi
  simp only
  split
  · rename_i h
    split
    · rfl
    · rw [get_gt_max m i (by omega), get_gt_max m (i + 1) (by omega)]
  · rename_i h
    rw [get_del, get_shiftLeft]
    by_cases h1 : i = maxKey m
    · rw [if_pos h1, if_neg (by omega), get_gt_max m (i + 1) (by omega)]
    · rw [if_neg h1]
      by_cases h2 : i < g
      · rw [if_pos h2, if_neg (by omega)]
      · rw [if_neg h2]
        by_cases h3 : i < maxKey m
        · rw [if_pos ⟨by omega, by omega, hr⟩]
        · rw [if_neg (by omega), get_gt_max m i (by omega), get_gt_max m (i + 1) (by omega)]

/-- What the client would show at index `i` if the response ended now. -/
def Client.view (c : Client α) (i : Int) : Option α :=
  if c.gap = -1 then c.m.get i else if i < c.gap then c.m.get i else c.m.get (i + 1)

/-- The effect of `DELETE f; INSERT t v` inside one range. -/
theorem swap_view {rs : Ranges} {c : Client α} {f t : Int} {v : α}
    {r : Range} (hr : r ∈ rs) (hf : r.1 ≤ f ∧ f ≤ r.2) (ht : r.1 ≤ t ∧ t ≤ r.2) (h0 : 0 ≤ r.1)
    (hg : c.gap = -1 ∨ (0 ≤ c.gap ∧ f ≤ c.gap)) (hs : f ≠ t → (c.view t).isSome) :
    ∃ c', [Op.delete f, Op.insert t v].foldlM (clientOp rs) c = some c' ∧ c'.gap = -1 ∧
      ∀ i, Covers rs i → c'.view i =
        if i = t then some v
        else if f ≤ i ∧ i < t then c.view (i + 1)
        else if t < i ∧ i ≤ f then c.view (i - 1)
        else c.view i := by
  have hcov : ∀ i, r.1 ≤ i → i ≤ r.2 → Covers rs i := fun i h1 h2 => ⟨r, hr, h1, h2⟩
  -- after the DELETE
  obtain ⟨m1, hm1, hv1⟩ : ∃ m1, clientOp rs c (.delete f) = some ⟨m1, f⟩ ∧
      ∀ i, Covers rs i → i ≠ f → m1.get i = c.view i := by
    refine ⟨_, rfl, ?_⟩
    intro i hi hif
    split
    · rename_i hne
      have h1 : 0 ≤ c.gap ∧ f ≤ c.gap := by
        rcases hg with h | h
        · exact absurd h hne
        · exact h
      rw [get_removeEntry rs _ h1.1 hi, get_del, get_del]
      unfold Client.view
      rw [if_neg hne]
      split
      · rfl
      · rw [if_neg (by omega)]
    · rename_i hne
      have hne : c.gap = -1 := by simpa using hne
      rw [get_del, if_neg hif]
      unfold Client.view
      rw [if_pos hne]
  simp only [List.foldlM_cons, List.foldlM_nil, hm1, Option.bind_eq_bind, Option.bind_some]
  refine ⟨_, rfl, rfl, ?_⟩
  intro i hi
  unfold Client.view
  simp only [if_true]
  rw [get_set]
  by_cases hit : i = t
  · rw [if_pos hit, if_pos hit]
  rw [if_neg hit, if_neg hit]
  by_cases hft : f = t
  · subst hft
    have e : ∀ x y z : CMap α, (if (m1.get f).isSome = true then if f < 0 then x else if f > f then y else if f < f then z else m1 else m1) = m1 := by
      intro x y z
      rw [if_neg (by omega : ¬ f < 0), if_neg (by omega : ¬ f > f), if_neg (by omega : ¬ f < f)]
      split <;> rfl
    rw [e, hv1 i hi hit, if_neg (by omega), if_neg (by omega)]
    rfl
  · have hsome : (m1.get t).isSome = true := by
      rw [hv1 t (hcov t ht.1 ht.2) (by omega)]; exact hs hft
    rw [if_pos hsome, if_neg (by omega)]
    have hinr := inRange_iff.2 hi
    by_cases hlt : f > t
    · rw [if_pos hlt, get_shiftRight]
      rw [if_neg (by omega : ¬ (f ≤ i ∧ i < t))]
      by_cases h1 : t < i ∧ i ≤ f
      · rw [if_pos ⟨h1.1, by omega, hinr⟩, if_pos h1, hv1 _ (hcov _ (by omega) (by omega)) (by omega)]
        rfl
      · rw [if_neg (fun h => h1 ⟨h.1, by omega⟩), if_neg h1, hv1 i hi (by omega)]
        rfl
    · rw [if_neg hlt, if_pos (by omega), get_shiftLeft]
      by_cases h1 : f ≤ i ∧ i < t
      · rw [if_pos ⟨h1.1, by omega, hinr⟩, if_pos h1, hv1 _ (hcov _ (by omega) (by omega)) (by omega)]
        rfl
      · rw [if_neg (fun h => h1 ⟨h.1, by omega⟩), if_neg h1, if_neg (by omega), hv1 i hi (by omega)]
        rfl

/-- The effect of a lone `DELETE f`. -/
theorem delete_view {rs : Ranges} {c : Client α} {f : Int} (hg : c.gap = -1 ∨ (0 ≤ c.gap ∧ f ≤ c.gap)) (hf : 0 ≤ f) :
    ∃ c', clientOp rs c (.delete f) = some c' ∧ c'.gap = f ∧
      ∀ i, Covers rs i → (f ≤ i → Covers rs (i + 1)) → c'.view i = if i < f then c.view i else c.view (i + 1) := by
  refine ⟨_, rfl, rfl, ?_⟩
  intro i hi hi1
  unfold Client.view
  simp only
  rw [if_neg (by omega : ¬ f = -1)]
  rcases hg with hg | hg
  · simp only [hg, ne_eq, not_true_eq_false, if_false, if_true]
    rw [get_del, get_del]
    split
    · rw [if_neg (by omega)]
    · rw [if_neg (by omega)]
  · rw [if_pos (by omega : c.gap ≠ -1), if_neg (by omega : ¬ c.gap = -1)]
    split
    · rw [get_removeEntry rs _ hg.1 hi, if_pos (by omega), get_del, if_neg (by omega), if_pos (by omega)]
    · rw [get_removeEntry rs _ hg.1 (hi1 (by omega)), get_del, get_del, if_neg (by omega : ¬ i + 1 = f),
        if_neg (by omega : ¬ i + 1 + 1 = f), if_neg (by omega : ¬ c.gap = -1)]

/-- The end of a response. -/
def Client.finish (rs : Ranges) (c : Client α) : CMap α := if c.gap ≠ -1 then removeEntry rs c.m c.gap else c.m

theorem finish_view (rs : Ranges) {c : Client α} (hg : c.gap = -1 ∨ 0 ≤ c.gap) (i : Int) (hi : Covers rs i) :
    (c.finish rs).get i = c.view i := by
  unfold Client.finish Client.view
  rcases hg with hg | hg
  · simp [hg]
  · rw [if_pos (by omega), if_neg (by omega)]
    exact get_removeEntry rs _ hg hi

theorem replay_view {rs : Ranges} {m : CMap α} {ops : List (Op α)} {c : Client α}
    (h : ops.foldlM (clientOp rs) ⟨m, -1⟩ = some c) (hg : c.gap = -1 ∨ 0 ≤ c.gap) :
    ∃ m', clientReplay rs m ops = some m' ∧ ∀ i, Covers rs i → m'.get i = c.view i := by
  unfold clientReplay
  simp only [h, Option.bind_eq_bind, Option.bind_some]
  exact ⟨_, rfl, fun i hi => finish_view rs hg i hi⟩

end Verif.ListOps
