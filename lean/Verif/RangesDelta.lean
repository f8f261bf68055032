import Verif.RangesSweep
/-! From the sweep invariant to a statement about ranges. -/
namespace Verif.Ranges

/-- Number of closing points of kind `k` at positions `≤ y`. -/
def nCle (P : List Pt) (k : Bool) (y : Int) : Nat :=
  P.countP fun p => !p.op && p.old == k && decide (p.x ≤ y)

/-- Properties of a sorted list of points coming from well-formed ranges. -/
structure GoodPts (L : List Pt) : Prop where
  sorted : L.Pairwise fun a b => a.le b = true
  covLe : ∀ k y, cov L k y ≤ 1
  cleLe : ∀ k y, nCle L k y ≤ nOpen L k y
  total : ∀ k, nO L k = nC L k

theorem countP_zero_of {α} {p : α → Bool} {l : List α} (h : ∀ a ∈ l, p a = false) :
    l.countP p = 0 := by
  rw [List.countP_eq_zero]; intro a ha; simp [h a ha]

theorem good_adm {L : List Pt} (hL : GoodPts L) {P S : List Pt} {p : Pt}
    (e : L = P ++ p :: S) :
    (nO P p.old : Int) - nC P p.old = if p.op then 0 else 1 := by
  have hs := hL.sorted
  rw [e, List.pairwise_append, List.pairwise_cons] at hs
  obtain ⟨_, ⟨hpS, _⟩, hPp⟩ := hs
  have hP : ∀ q ∈ P, q.le p = true := fun q hq => hPp q hq p (by simp)
  have c1 := hL.covLe p.old p.x
  have c2 := hL.cleLe p.old (p.x - 1)
  have c3 := hL.cleLe p.old p.x
  have mono : ∀ (f g : Pt → Bool) (l : List Pt), (∀ q ∈ l, f q = true → g q = true) →
      l.countP f ≤ l.countP g := fun f g l h => List.countP_mono_left h
  unfold cov at c1
  have e1 : nOpen L p.old p.x = nOpen P p.old p.x + nOpen [p] p.old p.x + nOpen S p.old p.x := by
    rw [e, show P ++ p :: S = P ++ ([p] ++ S) by simp, nOpen_append, nOpen_append]; omega
  have e2 : nClose L p.old p.x = nClose P p.old p.x + nClose [p] p.old p.x + nClose S p.old p.x := by
    rw [e, show P ++ p :: S = P ++ ([p] ++ S) by simp, nClose_append, nClose_append]; omega
  have e3 : nOpen L p.old (p.x-1) = nOpen P p.old (p.x-1) + nOpen [p] p.old (p.x-1)
      + nOpen S p.old (p.x-1) := by
    rw [e, show P ++ p :: S = P ++ ([p] ++ S) by simp, nOpen_append, nOpen_append]; omega
  have e4 : nCle L p.old (p.x-1) = nCle P p.old (p.x-1) + nCle [p] p.old (p.x-1)
      + nCle S p.old (p.x-1) := by
    rw [e, show P ++ p :: S = P ++ ([p] ++ S) by simp]; simp only [nCle, List.countP_append]; omega
  have e5 : nCle L p.old p.x = nCle P p.old p.x + nCle [p] p.old p.x
      + nCle S p.old p.x := by
    rw [e, show P ++ p :: S = P ++ ([p] ++ S) by simp]; simp only [nCle, List.countP_append]; omega
  -- P: everything is at or before p
  have hPx : ∀ q ∈ P, q.x ≤ p.x := by
    intro q hq; have := Pt.le_x (hP q hq); omega
  have f1 : nOpen P p.old p.x = nO P p.old := nOpen_eq_nO hPx (Int.le_refl _) _
  have f2 : nCle P p.old p.x = nC P p.old := by
    apply List.countP_congr; intro q hq; simp [hPx q hq]
  have f3 : nClose P p.old p.x ≤ nC P p.old :=
    mono _ _ _ (fun q _ h => by simp only [Bool.and_eq_true] at h ⊢; exact h.1)
  have f4 : nOpen P p.old (p.x - 1) ≤ nO P p.old :=
    mono _ _ _ (fun q _ h => by simp only [Bool.and_eq_true] at h ⊢; exact h.1)
  have g1 : nClose S p.old p.x = 0 := by
    apply countP_zero_of; intro q hq
    have := Pt.le_x (hpS q hq)
    have h2 : ¬ (q.x < p.x) := by omega
    simp [h2]
  have g2 : nOpen S p.old (p.x - 1) = 0 := by
    apply countP_zero_of; intro q hq
    have := Pt.le_x (hpS q hq)
    have h2 : ¬ (q.x ≤ p.x - 1) := by omega
    simp [h2]
  rw [nOpen_single] at e1 e3
  rw [nClose_single] at e2
  cases hop : p.op
  · -- close
    have g3 : nOpen S p.old p.x = 0 := by
      apply countP_zero_of; intro q hq
      have h1 := Pt.le_x (hpS q hq)
      cases hq2 : q.op
      · simp
      · have h2 : ¬ (q.x ≤ p.x) := by
          rcases h1 with h1 | ⟨_, h1 | h1⟩
          · omega
          · rw [hop] at h1; cases h1
          · rw [hq2] at h1; cases h1
        simp [h2]
    have g4 : nCle [p] p.old p.x = 1 := by simp [nCle, hop]
    simp [hop] at e1 e2 e3 ⊢
    omega
  · have g5 : nClose P p.old p.x = nC P p.old := by
      apply List.countP_congr; intro q hq
      cases hq2 : q.op
      · have h1 := Pt.le_x (hP q hq)
        have h2 : q.x < p.x := by
          rcases h1 with h1 | ⟨_, h1 | h1⟩
          · omega
          · rw [hq2] at h1; cases h1
          · rw [hop] at h1; cases h1
        simp [h2]
      · simp
    have g6 : nCle P p.old (p.x - 1) = nC P p.old := by
      rw [← g5]
      apply List.countP_congr; intro q hq
      have : (q.x ≤ p.x - 1) ↔ (q.x < p.x) := by omega
      simp [this]
    have hn1 : ¬ (p.x ≤ p.x - 1) := by omega
    simp [hop, hn1] at e1 e2 e3 ⊢
    omega

theorem sweep_all {L : List Pt} (hL : GoodPts L) : ∀ (S P : List Pt) (l : Pt) (s : Sweep),
    L = P ++ S → Inv P l s → ∃ s' l', S.foldlM sweepStep s = some s' ∧ Inv L l' s' := by
  intro S
  induction S with
  | nil =>
    intro P l s e h
    refine ⟨s, l, rfl, ?_⟩
    rw [e, List.append_nil]; exact h
  | cons p S ih =>
    intro P l s e h
    have hs := hL.sorted
    rw [e, List.pairwise_append] at hs
    obtain ⟨s1, h1, h2⟩ := sweep_step_inv h (fun q hq => hs.2.2 q hq p (by simp)) (good_adm hL e)
    obtain ⟨s', l', h3, h4⟩ := ih (P ++ [p]) p s1 (by rw [e]; simp) h2
    refine ⟨s', l', ?_, h4⟩
    rw [List.foldlM_cons, h1]; exact h3

theorem sweep_good {L : List Pt} (hL : GoodPts L) :
    ∃ s, L.foldlM sweepStep {} = some s ∧ ∀ y, Classified L s y := by
  cases hLe : L with
  | nil =>
    refine ⟨{}, rfl, fun y => ?_⟩
    simp [Classified, covers_nil, cov, nOpen, nClose]
  | cons p S =>
    have ha := good_adm hL (P := []) (p := p) (S := S) (by simpa using hLe)
    have hop : p.op = true := by
      cases hh : p.op
      · rw [hh] at ha; simp [nO, nC] at ha
      · rfl
    have h0 : ∃ s0, sweepStep {} p = some s0 ∧ Inv [p] p s0 := by
      rcases p with ⟨x, o, op⟩
      simp only at hop; subst hop
      have hrefl : ∀ q ∈ [(⟨x, o, true⟩ : Pt)], q.le ⟨x, o, true⟩ = true := by
        intro q hq; simp only [List.mem_singleton] at hq; subst hq; cases o <;> simp [Pt.le]
      cases o
      · refine ⟨_, rfl, ⟨by simp, hrefl, rfl, by simp [nO, nC], by simp [nO, nC], by simp,
          by simp, by simp, ?_, ?_⟩⟩
        · intro y hy
          simp only [Done, Bool.true_eq_false, and_false, or_false] at hy
          have hy2 : ¬ (x ≤ y) := by omega
          simp [Classified, covers_nil, cov, nOpen, nClose, hy2]
        · intro y hy; simp [Uncovered, covers_nil]
      · refine ⟨_, rfl, ⟨by simp, hrefl, rfl, by simp [nO, nC], by simp [nO, nC], by simp,
          by simp, by simp, ?_, ?_⟩⟩
        · intro y hy
          simp only [Done, Bool.true_eq_false, and_false, or_false] at hy
          have hy2 : ¬ (x ≤ y) := by omega
          simp [Classified, covers_nil, cov, nOpen, nClose, hy2]
        · intro y hy; simp [Uncovered, covers_nil]
    obtain ⟨s0, h1, h2⟩ := h0
    obtain ⟨s', l', h3, h4⟩ := sweep_all hL S [p] p s0 (by simpa using hLe) h2
    refine ⟨s', ?_, ?_⟩
    · rw [List.foldlM_cons, h1]; exact h3
    · rw [← hLe]
      intro y
      by_cases hy : Done l' y
      · exact h4.done y hy
      · have hu := h4.notDone y hy
        have ct := cov_of_notDone h4.sorted hy true
        have cf := cov_of_notDone h4.sorted hy false
        have tt := hL.total true
        have tf := hL.total false
        unfold Uncovered at hu
        unfold Classified
        simp [hu]
        omega

/-- Number of ranges containing `y`. -/
def cnt (r : Ranges) (y : Int) : Nat := r.countP fun a => decide (a.1 ≤ y) && decide (y ≤ a.2)

theorem cnt_pos (r : Ranges) (y : Int) : 0 < cnt r y ↔ Covers r y := by
  unfold cnt Covers
  rw [List.countP_pos_iff]
  simp

theorem pts_counts (k : Bool) (r : Ranges) (hr : ∀ a ∈ r, a.1 ≤ a.2) :
    (∀ k', k' ≠ k → ∀ y, nOpen (pts k r) k' y = 0 ∧ nClose (pts k r) k' y = 0 ∧
      nCle (pts k r) k' y = 0 ∧ nO (pts k r) k' = 0 ∧ nC (pts k r) k' = 0) ∧
    (∀ y, cov (pts k r) k y = cnt r y ∧ nCle (pts k r) k y ≤ nOpen (pts k r) k y ∧
      nO (pts k r) k = nC (pts k r) k) := by
  induction r with
  | nil => simp [pts, nOpen, nClose, nCle, nO, nC, cov, cnt]
  | cons a r ih =>
    have ha := hr a (by simp)
    obtain ⟨i1, i2⟩ := ih (fun b hb => hr b (by simp [hb]))
    have hp : pts k (a :: r) = ⟨a.1, k, true⟩ :: ⟨a.2, k, false⟩ :: pts k r := by
      simp [pts]
    rw [hp]
    constructor
    · intro k' hk' y
      have := i1 k' hk' y
      have hk : ¬ (k = k') := fun e => hk' e.symm
      simp only [nOpen, nClose, nCle, nO, nC] at this
      simp [nOpen, nClose, nCle, nO, nC, hk, this]
    · intro y
      have := i2 y
      simp only [cov, nOpen, nClose, nCle, nO, nC, cnt] at this
      simp only [cov, nOpen, nClose, nCle, nO, nC, cnt, List.countP_cons]
      simp
      refine ⟨?_, ?_, ?_⟩
      · by_cases h1 : a.1 ≤ y <;> by_cases h2 : y ≤ a.2 <;> by_cases h3 : a.2 < y <;>
          simp [h1, h2, h3] <;> omega
      · by_cases h1 : a.1 ≤ y <;> by_cases h2 : a.2 ≤ y <;>
          simp [h1, h2] <;> omega
      · omega

theorem cnt_le_one {r : Ranges} (hv : valid r = true) (y : Int) : cnt r y ≤ 1 := by
  induction r with
  | nil => simp [cnt]
  | cons a r ih =>
    simp only [valid] at hv
    split at hv; · cases hv
    split at hv; · cases hv
    split at hv; · cases hv
    rename_i h1 h2 h3
    have ih := ih hv
    unfold cnt at ih ⊢
    rw [List.countP_cons]
    by_cases hc : a.1 ≤ y ∧ y ≤ a.2
    · have : List.countP (fun a => decide (a.1 ≤ y) && decide (y ≤ a.2)) r = 0 := by
        rw [List.countP_eq_zero]
        intro b hb hby
        apply h3
        rw [List.any_eq_true]
        refine ⟨b, hb, ?_⟩
        simp only [Bool.and_eq_true, decide_eq_true_eq] at hby
        simp only [clash, Bool.or_eq_true, Bool.and_eq_true, decide_eq_true_eq]
        omega
      rw [this]; simp [hc]
    · have : (decide (a.1 ≤ y) && decide (y ≤ a.2)) = false := by
        simp only [Bool.and_eq_false_iff, decide_eq_false_iff_not]; omega
      simp only [this]; simpa using ih

theorem valid_le {r : Ranges} (hv : valid r = true) : ∀ a ∈ r, 0 ≤ a.1 ∧ a.1 ≤ a.2 := by
  induction r with
  | nil => simp
  | cons a r ih =>
    simp only [valid] at hv
    split at hv; · cases hv
    split at hv; · cases hv
    split at hv; · cases hv
    intro b hb
    rcases List.mem_cons.1 hb with rfl | hb
    · omega
    · exact ih hv b hb

/-- In valid ranges, two ranges sharing an index are equal. -/
theorem valid_unique {r : Ranges} (hv : valid r = true) {a b : Range} {y : Int}
    (ha : a ∈ r) (hb : b ∈ r) (hay : a.1 ≤ y ∧ y ≤ a.2) (hby : b.1 ≤ y ∧ y ≤ b.2) : a = b := by
  induction r with
  | nil => cases ha
  | cons c r ih =>
    have hle := valid_le hv
    simp only [valid] at hv
    split at hv; · cases hv
    split at hv; · cases hv
    split at hv; · cases hv
    rename_i h1 h2 h3
    have hno : ∀ d ∈ r, (d.1 ≤ y ∧ y ≤ d.2) → (c.1 ≤ y ∧ y ≤ c.2) → False := by
      intro d hd hdy hcy
      apply h3
      rw [List.any_eq_true]
      refine ⟨d, hd, ?_⟩
      simp only [clash, Bool.or_eq_true, Bool.and_eq_true, decide_eq_true_eq]
      omega
    rcases List.mem_cons.1 ha with rfl | ha' <;> rcases List.mem_cons.1 hb with rfl | hb'
    · rfl
    · exact (hno b hb' hby hay).elim
    · exact (hno a ha' hay hby).elim
    · exact ih hv ha' hb'

theorem mem_pts {k : Bool} {r : Ranges} {p : Pt} :
    p ∈ pts k r ↔ p.old = k ∧ ∃ a ∈ r, p.x = if p.op then a.1 else a.2 := by
  rcases p with ⟨x, o, op⟩
  simp only [pts, List.mem_flatMap, List.mem_cons, List.not_mem_nil, or_false, Pt.mk.injEq]
  constructor
  · rintro ⟨a, ha, h | h⟩
    · exact ⟨h.2.1, a, ha, by simp [h]⟩
    · exact ⟨h.2.1, a, ha, by simp [h]⟩
  · rintro ⟨rfl, a, ha, h⟩
    refine ⟨a, ha, ?_⟩
    cases op <;> simp_all

/-- The outputs of the sweep on two valid lists of ranges. -/
theorem sweep_valid {r next : Ranges} (hr : valid r = true) (hn : valid next = true) :
    ∃ s, (Util.isort Pt.le (pts true r ++ pts false next)).foldlM sweepStep {} = some s ∧
    ∀ y, (Covers s.same y ↔ Covers r y ∧ Covers next y) ∧
      (Covers s.added y ↔ Covers next y ∧ ¬ Covers r y ∧ (y, y) ∉ next) ∧
      (Covers s.removed y ↔ Covers r y ∧ ¬ Covers next y ∧ (y, y) ∉ r) := by
  have hperm := Util.isort_perm Pt.le (pts true r ++ pts false next)
  generalize hL : Util.isort Pt.le (pts true r ++ pts false next) = L at hperm
  have c : ∀ f : Pt → Bool, L.countP f = (pts true r).countP f + (pts false next).countP f := by
    intro f; rw [hperm.countP_eq, List.countP_append]
  obtain ⟨r1, r2⟩ := pts_counts true r (fun a ha => (valid_le hr a ha).2)
  obtain ⟨n1, n2⟩ := pts_counts false next (fun a ha => (valid_le hn a ha).2)
  have covT : ∀ y, cov L true y = cnt r y := by
    intro y
    have a := n1 true (by simp) y
    have b := r2 y
    simp only [cov, nOpen, nClose] at a b ⊢
    rw [c, c]; omega
  have covF : ∀ y, cov L false y = cnt next y := by
    intro y
    have a := r1 false (by simp) y
    have b := n2 y
    simp only [cov, nOpen, nClose] at a b ⊢
    rw [c, c]; omega
  have good : GoodPts L := by
    refine ⟨?_, ?_, ?_, ?_⟩
    · rw [← hL]; exact Util.isort_pairwise Pt.le_trans Pt.le_total _
    · intro k y
      cases k
      · rw [covF]; have := cnt_le_one hn y; omega
      · rw [covT]; have := cnt_le_one hr y; omega
    · intro k y
      simp only [nCle, nOpen]; rw [c, c]
      cases k
      · have a := r1 false (by simp) y; have b := n2 y
        simp only [nCle, nOpen] at a b; omega
      · have a := n1 true (by simp) y; have b := r2 y
        simp only [nCle, nOpen] at a b; omega
    · intro k
      simp only [nO, nC]; rw [c, c]
      cases k
      · have a := r1 false (by simp) 0; have b := n2 0
        simp only [nO, nC] at a b; omega
      · have a := n1 true (by simp) 0; have b := r2 0
        simp only [nO, nC] at a b; omega
  obtain ⟨s, hs, hc⟩ := sweep_good good
  refine ⟨s, hs, fun y => ?_⟩
  have hcy := hc y
  unfold Classified at hcy
  rw [covT, covF] at hcy
  have single : ∀ k, Single L k y ↔ (y, y) ∈ (if k then r else next) := by
    intro k
    unfold Single
    rw [hperm.mem_iff, hperm.mem_iff, List.mem_append, List.mem_append, mem_pts, mem_pts,
      mem_pts, mem_pts]
    have gen : ∀ q : Ranges, valid q = true →
        (((∃ a ∈ q, y = a.1) ∧ ∃ a ∈ q, y = a.2) ↔ (y, y) ∈ q) := by
      intro q hq
      constructor
      · rintro ⟨⟨a, ha, h1⟩, b, hb, h2⟩
        have va := valid_le hq a ha
        have vb := valid_le hq b hb
        have : a = b := valid_unique hq (y := y) ha hb (by omega) (by omega)
        subst this
        have : (y, y) = a := by rcases a with ⟨u, v⟩; simp_all
        rw [this]; exact ha
      · intro h; exact ⟨⟨_, h, rfl⟩, _, h, rfl⟩
    cases k
    · simpa using gen next hn
    · simpa using gen r hr
  rw [single, single] at hcy
  have p1 := cnt_pos r y; have p2 := cnt_pos next y
  have q1 := cnt_le_one hr y; have q2 := cnt_le_one hn y
  obtain ⟨h1, h2, h3⟩ := hcy
  have z1 : ((cnt r y : Int) = 1 ↔ Covers r y) := by rw [← p1]; omega
  have z2 : ((cnt next y : Int) = 1 ↔ Covers next y) := by rw [← p2]; omega
  have z3 : ((cnt r y : Int) = 0 ↔ ¬ Covers r y) := by rw [← p1]; omega
  have z4 : ((cnt next y : Int) = 0 ↔ ¬ Covers next y) := by rw [← p2]; omega
  rw [z1, z2] at h1; rw [z2, z3] at h2; rw [z1, z4] at h3
  simp only [if_true, Bool.false_eq_true, if_false] at h2 h3
  exact ⟨h1, h2, h3⟩

end Verif.Ranges
