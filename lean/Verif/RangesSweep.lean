import Verif.RangesLemmas
/-! The invariant of the sweep line of `SliceRanges.Delta`. -/
namespace Verif.Ranges

/-- Index `x` is covered by one of the ranges. -/
def Covers (rs : Ranges) (x : Int) : Prop := ∃ r ∈ rs, r.1 ≤ x ∧ x ≤ r.2

theorem covers_nil (y : Int) : Covers [] y ↔ False := by simp [Covers]
theorem covers_snoc (rs : Ranges) (m : Range) (y : Int) :
    Covers (rs ++ [m]) y ↔ Covers rs y ∨ (m.1 ≤ y ∧ y ≤ m.2) := by
  simp only [Covers, List.mem_append, List.mem_singleton]
  constructor
  · rintro ⟨r, hr | rfl, h⟩
    · exact Or.inl ⟨r, hr, h⟩
    · exact Or.inr h
  · rintro (⟨r, hr, h⟩ | h)
    · exact ⟨r, Or.inl hr, h⟩
    · exact ⟨m, Or.inr rfl, h⟩

/-- Both an open and a close of kind `k` at `y` were seen. -/
def Single (P : List Pt) (k : Bool) (y : Int) : Prop := ⟨y, k, true⟩ ∈ P ∧ ⟨y, k, false⟩ ∈ P

/-- `y` has been fully classified when the last point seen is `l`. -/
def Done (l : Pt) (y : Int) : Prop := y < l.x ∨ (y = l.x ∧ l.op = false)

/-- Classification of `y` by the three outputs. -/
def Classified (P : List Pt) (s : Sweep) (y : Int) : Prop :=
  (Covers s.same y ↔ cov P true y = 1 ∧ cov P false y = 1) ∧
  (Covers s.added y ↔ cov P false y = 1 ∧ cov P true y = 0 ∧ ¬ Single P false y) ∧
  (Covers s.removed y ↔ cov P true y = 1 ∧ cov P false y = 0 ∧ ¬ Single P true y)

def Uncovered (s : Sweep) (y : Int) : Prop :=
  ¬ Covers s.same y ∧ ¬ Covers s.added y ∧ ¬ Covers s.removed y

/-- Invariant after a non-empty prefix `P` whose last point is `l`. -/
structure Inv (P : List Pt) (l : Pt) (s : Sweep) : Prop where
  mem : l ∈ P
  sorted : ∀ p ∈ P, p.le l = true
  last : s.last = some l
  stOld : (nO P true : Int) - nC P true = if s.openOld then 1 else 0
  stNew : (nO P false : Int) - nC P false = if s.openNew then 1 else 0
  kind : (if l.old then s.openOld else s.openNew) = l.op
  merged : ∀ m, s.merged = some m → m.2 ≤ l.x ∧ (l.op = true → m.2 < l.x)
  closeCov : l.op = false → 1 ≤ cov P l.old l.x
  done : ∀ y, Done l y → Classified P s y
  notDone : ∀ y, ¬ Done l y → Uncovered s y

theorem Inv.le_x {P l s} (h : Inv P l s) : ∀ p ∈ P, p.x ≤ l.x := by
  intro p hp; have := Pt.le_x (h.sorted p hp); omega

theorem cov_of_notDone {P : List Pt} {l : Pt} (hs : ∀ p ∈ P, p.le l = true) {y : Int}
    (hy : ¬ Done l y) (k : Bool) : cov P k y = (nO P k : Int) - nC P k := by
  have hx : ∀ p ∈ P, p.x ≤ l.x := by
    intro p hp; have := Pt.le_x (hs p hp); omega
  simp only [Done, not_or, not_and, Int.not_lt, Bool.not_eq_false] at hy
  unfold cov
  rw [nOpen_eq_nO hx hy.1]
  suffices nClose P k y = nC P k by rw [this]
  apply List.countP_congr
  intro p hp
  have h1 := Pt.le_x (hs p hp)
  by_cases hop : p.op = true
  · simp [hop]
  · have : p.x < y := by
      rcases h1 with h1 | ⟨h1, h2⟩
      · omega
      · by_cases hyl : y = l.x
        · have := hy.2 hyl; simp_all
        · omega
    simp [this]

theorem cov_snoc_done {P : List Pt} {p : Pt} {y : Int} (hy : Done p y) (k : Bool) :
    cov (P ++ [p]) k y = cov P k y := by
  unfold cov
  rw [nOpen_append, nClose_append, nOpen_single, nClose_single]
  unfold Done at hy
  have h1 : ¬ (p.op = true ∧ p.old = k ∧ p.x ≤ y) := by
    rintro ⟨a, _, b⟩
    rcases hy with hy | ⟨_, hy⟩
    · omega
    · simp_all
  have h2 : ¬ (p.op = false ∧ p.old = k ∧ p.x < y) := by
    rintro ⟨a, _, b⟩; omega
  simp [h1, h2]

/-- A step of the sweep on an admissible point. -/
theorem sweep_step_inv {P : List Pt} {l p : Pt} {s : Sweep} (h : Inv P l s)
    (hp : ∀ q ∈ P, q.le p = true)
    (hadm : (nO P p.old : Int) - nC P p.old = if p.op then 0 else 1) :
    ∃ s', sweepStep s p = some s' ∧ Inv (P ++ [p]) p s' := by
  have hlp := Pt.le_x (hp l h.mem)
  -- the open flag of p's kind
  have hflag : (if p.old then s.openOld else s.openNew) = !p.op := by
    have h1 := h.stOld; have h2 := h.stNew
    rcases p with ⟨x, o, op⟩
    cases o <;> cases op <;> cases hso : s.openOld <;> cases hsn : s.openNew <;>
      simp_all
  have hne : s.last ≠ some p := by
    rw [h.last]; intro e; injection e with e; subst e
    have := h.kind; rw [hflag] at this; revert this; cases l.op <;> simp
  have hP' : ∀ q ∈ P ++ [p], q.le p = true := by
    intro q hq
    rw [List.mem_append, List.mem_singleton] at hq
    rcases hq with hq | rfl
    · exact hp q hq
    · have := Pt.le_total q q; simpa using this
  have hO' : ∀ k, (nO (P ++ [p]) k : Int) - nC (P ++ [p]) k
      = ((nO P k : Int) - nC P k) + (if p.old = k then (if p.op then 1 else -1) else 0) := by
    intro k
    rw [nO_append, nC_append, nO_single, nC_single]
    by_cases hk : p.old = k <;> cases p.op <;> simp [hk] <;> omega
  have hcc : p.op = false → 1 ≤ cov (P ++ [p]) p.old p.x := by
    intro hop
    unfold cov
    have hx : ∀ q ∈ P ++ [p], q.x ≤ p.x := by
      intro q hq; have := Pt.le_x (hP' q hq); omega
    rw [nOpen_eq_nO hx (Int.le_refl _), nClose_append, nClose_single, nO_append, nO_single]
    have : nClose P p.old p.x ≤ nC P p.old := by
      apply List.countP_mono_left
      intro q _ hq; simp only [Bool.and_eq_true] at hq ⊢; exact hq.1
    simp [hop] at hadm ⊢
    omega
  -- what happens to already classified positions
  have hdd : ∀ y, Done l y → Done p y := by
    intro y hy; unfold Done at *
    rcases hlp with hlp | ⟨hlp, hop⟩
    · omega
    · rcases hy with hy | ⟨hy, hy2⟩
      · omega
      · right; refine ⟨by omega, ?_⟩; simp_all
  -- single-ness of already done positions does not matter / does not change
  have hsing : ∀ y, Done l y →
      ((cov P false y = 1 ∧ cov P true y = 0 ∧ ¬ Single (P ++ [p]) false y) ↔
       (cov P false y = 1 ∧ cov P true y = 0 ∧ ¬ Single P false y)) ∧
      ((cov P true y = 1 ∧ cov P false y = 0 ∧ ¬ Single (P ++ [p]) true y) ↔
       (cov P true y = 1 ∧ cov P false y = 0 ∧ ¬ Single P true y)) := by
    intro y hy
    by_cases hyp : y = p.x
    · -- then l and p are both closes at y
      have hl : y = l.x ∧ l.op = false := by
        unfold Done at hy
        rcases hy with hy | hy
        · omega
        · exact hy
      have hpop : p.op = false := by
        rcases hlp with hlp | ⟨_, hlp | hlp⟩
        · omega
        · rw [hl.2] at hlp; cases hlp
        · exact hlp
      have hk : l.old ≠ p.old := by
        intro e
        have := h.kind
        rw [e, hflag, hpop, hl.2] at this; simp at this
      have hc1 := h.closeCov hl.2
      rw [← hl.1] at hc1
      have hother : ∀ k, k ≠ p.old → (Single (P ++ [p]) k y ↔ Single P k y) := by
        intro k hk'
        unfold Single
        simp only [List.mem_append, List.mem_singleton]
        have e1 : ¬ ((⟨y, k, true⟩ : Pt) = p) := by rintro rfl; exact hk' rfl
        have e2 : ¬ ((⟨y, k, false⟩ : Pt) = p) := by rintro rfl; exact hk' rfl
        simp [e1, e2]
      cases hlo : l.old <;> cases hpo : p.old
      · simp_all
      · rw [hlo] at hc1
        have := hother false (by simp [hpo])
        constructor
        · rw [this]
        · constructor <;> intro hh <;> omega
      · rw [hlo] at hc1
        have := hother true (by simp [hpo])
        constructor
        · constructor <;> intro hh <;> omega
        · rw [this]
      · simp_all
    · have : ∀ k, (Single (P ++ [p]) k y ↔ Single P k y) := by
        intro k
        unfold Single
        simp only [List.mem_append, List.mem_singleton]
        have e1 : ¬ ((⟨y, k, true⟩ : Pt) = p) := by rintro rfl; exact hyp rfl
        have e2 : ¬ ((⟨y, k, false⟩ : Pt) = p) := by rintro rfl; exact hyp rfl
        simp [e1, e2]
      rw [this, this]; exact ⟨Iff.rfl, Iff.rfl⟩
  -- singles among newly classified positions
  have hnosing : l.x < p.x → ∀ y k, ¬ Done l y → ¬ Single (P ++ [p]) k y := by
    intro hx y k hy hs
    unfold Single at hs
    simp only [List.mem_append, List.mem_singleton] at hs
    obtain ⟨h1, h2⟩ := hs
    have hlx := h.le_x
    unfold Done at hy
    rcases h1 with h1 | h1
    · have := hlx _ h1
      simp only at this
      rcases h2 with h2 | h2
      · have h3 := Pt.le_x (h.sorted _ h2)
        simp only at h3
        have : y = l.x := by omega
        have h4 : l.op = true := by
          cases hh : l.op
          · exact absurd (Or.inr ⟨this, hh⟩) hy
          · rfl
        rcases h3 with h3 | ⟨_, h3 | h3⟩
        · omega
        · cases h3
        · rw [h4] at h3; cases h3
      · have := congrArg Pt.x h2; simp only at this; omega
    · rcases h2 with h2 | h2
      · have := hlx _ h2
        have h5 := congrArg Pt.x h1; simp only at this h5; omega
      · rw [← h1] at h2; simp at h2
  have hcovNew : ∀ y, ¬ Done l y → ∀ k, cov P k y = (nO P k : Int) - nC P k :=
    fun y hy k => cov_of_notDone h.sorted hy k
  have hstO := h.stOld
  have hstN := h.stNew
  have hkind := h.kind
  -- build the emitted state
  have key : ∃ s1, emit s p = some s1 ∧ s1.openOld = s.openOld ∧ s1.openNew = s.openNew ∧
      (∀ m, s1.merged = some m → m.2 ≤ p.x ∧ (p.op = true → m.2 < p.x)) ∧
      (∀ y, Done p y → Classified (P ++ [p]) s1 y) ∧
      (∀ y, ¬ Done p y → Uncovered s1 y) := by
    -- generic: state with one more range m in one of the lists
    have hold : ∀ m, s.merged = some m → m.2 ≤ p.x ∧ (p.op = true → m.2 < p.x) := by
      intro m hm
      have := h.merged m hm
      refine ⟨by omega, fun hop => ?_⟩
      rcases hlp with hlp | ⟨hlp, hlo | hlo⟩
      · omega
      · have := this.2 hlo; omega
      · simp_all
    have hclassOld : ∀ y, Done l y → Classified (P ++ [p]) s y := by
      intro y hy
      have h1 := h.done y hy
      unfold Classified at h1 ⊢
      rw [cov_snoc_done (hdd y hy), cov_snoc_done (hdd y hy), (hsing y hy).1, (hsing y hy).2]
      exact h1
    unfold emit
    rw [h.last]
    by_cases hS : s.openNew = true ∧ s.openOld = true
    · -- S: p is a close and l is an open
      have hpop : p.op = false := by
        cases hh : p.op <;> simp_all
      have hlop : l.op = true := by
        rw [← hkind, hS.1, hS.2]; simp
      simp only [hS.1, hS.2, Bool.and_self, if_true]
      refine ⟨_, rfl, by simp, by simp, ?_, ?_, ?_⟩
      · intro m hm; simp only [Option.some.injEq] at hm; subst hm; simp [hpop]
      · intro y hy
        by_cases hyl : Done l y
        · have := hclassOld y hyl
          unfold Classified at this ⊢
          simp only [covers_snoc]
          unfold Done at hyl
          rw [hlop] at hyl
          have : ¬ (l.x ≤ y ∧ y ≤ p.x) := by simp at hyl; omega
          simp only [this, or_false]; assumption
        · have hu := h.notDone y hyl
          unfold Classified
          simp only [covers_snoc]
          rw [cov_snoc_done hy, cov_snoc_done hy, hcovNew y hyl, hcovNew y hyl, hstO, hstN]
          simp only [hS.1, hS.2, if_true]
          unfold Uncovered at hu
          unfold Done at hy hyl
          rw [hlop] at hyl; rw [hpop] at hy
          simp at hy hyl
          refine ⟨by simp; right; omega, ?_, ?_⟩
          · simp [hu.2.1]
          · simp [hu.2.2]
      · intro y hy
        have hyl : ¬ Done l y := fun hh => hy (hdd y hh)
        have hu := h.notDone y hyl
        unfold Uncovered at hu ⊢
        simp only [covers_snoc]
        unfold Done at hy; rw [hpop] at hy; simp at hy
        refine ⟨?_, hu.2.1, hu.2.2⟩
        rintro (hh | hh)
        · exact hu.1 hh
        · omega
    · have hS' : (s.openNew && s.openOld) = false := by
        cases h1 : s.openNew <;> cases h2 : s.openOld <;> simp_all
      simp only [hS', Bool.false_eq_true, if_false]
      -- the value of createRange
      have hcr : createRange p l s.merged =
          if p.x ≤ l.x then none else
            some (if l.op then l.x else l.x + 1, if p.op then p.x - 1 else p.x) := by
        unfold createRange
        have hm := h.merged
        by_cases hx : p.x ≤ l.x
        · simp [hx]
        · simp only [hx, if_false]
          cases hme : s.merged with
          | none => cases l.op <;> cases p.op <;> simp
          | some m =>
            have := hm m hme
            cases hlo : l.op
            · cases p.op <;> simp
            · have h2 := this.2 hlo
              have h3 : ¬ (l.x ≤ m.2) := by omega
              cases p.op <;> simp [h3]
      -- the emitted range covers exactly the newly classified positions
      have hcover : ¬ p.x ≤ l.x → ∀ y, ((if l.op then l.x else l.x + 1) ≤ y ∧
          y ≤ (if p.op then p.x - 1 else p.x)) ↔ (Done p y ∧ ¬ Done l y) := by
        intro hx y
        unfold Done
        cases l.op <;> cases p.op <;> simp <;> omega
      by_cases hN : s.openNew = true
      · have hO : s.openOld = false := by simp_all
        simp only [hN, if_true]
        rw [hcr]
        by_cases hx : p.x ≤ l.x
        · simp only [hx, if_true]
          refine ⟨s, rfl, rfl, hN, hold, ?_, ?_⟩
          · intro y hy
            by_cases hyl : Done l y
            · exact hclassOld y hyl
            · -- y = p.x = l.x, l opens new, p closes new
              have hu := h.notDone y hyl
              have hyx : y = p.x ∧ p.op = false ∧ l.op = true ∧ l.x = p.x := by
                unfold Done at hy hyl
                cases hlo : l.op <;> cases hpo : p.op <;> simp_all <;> omega
              have hlold : l.old = false := by
                cases hh : l.old
                · rfl
                · rw [hh, hyx.2.2.1] at hkind; simp_all
              have hpold : p.old = false := by
                cases hh : p.old
                · rfl
                · rw [hh, hyx.2.1] at hflag; simp_all
              have hsg : Single (P ++ [p]) false y := by
                unfold Single
                constructor
                · have : (⟨y, false, true⟩ : Pt) = l := by
                    rcases l with ⟨a, b, c⟩; simp_all
                  rw [this]; exact List.mem_append_left _ h.mem
                · have : (⟨y, false, false⟩ : Pt) = p := by
                    rcases p with ⟨a, b, c⟩; simp_all
                  rw [this]; simp
              unfold Classified
              rw [cov_snoc_done hy, cov_snoc_done hy, hcovNew y hyl, hcovNew y hyl, hstO, hstN]
              unfold Uncovered at hu
              simp [hN, hO, hu, hsg]
          · intro y hy
            exact h.notDone y (fun hh => hy (hdd y hh))
        · simp only [hx, if_false]
          have hns := hnosing (by omega)
          refine ⟨_, rfl, rfl, by simp, ?_, ?_, ?_⟩
          · intro m hm; simp only [Option.some.injEq] at hm; subst hm
            cases p.op <;> simp <;> omega
          · intro y hy
            by_cases hyl : Done l y
            · have := hclassOld y hyl
              unfold Classified at this ⊢
              simp only [covers_snoc, hcover hx]
              simp only [hyl, not_true_eq_false, and_false, or_false]; exact this
            · have hu := h.notDone y hyl
              unfold Classified
              simp only [covers_snoc, hcover hx]
              rw [cov_snoc_done hy, cov_snoc_done hy, hcovNew y hyl, hcovNew y hyl, hstO, hstN]
              unfold Uncovered at hu
              simp [hN, hO, hu, hy, hyl, hns y false hyl]
          · intro y hy
            have hyl : ¬ Done l y := fun hh => hy (hdd y hh)
            have hu := h.notDone y hyl
            unfold Uncovered at hu ⊢
            simp only [covers_snoc, hcover hx]
            simp [hu, hy]
      · have hN' : s.openNew = false := by simpa using hN
        simp only [hN', Bool.false_eq_true, if_false]
        by_cases hO : s.openOld = true
        · simp only [hO, if_true]
          rw [hcr]
          by_cases hx : p.x ≤ l.x
          · simp only [hx, if_true]
            refine ⟨s, rfl, hO, hN', hold, ?_, ?_⟩
            · intro y hy
              by_cases hyl : Done l y
              · exact hclassOld y hyl
              · have hu := h.notDone y hyl
                have hyx : y = p.x ∧ p.op = false ∧ l.op = true ∧ l.x = p.x := by
                  unfold Done at hy hyl
                  cases hlo : l.op <;> cases hpo : p.op <;> simp_all <;> omega
                have hlold : l.old = true := by
                  cases hh : l.old
                  · rw [hh, hyx.2.2.1] at hkind; simp_all
                  · rfl
                have hpold : p.old = true := by
                  cases hh : p.old
                  · rw [hh, hyx.2.1] at hflag; simp_all
                  · rfl
                have hsg : Single (P ++ [p]) true y := by
                  unfold Single
                  constructor
                  · have : (⟨y, true, true⟩ : Pt) = l := by
                      rcases l with ⟨a, b, c⟩; simp_all
                    rw [this]; exact List.mem_append_left _ h.mem
                  · have : (⟨y, true, false⟩ : Pt) = p := by
                      rcases p with ⟨a, b, c⟩; simp_all
                    rw [this]; simp
                unfold Classified
                rw [cov_snoc_done hy, cov_snoc_done hy, hcovNew y hyl, hcovNew y hyl, hstO, hstN]
                unfold Uncovered at hu
                simp [hN', hO, hu, hsg]
            · intro y hy
              exact h.notDone y (fun hh => hy (hdd y hh))
          · simp only [hx, if_false]
            have hns := hnosing (by omega)
            refine ⟨_, rfl, by simp, by simp, ?_, ?_, ?_⟩
            · intro m hm; simp only [Option.some.injEq] at hm; subst hm
              cases p.op <;> simp <;> omega
            · intro y hy
              by_cases hyl : Done l y
              · have := hclassOld y hyl
                unfold Classified at this ⊢
                simp only [covers_snoc, hcover hx]
                simp only [hyl, not_true_eq_false, and_false, or_false]; exact this
              · have hu := h.notDone y hyl
                unfold Classified
                simp only [covers_snoc, hcover hx]
                rw [cov_snoc_done hy, cov_snoc_done hy, hcovNew y hyl, hcovNew y hyl, hstO, hstN]
                unfold Uncovered at hu
                simp [hN', hO, hu, hy, hyl, hns y true hyl]
            · intro y hy
              have hyl : ¬ Done l y := fun hh => hy (hdd y hh)
              have hu := h.notDone y hyl
              unfold Uncovered at hu ⊢
              simp only [covers_snoc, hcover hx]
              simp [hu, hy]
        · have hO' : s.openOld = false := by simpa using hO
          simp only [hO', Bool.false_eq_true, if_false]
          refine ⟨s, rfl, hO', hN', hold, ?_, ?_⟩
          · intro y hy
            by_cases hyl : Done l y
            · exact hclassOld y hyl
            · have hu := h.notDone y hyl
              unfold Classified
              rw [cov_snoc_done hy, cov_snoc_done hy, hcovNew y hyl, hcovNew y hyl, hstO, hstN]
              unfold Uncovered at hu
              simp [hN', hO', hu]
          · intro y hy
            exact h.notDone y (fun hh => hy (hdd y hh))
  obtain ⟨s1, he, ho, hn, hm, hd, hnd⟩ := key
  unfold sweepStep
  simp only [hne, if_false, he, Option.bind_some]
  unfold remember
  rw [ho, hn]
  have hOt := hO' true
  have hOf := hO' false
  rcases p with ⟨x, o, op⟩
  cases o <;> cases op <;> simp only [Bool.false_eq_true, if_false, if_true, Bool.not_true,
    Bool.not_false, Bool.true_and, Bool.false_and, Bool.or_false, Bool.false_or] at hflag hOt hOf ⊢ <;>
    simp only [hflag, Bool.not_true, Bool.false_eq_true, if_false] <;>
    exact ⟨_, rfl, ⟨by simp, hP', rfl, by simp_all; try omega, by simp_all; try omega, by simp,
      hm, hcc, fun y hy => hd y hy, fun y hy => hnd y hy⟩⟩

end Verif.Ranges
