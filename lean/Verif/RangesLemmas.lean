import Verif.Ranges
/-! Helper lemmas for the sweep line of `SliceRanges.Delta`. -/
namespace Verif.Ranges

/-- Number of opening points of kind `k` at positions `≤ y`. -/
def nOpen (P : List Pt) (k : Bool) (y : Int) : Nat :=
  P.countP fun p => p.op && p.old == k && decide (p.x ≤ y)
/-- Number of closing points of kind `k` at positions `< y`. -/
def nClose (P : List Pt) (k : Bool) (y : Int) : Nat :=
  P.countP fun p => !p.op && p.old == k && decide (p.x < y)
/-- Number of opening points of kind `k`. -/
def nO (P : List Pt) (k : Bool) : Nat := P.countP fun p => p.op && p.old == k
/-- Number of closing points of kind `k`. -/
def nC (P : List Pt) (k : Bool) : Nat := P.countP fun p => !p.op && p.old == k

/-- How often `y` is covered according to the points `P`. -/
def cov (P : List Pt) (k : Bool) (y : Int) : Int := (nOpen P k y : Int) - nClose P k y

theorem Pt.le_trans (a b c : Pt) (h1 : a.le b = true) (h2 : b.le c = true) : a.le c = true := by
  rcases a with ⟨ax, ao, ap⟩; rcases b with ⟨bx, bo, bp⟩; rcases c with ⟨cx, co, cp⟩
  simp only [Pt.le, Bool.or_eq_true, Bool.and_eq_true, decide_eq_true_eq] at *
  cases ao <;> cases ap <;> cases bo <;> cases bp <;> cases co <;> cases cp <;>
    simp at * <;> omega

theorem Pt.le_total (a b : Pt) : (a.le b || b.le a) = true := by
  rcases a with ⟨ax, ao, ap⟩; rcases b with ⟨bx, bo, bp⟩
  simp only [Pt.le, Bool.or_eq_true, Bool.and_eq_true, decide_eq_true_eq]
  cases ao <;> cases ap <;> cases bo <;> cases bp <;> simp <;> omega

/-- In the order of the sweep: smaller position, or same position and not a
close followed by an open. -/
theorem Pt.le_x {a b : Pt} (h : a.le b = true) :
    a.x < b.x ∨ (a.x = b.x ∧ (a.op = true ∨ b.op = false)) := by
  rcases a with ⟨ax, ao, ap⟩; rcases b with ⟨bx, bo, bp⟩
  simp only [Pt.le, Bool.or_eq_true, Bool.and_eq_true, decide_eq_true_eq] at *
  cases ap <;> cases bp <;> simp at * <;> omega

theorem nOpen_append (P Q k y) : nOpen (P ++ Q) k y = nOpen P k y + nOpen Q k y := by
  simp [nOpen, List.countP_append]
theorem nClose_append (P Q k y) : nClose (P ++ Q) k y = nClose P k y + nClose Q k y := by
  simp [nClose, List.countP_append]
theorem nO_append (P Q k) : nO (P ++ Q) k = nO P k + nO Q k := by
  simp [nO, List.countP_append]
theorem nC_append (P Q k) : nC (P ++ Q) k = nC P k + nC Q k := by
  simp [nC, List.countP_append]

theorem nOpen_single (p : Pt) (k y) :
    nOpen [p] k y = if p.op = true ∧ p.old = k ∧ p.x ≤ y then 1 else 0 := by
  simp only [nOpen, List.countP_cons, List.countP_nil]
  simp only [Bool.and_eq_true, beq_iff_eq, decide_eq_true_eq, and_assoc, Nat.zero_add]
theorem nClose_single (p : Pt) (k y) :
    nClose [p] k y = if p.op = false ∧ p.old = k ∧ p.x < y then 1 else 0 := by
  simp only [nClose, List.countP_cons, List.countP_nil]
  simp only [Bool.and_eq_true, beq_iff_eq, decide_eq_true_eq, and_assoc, Nat.zero_add,
    Bool.not_eq_true']
theorem nO_single (p : Pt) (k) :
    nO [p] k = if p.op = true ∧ p.old = k then 1 else 0 := by
  simp only [nO, List.countP_cons, List.countP_nil]
  simp only [Bool.and_eq_true, beq_iff_eq, Nat.zero_add]
theorem nC_single (p : Pt) (k) :
    nC [p] k = if p.op = false ∧ p.old = k then 1 else 0 := by
  simp only [nC, List.countP_cons, List.countP_nil]
  simp only [Bool.and_eq_true, beq_iff_eq, Nat.zero_add, Bool.not_eq_true']

/-- When all points are at or before `c`, everything later sees the totals. -/
theorem nOpen_eq_nO {P : List Pt} {c y : Int} (h : ∀ p ∈ P, p.x ≤ c) (hy : c ≤ y) (k) :
    nOpen P k y = nO P k := by
  apply List.countP_congr
  intro p hp
  have := h p hp
  have h2 : p.x ≤ y := by omega
  simp [h2]
theorem nClose_eq_nC {P : List Pt} {c y : Int} (h : ∀ p ∈ P, p.x ≤ c) (hy : c < y) (k) :
    nClose P k y = nC P k := by
  apply List.countP_congr
  intro p hp
  have := h p hp
  have h2 : p.x < y := by omega
  simp [h2]

end Verif.Ranges
