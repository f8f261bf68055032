/-! Small general-purpose definitions: a structurally recursive stable sort
(used for Go's `sort.Slice`/`sort.SliceStable`), and its laws. -/
namespace Verif.Util

/-- Insert before the first element that is not smaller. -/
def oinsert {α} (le : α → α → Bool) (a : α) : List α → List α
  | [] => [a]
  | b :: l => if le a b then a :: b :: l else b :: oinsert le a l

/-- Insertion sort; stable. -/
def isort {α} (le : α → α → Bool) : List α → List α
  | [] => []
  | a :: l => oinsert le a (isort le l)

variable {α : Type _}

theorem oinsert_perm (le : α → α → Bool) (a : α) (l : List α) : (oinsert le a l).Perm (a :: l) := by
  induction l with
  | nil => exact List.Perm.refl _
  | cons b l ih =>
    simp only [oinsert]
    split
    · exact List.Perm.refl _
    · exact ((List.Perm.cons b ih).trans (List.Perm.swap a b l))

theorem isort_perm (le : α → α → Bool) (l : List α) : (isort le l).Perm l := by
  induction l with
  | nil => exact List.Perm.refl _
  | cons a l ih => exact (oinsert_perm le a _).trans (List.Perm.cons a ih)

theorem oinsert_pairwise {le : α → α → Bool}
    (trans : ∀ a b c, le a b = true → le b c = true → le a c = true)
    (total : ∀ a b, (le a b || le b a) = true) (a : α) {l : List α}
    (h : l.Pairwise fun x y => le x y = true) :
    (oinsert le a l).Pairwise fun x y => le x y = true := by
  induction l with
  | nil => simp [oinsert]
  | cons b l ih =>
    rw [List.pairwise_cons] at h
    simp only [oinsert]
    split
    · rename_i hab
      rw [List.pairwise_cons]
      refine ⟨?_, List.pairwise_cons.2 h⟩
      intro c hc
      rcases List.mem_cons.1 hc with rfl | hc
      · exact hab
      · exact trans _ _ _ hab (h.1 c hc)
    · rename_i hab
      rw [List.pairwise_cons]
      refine ⟨?_, ih h.2⟩
      intro c hc
      rcases List.mem_cons.1 ((oinsert_perm le a l).mem_iff.1 hc) with rfl | hc
      · have := total c b
        rw [Bool.or_eq_true] at this
        rcases this with h1 | h1
        · exact absurd h1 hab
        · exact h1
      · exact h.1 c hc

theorem isort_pairwise {le : α → α → Bool}
    (trans : ∀ a b c, le a b = true → le b c = true → le a c = true)
    (total : ∀ a b, (le a b || le b a) = true) (l : List α) :
    (isort le l).Pairwise fun x y => le x y = true := by
  induction l with
  | nil => simp [isort]
  | cons a l ih => exact oinsert_pairwise trans total a ih

/-- Induction on a list from its end. -/
theorem snocRec {α} {P : List α → Prop} (nil : P []) (append_singleton : ∀ l a, P l → P (l ++ [a])) (l : List α) : P l := by
  have : ∀ r : List α, P r.reverse := by
    intro r
    induction r with
    | nil => exact nil
    | cons a r ih => rw [List.reverse_cons]; exact append_singleton _ _ ih
  simpa using this l.reverse

end Verif.Util
