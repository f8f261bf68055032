import Verif.Circular
/-! C44: the buffer holds exactly the last `max` values. -/
namespace Verif.Circular

variable {α : Type}

theorem run_snoc (max : Nat) (xs : List α) (x : α) :
    run max (xs ++ [x]) = (run max xs).bind (·.append x) := by
  simp [run, List.foldl_append]

/-- With a positive capacity no append panics, and read from the write position on (cyclically) the
buffer is the last `max` values appended, oldest first: all of them if there were fewer. -/
theorem C44_last {max : Nat} (hmax : 0 < max) (xs : List α) :
    ∃ b, run max xs = some b ∧ b.max = max ∧ b.i ≤ b.vals.length ∧
      b.vals.length = min xs.length max ∧
      b.vals.drop b.i ++ b.vals.take b.i = xs.drop (xs.length - max) := by
  suffices h : ∃ b, run max xs = some b ∧ b.max = max ∧ b.i ≤ b.vals.length ∧
      b.vals.length = min xs.length max ∧ (b.vals.length < max → b.i = b.vals.length) ∧
      b.vals.drop b.i ++ b.vals.take b.i = xs.drop (xs.length - max) by
    obtain ⟨b, h1, h2, h3, h4, _, h6⟩ := h
    exact ⟨b, h1, h2, h3, h4, h6⟩
  induction xs using Verif.Util.snocRec with
  | nil => exact ⟨{ max := max }, rfl, rfl, by simp, by simp, by simp, by simp⟩
  | append_singleton xs x ih =>
    obtain ⟨⟨i, vals, m⟩, h1, h2, h3, h4, h5, h6⟩ := ih
    simp only at h2 h3 h4 h5 h6
    subst h2
    rw [run_snoc, h1]
    simp only [Option.bind_some, Buf.append]
    by_cases hlt : vals.length < m
    · have hi := h5 hlt
      subst hi
      have hxl : vals.length = xs.length := by omega
      have hv : vals = xs := by
        simp only [List.drop_length, List.take_length, List.nil_append] at h6
        rw [show xs.length - m = 0 by omega, List.drop_zero] at h6
        exact h6
      subst hv
      refine ⟨_, by rw [if_pos hlt], rfl, by simp, ?_, ?_, ?_⟩
      · simp only [List.length_append, List.length_singleton]; omega
      · intro _; simp
      · rw [show vals.length + 1 = (vals ++ [x]).length by simp]
        simp only [List.drop_length, List.take_length, List.nil_append]
        rw [show (vals ++ [x]).length - m = 0 by simp; omega, List.drop_zero]
    · have hlen : vals.length = m := by omega
      have hxl : m ≤ xs.length := by omega
      -- the write position, after the wrap-around
      have hi' : (if i = m then 0 else i) < vals.length := by split <;> omega
      have h6' : vals.drop (if i = m then 0 else i) ++ vals.take (if i = m then 0 else i) =
          xs.drop (xs.length - m) := by
        rw [← h6]
        split
        · rename_i him
          subst him
          rw [← hlen]; simp
        · rfl
      generalize (if i = m then 0 else i) = k at hi' h6'
      refine ⟨_, by rw [if_neg hlt, if_pos hi'], rfl, by simp; omega, by simp; omega,
        by intro h; simp at h; omega, ?_⟩
      dsimp only
      have hdk : vals.drop k = vals[k] :: vals.drop (k + 1) := List.drop_eq_getElem_cons hi'
      rw [hdk] at h6'
      have hset : vals.set k x = vals.take k ++ x :: vals.drop (k + 1) := List.set_eq_take_append_cons_drop.trans (if_pos hi')
      have hk : (vals.take k).length = k := by rw [List.length_take]; omega
      have htail : xs.drop (xs.length - m + 1) = vals.drop (k + 1) ++ vals.take k := by
        rw [← List.tail_drop, ← h6']; rfl
      rw [hset]
      have e1 : (vals.take k ++ x :: vals.drop (k + 1)).drop (k + 1) = vals.drop (k + 1) := by
        rw [show k + 1 = (vals.take k).length + 1 by rw [hk], List.drop_append]
        simp
      have e2 : (vals.take k ++ x :: vals.drop (k + 1)).take (k + 1) = vals.take k ++ [x] := by
        rw [List.take_append, hk, List.take_of_length_le (by omega), show k + 1 - k = 1 by omega]
        rfl
      rw [e1, e2, List.length_append, List.length_singleton,
        show xs.length + 1 - m = xs.length - m + 1 by omega,
        List.drop_append_of_le_length (by omega), htail, List.append_assoc]

/-- As a multiset, the contents are the last `max` values. -/
theorem C44_contents {max : Nat} (hmax : 0 < max) (xs : List α) {b : Buf α} (h : run max xs = some b) :
    b.vals.Perm (xs.drop (xs.length - max)) := by
  obtain ⟨b', h1, _, _, _, h5⟩ := C44_last hmax xs
  rw [h] at h1
  cases h1
  rw [← h5]
  have := List.perm_append_comm (l₁ := b.vals.drop b.i) (l₂ := b.vals.take b.i)
  rw [List.take_append_drop] at this
  exact this.symm

/-- With capacity zero the first append panics (`max` is 6 at both uses in the repository). -/
theorem C44_zero (x : α) (xs : List α) : run 0 (x :: xs) = none := by
  have : ∀ l : List α, l.foldl (fun (s : Option (Buf α)) x => s.bind (·.append x)) none = none := by
    intro l; induction l with
    | nil => rfl
    | cons _ _ ih => simpa using ih
  rw [run, List.foldl_cons]
  exact this xs

/-- Eight appends to a buffer of three: wraps twice, keeps 6, 7, 8. -/
example : run 3 [1, 2, 3, 4, 5, 6, 7, 8] = some ⟨2, [7, 8, 6], 3⟩ := by decide
example : run 6 [1, 2] = some ⟨2, [1, 2], 6⟩ := by decide

end Verif.Circular
