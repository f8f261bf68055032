import Verif.SqlUtil
/-! C47 (chunking) and C48 (transactions). -/
namespace Verif.SqlUtil

variable {α : Type}

theorem chunkLoop_spec {size : Nat} (hs : 0 < size) (entries : List α) (fuel i : Nat)
    (hf : entries.length ≤ i + fuel) :
    ∃ cs, chunkLoop size entries fuel i = some cs ∧ cs.flatten = entries.drop i ∧
      ∀ c ∈ cs, 0 < c.length ∧ c.length ≤ size := by
  induction fuel generalizing i with
  | zero =>
    have : ¬ i < entries.length := by omega
    exact ⟨[], by simp [chunkLoop, this], by simp; omega, by simp⟩
  | succ fuel ih =>
    by_cases h : i < entries.length
    · obtain ⟨cs, h1, h2, h3⟩ := ih (i + size) (by omega)
      simp only [chunkLoop, h, if_true, h1, Option.map_some]
      refine ⟨_, rfl, ?_, ?_⟩
      · rw [List.flatten_cons, h2]
        split
        · rw [List.drop_eq_nil_of_le (by omega : entries.length ≤ i + size), List.append_nil,
            List.take_of_length_le (by rw [List.length_drop]; omega)]
        · rw [← List.drop_drop, show i + size - i = size by omega, List.take_append_drop]
      · intro c hc
        rcases List.mem_cons.1 hc with hc | hc
        · subst hc
          rw [List.length_take, List.length_drop]
          split <;> omega
        · exact h3 c hc
    · exact ⟨[], by simp [chunkLoop, h], by simp; omega, by simp⟩

theorem chunkLoop_mono {size : Nat} (entries : List α) {fuel fuel' : Nat} (hf : fuel ≤ fuel') {i : Nat}
    {cs : List (List α)} (h : chunkLoop size entries fuel i = some cs) :
    chunkLoop size entries fuel' i = some cs := by
  induction fuel generalizing i fuel' cs with
  | zero =>
    simp only [chunkLoop] at h
    split at h
    · cases h
    · rename_i hi
      cases fuel' <;> simp [chunkLoop, hi, Option.some.inj h]
  | succ fuel ih =>
    cases fuel' with
    | zero => omega
    | succ fuel' =>
      simp only [chunkLoop] at h ⊢
      split at h
      · rename_i hi
        rw [if_pos hi]
        cases hc : chunkLoop size entries fuel (i + size) with
        | none => rw [hc] at h; cases h
        | some cs' => rw [hc] at h; rw [ih (by omega) hc]; exact h
      · rename_i hi
        rw [if_neg hi]; exact h

theorem chunkLoop_stuck (entries : List α) (fuel i : Nat) (h : i < entries.length) :
    chunkLoop 0 entries fuel i = none := by
  induction fuel with
  | zero => simp [chunkLoop, h]
  | succ fuel ih => simp [chunkLoop, h, ih]

/-- If `Chunkify` terminates at all it does so within one iteration per entry. -/
theorem chunkify_iff (n m : Nat) (entries : List α) (cs : List (List α)) :
    chunkify n m entries = some cs ↔ ∃ fuel, chunkifyFuel fuel n m entries = some cs := by
  constructor
  · intro h; exact ⟨_, h⟩
  · rintro ⟨fuel, h⟩
    simp only [chunkify, chunkifyFuel] at h ⊢
    split
    · rename_i hc; rw [if_pos hc] at h; exact h
    · rename_i hc
      rw [if_neg hc] at h
      rcases Nat.eq_zero_or_pos (m / n) with h0 | h0
      · rw [h0] at h
        rw [chunkLoop_stuck entries fuel 0 (by
          rcases Nat.eq_zero_or_pos entries.length with he | he
          · rw [he] at hc; simp at hc
          · exact he)] at h
        cases h
      · obtain ⟨cs', h1, _⟩ := chunkLoop_spec h0 entries entries.length 0 (by omega)
        rcases Nat.le_total fuel entries.length with hle | hle
        · exact chunkLoop_mono entries hle h
        · rw [h1]
          have := chunkLoop_mono entries hle h1
          rw [this] at h
          exact h

/-- As long as one row fits a statement, chunking terminates, keeps every row in order, and keeps every
chunk within the parameter limit; no chunk is empty unless there is nothing to insert. -/
theorem C47_chunks {n m : Nat} (hn : n ≤ m) (entries : List α) :
    ∃ cs, chunkify n m entries = some cs ∧ cs.flatten = entries ∧
      (∀ c ∈ cs, c.length * n ≤ m) ∧ (entries ≠ [] → ∀ c ∈ cs, c ≠ []) := by
  by_cases h : entries.length * n ≤ m
  · refine ⟨[entries], by simp [chunkify, chunkifyFuel, h], by simp, ?_, ?_⟩
    · intro c hc; rw [List.mem_singleton.1 hc]; exact h
    · intro he c hc; rw [List.mem_singleton.1 hc]; exact he
  · have hn0 : 0 < n := by
      rcases Nat.eq_zero_or_pos n with h0 | h0
      · rw [h0] at h; simp at h
      · exact h0
    obtain ⟨cs, h1, h2, h3⟩ :=
      chunkLoop_spec (Nat.div_pos hn hn0) entries entries.length 0 (by omega)
    refine ⟨cs, by simp only [chunkify, chunkifyFuel]; rw [if_neg h]; exact h1, by simpa using h2, ?_, ?_⟩
    · intro c hc
      calc c.length * n ≤ (m / n) * n := Nat.mul_le_mul_right n (h3 c hc).2
        _ ≤ m := Nat.div_mul_le_self m n
    · intro _ c hc he
      have := (h3 c hc).1
      rw [he] at this; simp at this

/-- A row wider than the limit makes `Chunkify` loop for ever (it would need more than 65535 columns). -/
theorem C47_diverges {n m : Nat} (hn : m < n) {entries : List α} (he : entries ≠ []) :
    ∀ fuel, chunkifyFuel fuel n m entries = none := by
  intro fuel
  have hpos : 0 < entries.length := List.length_pos_iff.2 he
  have h : ¬ entries.length * n ≤ m := by
    have : 1 * n ≤ entries.length * n := Nat.mul_le_mul_right n hpos
    omega
  simp only [chunkifyFuel]
  rw [if_neg h, Nat.div_eq_of_lt hn]
  exact chunkLoop_stuck entries fuel 0 hpos

example : chunkify 2 5 [1, 2, 3, 4, 5] = some [[1, 2], [3, 4], [5]] := by decide
example : chunkify 3 5 [1, 2] = some [[1], [2]] := by decide

/-! ### C48 -/

/-- Full statement of C48: the changes are kept iff the function returned without error and without panic
(and the database accepted the commit), otherwise the database is unchanged; the caller gets a nil error
exactly in the first case. -/
def CommitsExactlyOnSuccess : Prop :=
  ∀ (S : Type) (d : Driver) (fn : S → S × FnEnd) (db : S),
    ((d.beginOk ∧ d.commitOk ∧ (fn db).2 = .ok) →
      (withTransaction d fn db).db = (fn db).1 ∧ (withTransaction d fn db).res = .nil) ∧
    (¬ (d.beginOk ∧ d.commitOk ∧ (fn db).2 = .ok) →
      (withTransaction d fn db).db = db ∧ (withTransaction d fn db).res ≠ .nil)

/-- `panic(nil)` (or `runtime.Goexit`) in the function commits the half-done work and reports success. -/
theorem C48_violated_nil_panic : ¬ CommitsExactlyOnSuccess := by
  intro h
  have := (h Nat ⟨true, true, true⟩ (fun n => (n + 1, .panicNil)) 0).2 (by simp)
  exact absurd this.1 (by decide)

/-- Everything else: unless the function ends in a nil panic, its work is kept exactly when it returned
without error or panic and the commit went through; otherwise the database is unchanged and the caller
gets an error, the function's own if it had one. Missing from the full statement: nil panics. -/
theorem C48_atomic_partial {S : Type} (d : Driver) (fn : S → S × FnEnd) (db : S)
    (hnil : (fn db).2 ≠ .panicNil) :
    ((d.beginOk ∧ d.commitOk ∧ (fn db).2 = .ok) →
      (withTransaction d fn db).db = (fn db).1 ∧ (withTransaction d fn db).res = .nil) ∧
    (¬ (d.beginOk ∧ d.commitOk ∧ (fn db).2 = .ok) →
      (withTransaction d fn db).db = db ∧ (withTransaction d fn db).res ≠ .nil) ∧
    (d.beginOk = true → ∀ m, (fn db).2 = .err m → (withTransaction d fn db).res = .fnErr m) ∧
    (d.beginOk = true → ∀ v, (fn db).2 = .panic v → (withTransaction d fn db).res = .panicErr v) ∧
    ((withTransaction d fn db).called = d.beginOk) := by
  obtain ⟨b, c, r⟩ := d
  cases hf : fn db with
  | mk w f =>
    rw [hf] at hnil
    cases b <;> cases c <;> cases f <;> simp_all [withTransaction]

/-- The exact behaviour on a nil panic: as on success. -/
theorem C48_nil_panic {S : Type} (d : Driver) (fn : S → S × FnEnd) (db : S) (h : (fn db).2 = .panicNil)
    (hb : d.beginOk = true) (hc : d.commitOk = true) :
    withTransaction d fn db = ⟨(fn db).1, .nil, true⟩ := by
  cases hf : fn db with
  | mk w f =>
    rw [hf] at h
    simp only at h
    subst h
    simp [withTransaction, hb, hc, hf]

example : withTransaction ⟨true, true, true⟩ (fun n => (n + 1, FnEnd.ok)) 0 = ⟨1, .nil, true⟩ := by decide
example : withTransaction ⟨true, true, false⟩ (fun n => (n + 1, FnEnd.panic "x")) 0 = ⟨0, .panicErr "x", true⟩ := by
  decide

end Verif.SqlUtil
