import Verif.Util
/-! Go maps as association lists, with get, set and delete. -/
namespace Verif.Assoc

variable {κ ν : Type _} [DecidableEq κ]

def get (m : List (κ × ν)) (k : κ) : Option ν := (m.find? fun e => decide (e.1 = k)).map (·.2)

def del (m : List (κ × ν)) (k : κ) : List (κ × ν) := m.filter fun e => decide (e.1 ≠ k)

def set (m : List (κ × ν)) (k : κ) (v : ν) : List (κ × ν) := del m k ++ [(k, v)]

theorem get_nil (k : κ) : get ([] : List (κ × ν)) k = none := rfl

theorem get_filter (m : List (κ × ν)) (p : κ → Bool) (k : κ) :
    get (m.filter fun e => p e.1) k = if p k then get m k else none := by
  induction m with
  | nil => simp [get]
  | cons e m ih =>
    simp only [get, List.filter_cons, List.find?_cons] at ih ⊢
    by_cases hp : p e.1 = true
    · rw [if_pos hp, List.find?_cons]
      by_cases he : e.1 = k
      · subst he; simp [hp]
      · simp only [he, decide_false]; exact ih
    · rw [if_neg hp]
      by_cases he : e.1 = k
      · subst he; rw [if_neg hp] at ih; simp only [decide_true]; rw [ih, if_neg hp]
      · simp only [he, decide_false]; exact ih

theorem get_del (m : List (κ × ν)) (k q : κ) : get (del m k) q = if q = k then none else get m q := by
  have h := get_filter m (fun x => decide (x ≠ k)) q
  by_cases hq : q = k
  · simpa [del, hq] using h
  · simpa [del, hq] using h

theorem get_append (m m' : List (κ × ν)) (k : κ) : get (m ++ m') k = (get m k).or (get m' k) := by
  simp only [get, List.find?_append]
  cases m.find? fun e => decide (e.1 = k) <;> simp

theorem get_set (m : List (κ × ν)) (k q : κ) (v : ν) : get (set m k v) q = if q = k then some v else get m q := by
  simp only [set]
  rw [get_append, get_del]
  by_cases h : q = k
  · subst h; simp [get]
  · simp [h, get, Ne.symm h]

theorem get_mem {m : List (κ × ν)} {k : κ} {v : ν} (h : get m k = some v) : (k, v) ∈ m := by
  simp only [get] at h
  cases hf : m.find? fun e => decide (e.1 = k) with
  | none => rw [hf] at h; cases h
  | some e =>
    rw [hf] at h
    have h1 := List.mem_of_find?_eq_some hf
    have h2 : e.1 = k := by simpa using List.find?_some hf
    simp only [Option.map_some, Option.some.injEq] at h
    rw [← h2, ← h]; exact h1

theorem get_of_mem {m : List (κ × ν)} (hn : (m.map (·.1)).Nodup) {k : κ} {v : ν} (h : (k, v) ∈ m) : get m k = some v := by
  induction m with
  | nil => cases h
  | cons e m ih =>
    simp only [List.map_cons, List.nodup_cons] at hn
    simp only [get, List.find?_cons]
    rcases List.mem_cons.1 h with he | he
    · subst he; simp
    · have : e.1 ≠ k := fun hek => hn.1 (hek ▸ List.mem_map.2 ⟨_, he, rfl⟩)
      simp only [this, decide_false]
      exact ih hn.2 he

theorem nodup_filter {m : List (κ × ν)} (hn : (m.map (·.1)).Nodup) (p : κ × ν → Bool) : ((m.filter p).map (·.1)).Nodup :=
  (List.filter_sublist.map _).nodup hn

theorem nodup_set {m : List (κ × ν)} (hn : (m.map (·.1)).Nodup) (k : κ) (v : ν) : ((set m k v).map (·.1)).Nodup := by
  simp only [set, del, List.map_append, List.map_cons, List.map_nil]
  rw [List.nodup_append]
  refine ⟨nodup_filter hn _, by simp, ?_⟩
  intro a ha b hb
  simp only [List.mem_map, List.mem_filter, decide_eq_true_eq] at ha
  obtain ⟨x, ⟨_, hx⟩, rfl⟩ := ha
  simp only [List.mem_singleton] at hb
  rw [hb]; exact hx

end Verif.Assoc
