import Verif.Filters
/-! # C10: filters mean what the API says -/
namespace Verif.Filters

/-! ## Specification, clause by clause -/

/-- The room was upgraded and the user is joined to the known successor. -/
def Superseded (finder : String → Option Room) (r : Room) : Prop :=
  ∃ next n, r.upgraded = some next ∧ finder next = some n ∧ n.hasLeft = false ∧ n.isInvite = false

/-- `sub` occurs in `s`. -/
def Occurs (sub s : String) : Prop := ∃ a b : String, s = a ++ sub ++ b

/-- Every clause other than the room types and spaces. -/
structure Basic (lower : String → String) (finder : String → Option Room) (f : Filter) (r : Room) : Prop where
  notOld : ¬ Superseded finder r
  enc : ∀ b, f.isEncrypted = some b → r.encrypted = b
  tomb : ∀ b, f.isTombstoned = some b → (r.upgraded ≠ none ↔ b = true)
  dm : ∀ b, f.isDM = some b → r.isDM = b
  inv : ∀ b, f.isInvite = some b → r.isInvite = b
  name : f.nameLike ≠ "" → Occurs (lower f.nameLike) (lower r.name)
  notTags : ∀ t ∈ f.notTags, t ∉ r.tags
  tags : f.tags ≠ [] → ∃ t ∈ f.tags, t ∈ r.tags
  notTypes : r.roomType ∉ f.notRoomTypes

/-- The full meaning: `Basic`, and the type is among `room_types` if given, and
the room is in one of `spaces` if given. -/
structure Matches (lower : String → String) (finder : String → Option Room) (f : Filter) (r : Room) : Prop where
  basic : Basic lower finder f r
  types : f.roomTypes ≠ [] → r.roomType ∈ f.roomTypes
  spaces : f.spaces ≠ [] → ∃ s ∈ f.spaces, s ∈ r.spaces

/-! ## Lemmas -/

theorem hasPrefix_iff (p l : List Char) : hasPrefix p l = true ↔ ∃ b, l = p ++ b := by
  induction p generalizing l with
  | nil => simp [hasPrefix]
  | cons c p ih =>
    cases l with
    | nil => simp [hasPrefix]
    | cons d l =>
      simp only [hasPrefix, Bool.and_eq_true, beq_iff_eq, ih, List.cons_append, List.cons.injEq]
      constructor
      · rintro ⟨rfl, b, rfl⟩; exact ⟨b, rfl, rfl⟩
      · rintro ⟨b, rfl, rfl⟩; exact ⟨rfl, b, rfl⟩

theorem containsL_iff (p l : List Char) : containsL p l = true ↔ ∃ a b, l = a ++ p ++ b := by
  induction l with
  | nil =>
    simp only [containsL, hasPrefix_iff]
    constructor
    · rintro ⟨b, h⟩; exact ⟨[], b, by simpa using h⟩
    · rintro ⟨a, b, h⟩
      have : p = [] := by
        cases p with
        | nil => rfl
        | cons c p => cases a <;> simp at h
      subst this
      exact ⟨[], rfl⟩
  | cons d l ih =>
    simp only [containsL, Bool.or_eq_true, hasPrefix_iff, ih]
    constructor
    · rintro (⟨b, h⟩ | ⟨a, b, h⟩)
      · exact ⟨[], b, by simpa using h⟩
      · exact ⟨d :: a, b, by simp [h]⟩
    · rintro ⟨a, b, h⟩
      cases a with
      | nil => exact Or.inl ⟨b, by simpa using h⟩
      | cons x a =>
        simp only [List.cons_append, List.cons.injEq] at h
        exact Or.inr ⟨a, b, h.2⟩

theorem contains_iff (s sub : String) : contains s sub = true ↔ Occurs sub s := by
  unfold contains Occurs
  rw [containsL_iff]
  constructor
  · rintro ⟨a, b, h⟩
    refine ⟨String.ofList a, String.ofList b, ?_⟩
    apply String.toList_inj.1
    simp [h]
  · rintro ⟨a, b, h⟩
    exact ⟨a.toList, b.toList, by rw [h]; simp⟩

theorem nullable_iff (as : List (Option String)) (x : Option String) :
    nullableStringExists as x = true ↔ x ∈ as := by
  induction as with
  | nil => simp [nullableStringExists]
  | cons a as ih =>
    cases x with
    | none =>
      simp only [nullableStringExists, List.mem_cons]
      split
      · rename_i h; simp [h]
      · rename_i h
        rw [ih]
        constructor
        · exact Or.inr
        · rintro (h' | h')
          · exact absurd h'.symm h
          · exact h'
    | some s =>
      simp only [nullableStringExists, List.mem_cons]
      split
      · rename_i h; simp [h]
      · rename_i h
        rw [ih]
        constructor
        · exact Or.inr
        · rintro (h' | h')
          · exact absurd h'.symm h
          · exact h'

theorem anyIn_iff (ts m : List String) : anyIn ts m = true ↔ ∃ t ∈ ts, t ∈ m := by
  induction ts with
  | nil => simp [anyIn]
  | cons t ts ih =>
    simp only [anyIn]
    by_cases h : t ∈ m
    · simp [h]
    · simp [h, ih]

theorem flag_iff (f : Option Bool) (v : Bool) : flagRejects f v = false ↔ ∀ b, f = some b → v = b := by
  cases f with
  | none => simp [flagRejects]
  | some b => cases b <;> cases v <;> simp [flagRejects]

theorem superseded_iff (finder : String → Option Room) (r : Room) :
    superseded finder r = true ↔ Superseded finder r := by
  unfold Superseded superseded
  cases h : r.upgraded with
  | none => simp
  | some next =>
    cases h2 : finder next with
    | none => simp [h2]
    | some n =>
      cases h3 : n.hasLeft <;> cases h4 : n.isInvite <;> simp [h2, h3, h4]

/-! ## C10 -/

/-- C10, exact: the filter includes a room iff all basic clauses hold and, when
room types are given, the type is among them; the spaces only count when no room
types are given. -/
theorem C10_exact (lower : String → String) (finder : String → Option Room) (f : Filter) (r : Room) :
    incl lower finder f r = true ↔
      Basic lower finder f r ∧ (f.roomTypes ≠ [] → r.roomType ∈ f.roomTypes) ∧
        (f.roomTypes = [] → f.spaces ≠ [] → ∃ s ∈ f.spaces, s ∈ r.spaces) := by
  unfold incl
  have hs := superseded_iff finder r
  split
  · rename_i h
    simp only [Bool.false_eq_true, false_iff, not_and]
    intro hb; exact absurd (hs.1 h) hb.notOld
  rename_i h1
  have h1 : ¬ Superseded finder r := fun h => h1 (hs.2 h)
  split
  · rename_i h
    simp only [Bool.false_eq_true, false_iff, not_and]
    intro hb
    have := (flag_iff _ _).2 hb.enc
    rw [this] at h; cases h
  rename_i h2
  have h2 := (flag_iff _ _).1 (Bool.not_eq_true _ ▸ h2)
  split
  · rename_i h
    simp only [Bool.false_eq_true, false_iff, not_and]
    intro hb
    have : flagRejects f.isTombstoned r.upgraded.isSome = false := by
      rw [flag_iff]
      intro b hb'
      have := hb.tomb b hb'
      cases hu : r.upgraded <;> cases b <;> simp_all
    rw [this] at h; cases h
  rename_i h3
  have h3 := (flag_iff _ _).1 (Bool.not_eq_true _ ▸ h3)
  split
  · rename_i h
    simp only [Bool.false_eq_true, false_iff, not_and]
    intro hb
    have := (flag_iff _ _).2 hb.dm
    rw [this] at h; cases h
  rename_i h4
  have h4 := (flag_iff _ _).1 (Bool.not_eq_true _ ▸ h4)
  split
  · rename_i h
    simp only [Bool.false_eq_true, false_iff, not_and]
    intro hb
    have := (flag_iff _ _).2 hb.inv
    rw [this] at h; cases h
  rename_i h5
  have h5 := (flag_iff _ _).1 (Bool.not_eq_true _ ▸ h5)
  split
  · rename_i h
    simp only [Bool.false_eq_true, false_iff, not_and]
    intro hb
    exact absurd ((contains_iff _ _).2 (hb.name h.1)) h.2
  rename_i h6
  split
  · rename_i h
    simp only [Bool.false_eq_true, false_iff, not_and]
    intro hb
    obtain ⟨t, ht, ht'⟩ := (anyIn_iff _ _).1 h.2
    exact absurd ht' (hb.notTags t ht)
  rename_i h7
  split
  · rename_i h
    simp only [Bool.false_eq_true, false_iff, not_and]
    intro hb
    have hne : f.tags ≠ [] := by intro e; rw [e] at h; simp at h
    exact absurd ((anyIn_iff _ _).2 (hb.tags hne)) h.2
  rename_i h8
  split
  · rename_i h
    simp only [Bool.false_eq_true, false_iff, not_and]
    intro hb
    exact absurd ((nullable_iff _ _).1 h) hb.notTypes
  rename_i h9
  have hB : Basic lower finder f r := by
    refine ⟨h1, h2, ?_, h4, h5, ?_, ?_, ?_, ?_⟩
    · intro b hb
      have := h3 b hb
      cases hu : r.upgraded <;> cases b <;> simp_all
    · intro hn
      apply Classical.byContradiction
      intro hc
      exact h6 ⟨hn, fun hh => hc ((contains_iff _ _).1 hh)⟩
    · intro t ht ht'
      apply h7
      exact ⟨List.length_pos_of_mem ht, (anyIn_iff _ _).2 ⟨t, ht, ht'⟩⟩
    · intro hne
      apply Classical.byContradiction
      intro hc
      exact h8 ⟨List.length_pos_iff.2 hne, fun hh => hc ((anyIn_iff _ _).1 hh)⟩
    · intro hm; exact h9 ((nullable_iff _ _).2 hm)
  split
  · rename_i h
    have hne := List.length_pos_iff.1 h
    rw [nullable_iff]
    exact ⟨fun hm => ⟨hB, fun _ => hm, fun e => absurd e hne⟩, fun hh => hh.2.1 hne⟩
  rename_i h10
  have hnil : f.roomTypes = [] := by
    apply Classical.byContradiction
    intro hc; exact h10 (List.length_pos_iff.2 hc)
  split
  · rename_i h
    have hne := List.length_pos_iff.1 h
    rw [anyIn_iff]
    exact ⟨fun hm => ⟨hB, fun e => absurd hnil e, fun _ _ => hm⟩, fun hh => hh.2.2 hnil hne⟩
  rename_i h11
  have hnil2 : f.spaces = [] := by
    apply Classical.byContradiction
    intro hc; exact h11 (List.length_pos_iff.2 hc)
  exact ⟨fun _ => ⟨hB, fun e => absurd hnil e, fun _ e => absurd hnil2 e⟩, fun _ => rfl⟩

/-- C10, partial: for filters that do not combine room types with spaces, a room
is included iff it matches.  Missing: filters with both, for which the code
ignores the spaces (`C10_violated`). -/
theorem C10_include_partial (lower : String → String) (finder : String → Option Room) (f : Filter) (r : Room)
    (h : f.roomTypes = [] ∨ f.spaces = []) :
    incl lower finder f r = true ↔ Matches lower finder f r := by
  rw [C10_exact]
  constructor
  · rintro ⟨h1, h2, h3⟩
    refine ⟨h1, h2, fun hs => ?_⟩
    rcases h with h | h
    · exact h3 h hs
    · exact absurd h hs
  · rintro ⟨h1, h2, h3⟩
    exact ⟨h1, h2, fun _ => h3⟩

/-- No filter misses a matching room. -/
theorem C10_complete (lower : String → String) (finder : String → Option Room) (f : Filter) (r : Room)
    (h : Matches lower finder f r) : incl lower finder f r = true :=
  (C10_exact lower finder f r).2 ⟨h.basic, h.types, fun _ => h.spaces⟩

/-- C10 is violated when a filter has both `room_types` and `spaces`: a room
outside the spaces is included. -/
theorem C10_violated : ∃ (f : Filter) (r : Room), incl id (fun _ => none) f r = true ∧
    ¬ Matches id (fun _ => none) f r := by
  refine ⟨{ spaces := ["!space"], roomTypes := [none] },
    ⟨none, false, false, false, false, "", none, [], []⟩, by decide, ?_⟩
  intro h
  obtain ⟨s, _, hs⟩ := h.spaces (by simp)
  cases hs

/-- The hypotheses are met by a filter using every other clause. -/
example :
    let f : Filter := { spaces := ["!s"], isDM := some false, isEncrypted := some true, isInvite := some false,
                        isTombstoned := some true, notRoomTypes := [some "m.space"], nameLike := "ell",
                        tags := ["u.fav"], notTags := ["u.low"] }
    let r : Room := ⟨some "!next", true, false, false, false, "Hello", none, ["u.fav"], ["!s"]⟩
    incl id (fun _ => some ⟨none, false, false, true, false, "", none, [], []⟩) f r = true ∧
    incl id (fun _ => some ⟨none, false, false, false, false, "", none, [], []⟩) f r = false := by
  decide +kernel

end Verif.Filters
