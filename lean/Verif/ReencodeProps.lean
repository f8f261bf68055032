import Verif.Reencode
/-!
# C133: re-encoding the device data keeps them
-/
namespace Verif.Reencode

variable {D : Type}

/-- The libraries decode what they have encoded, and `JSONB` does not change what a JSON text means. -/
structure Lawful (c : Codec D) : Prop where
  cbor : ∀ d, c.decCbor (c.encCbor d) = some d
  json : ∀ d, c.decJson (c.encJson d) = some d
  jsonb : ∀ b j, c.toJsonb b = some j → c.decJson (c.text j) = c.decJson b

/-- What code of before the migrations reads: JSON. -/
def oldData (c : Codec D) : Col c.Jsonb → List (Key × Option D)
  | .missing => []
  | .bytea rows => rows.map fun r => (r.1, c.decJson r.2)
  | .jsonb rows => rows.map fun r => (r.1, c.decJson (c.text r.2))

/-- What code of after the migrations reads: CBOR in a `BYTEA` column. `none` if the column has another type. -/
def newData (c : Codec D) : Col c.Jsonb → Option (List (Key × Option D))
  | .missing => some []
  | .bytea rows => some (rows.map fun r => (r.1, c.decCbor r.2))
  | .jsonb _ => none

theorem mapRows_some {A B : Type} (f : A → Option B) (rows : List (Key × A)) (out : List (Key × B)) (h : mapRows f rows = some out) :
    rows.map (fun r => (r.1, f r.2)) = out.map (fun r => (r.1, some r.2)) := by
  induction rows generalizing out with
  | nil => simp only [mapRows, Option.some.injEq] at h; subst h; rfl
  | cons r rs ih =>
    simp only [mapRows] at h
    split at h
    · next b l hb hl =>
      cases h
      simp only [List.map_cons, hb]
      rw [ih l hl]
    · cases h

theorem mapRows_read {A B E : Type} (f : A → Option B) (p : A → E) (q : B → E) (hpq : ∀ a b, f a = some b → q b = p a)
    (rows : List (Key × A)) (out : List (Key × B)) (h : mapRows f rows = some out) :
    out.map (fun r => (r.1, q r.2)) = rows.map (fun r => (r.1, p r.2)) := by
  induction rows generalizing out with
  | nil => simp only [mapRows, Option.some.injEq] at h; subst h; rfl
  | cons r rs ih =>
    simp only [mapRows] at h
    split at h
    · next b l hb hl =>
      cases h
      simp only [List.map_cons, ih l hl, hpq _ _ hb]
    · cases h

theorem mapRows_isSome {A B : Type} (f : A → Option B) (rows : List (Key × A)) :
    (mapRows f rows).isSome = true ↔ ∀ r ∈ rows, (f r.2).isSome = true := by
  induction rows with
  | nil => simp [mapRows]
  | cons r rs ih =>
    simp only [mapRows, List.mem_cons, forall_eq_or_imp]
    rw [← ih]
    cases f r.2 <;> cases mapRows f rs <;> simp

/-- **C133 (up).** A successful upgrade from JSON, in a column of either type, keeps the data of every device. -/
theorem C133_up (c : Codec D) (hc : Lawful c) (col col' : Col c.Jsonb) (h : up c col = some col') :
    newData c col' = some (oldData c col) := by
  have hj : ∀ rows col', upCbor c (.jsonb rows) = some col' → newData c col' = some (oldData c (.jsonb rows)) := by
    intro rows col' h
    simp only [upCbor] at h
    obtain ⟨out, hout, rfl⟩ := Option.map_eq_some_iff.1 h
    simp only [newData, oldData, Option.some.injEq]
    refine mapRows_read _ (fun j => c.decJson (c.text j)) c.decCbor ?_ rows out hout
    intro j b hb
    obtain ⟨d, hd, rfl⟩ := Option.map_eq_some_iff.1 hb
    rw [hc.cbor, hd]
  cases col with
  | missing => cases h; rfl
  | jsonb rows => exact hj rows col' h
  | bytea rows =>
    obtain ⟨m, hm, hcol⟩ := Option.bind_eq_some_iff.1 h
    obtain ⟨out, hout, rfl⟩ := Option.map_eq_some_iff.1 hm
    rw [hj out col' hcol]
    simp only [oldData]
    exact congrArg some (mapRows_read _ c.decJson (fun j => c.decJson (c.text j)) (fun b j => hc.jsonb b j) rows out hout)

/-- **C133 (up succeeds).** The upgrade succeeds exactly if every row can be stored as `JSONB` and read as device data. -/
theorem C133_up_iff (c : Codec D) (rows : List (Key × List Char)) (hc : Lawful c) :
    (up c (.bytea rows)).isSome = true ↔ ∀ r ∈ rows, (c.toJsonb r.2).isSome = true ∧ (c.decJson r.2).isSome = true := by
  simp only [up, upJsonb]
  constructor
  · intro h r hr
    cases hm : mapRows c.toJsonb rows with
    | none => simp [hm] at h
    | some out =>
      have h1 := (mapRows_isSome c.toJsonb rows).1 (by rw [hm]; rfl) r hr
      refine ⟨h1, ?_⟩
      simp only [hm, Option.map_some, Option.bind_some, upCbor, Option.isSome_map] at h
      have h2 := (mapRows_isSome _ out).1 h
      obtain ⟨j, hj⟩ := Option.isSome_iff_exists.1 h1
      have hmem : (r.1, some j) ∈ out.map (fun r => (r.1, some r.2)) := by
        rw [← mapRows_some _ _ _ hm]
        exact List.mem_map.2 ⟨r, hr, by rw [hj]⟩
      obtain ⟨q, hq, he⟩ := List.mem_map.1 hmem
      simp only [Prod.mk.injEq, Option.some.injEq] at he
      have := h2 q hq
      rw [he.2, Option.isSome_map, hc.jsonb _ _ hj] at this
      exact this
  · intro h
    have h1 := (mapRows_isSome c.toJsonb rows).2 fun r hr => (h r hr).1
    obtain ⟨out, hout⟩ := Option.isSome_iff_exists.1 h1
    simp only [hout, Option.map_some, Option.bind_some, upCbor, Option.isSome_map]
    refine (mapRows_isSome _ out).2 fun q hq => ?_
    have hmem : (q.1, some q.2) ∈ rows.map (fun r => (r.1, c.toJsonb r.2)) := by
      rw [mapRows_some _ _ _ hout]
      exact List.mem_map.2 ⟨q, hq, rfl⟩
    obtain ⟨r, hr, he⟩ := List.mem_map.1 hmem
    simp only [Prod.mk.injEq] at he
    rw [Option.isSome_map, hc.jsonb _ _ he.2]
    exact (h r hr).2

/-- **C133 (again).** Upgrading what was upgraded from `JSONB` changes nothing, as `upCborDeviceData` is left out then. -/
theorem C133_again (c : Codec D) (col col' : Col c.Jsonb) (h : upCbor c col = some col') : upCbor c col' = some col' := by
  cases col with
  | missing => cases h; rfl
  | bytea rows => cases h; rfl
  | jsonb rows =>
    obtain ⟨out, _, rfl⟩ := Option.map_eq_some_iff.1 h
    rfl

/-- **C133 (down to JSONB).** A successful downgrade from CBOR keeps the data. -/
theorem C133_down_cbor (c : Codec D) (hc : Lawful c) (rows : List (Key × List Char)) (col' : Col c.Jsonb)
    (h : downCbor c (.bytea rows) = some col') : some (oldData c col') = newData c (.bytea rows) := by
  obtain ⟨out, hout, rfl⟩ := Option.map_eq_some_iff.1 h
  simp only [newData, oldData, Option.some.injEq]
  refine mapRows_read _ c.decCbor (fun j => c.decJson (c.text j)) ?_ rows out hout
  intro b j hj
  obtain ⟨d, hd, hj⟩ := Option.bind_eq_some_iff.1 hj
  rw [hc.jsonb _ _ hj, hc.json, hd]

theorem byteaIn_plain (l : List Char) (h : '\\' ∉ l) : byteaIn l = some l := by
  induction l with
  | nil => rfl
  | cons ch l ih =>
    have h1 : ch ≠ '\\' := fun e => h (by simp [e])
    have h2 : '\\' ∉ l := fun e => h (List.mem_cons_of_mem _ e)
    rw [byteaIn]
    · rw [ih h2]; rfl
    all_goals (intros; first | exact h1 | (intro e; exact h1 e) | simp_all)

/-- **C133 (down to bytes).** The downgrade from `JSONB` keeps data that are written without a backslash. -/
theorem C133_down_partial (c : Codec D) (rows : List (Key × c.Jsonb)) (h : ∀ r ∈ rows, '\\' ∉ c.text r.2) :
    ∃ col', downJsonb c (.jsonb rows) = some col' ∧ oldData c col' = oldData c (.jsonb rows) := by
  have hs := (mapRows_isSome (fun j => byteaIn (c.text j)) rows).2 fun r hr => by simp only [byteaIn_plain _ (h r hr), Option.isSome_some]
  obtain ⟨out, hout⟩ := Option.isSome_iff_exists.1 hs
  refine ⟨.bytea out, by simp only [downJsonb, hout, Option.map_some], ?_⟩
  have e := mapRows_some _ _ _ hout
  have e' : rows.map (fun r => (r.1, byteaIn (c.text r.2))) = rows.map (fun r => (r.1, some (c.text r.2))) :=
    List.map_congr_left fun r hr => by rw [byteaIn_plain _ (h r hr)]
  have e2 := congrArg (List.map fun (r : Key × Option (List Char)) => (r.1, r.2.bind c.decJson)) (e.symm.trans e')
  simpa [oldData, List.map_map, Function.comp_def] using e2

/-- A codec whose JSON is a quoted text: backslashes and quotes are written with a backslash before. -/
def quote : List Char → List Char
  | [] => []
  | ch :: l => if ch = '\\' ∨ ch = '"' then '\\' :: ch :: quote l else ch :: quote l

def unquote : List Char → Option (List Char)
  | [] => some []
  | '\\' :: ch :: l => (unquote l).map (ch :: ·)
  | '\\' :: [] => none
  | ch :: l => (unquote l).map (ch :: ·)

theorem unquote_quote (l : List Char) : unquote (quote l) = some l := by
  induction l with
  | nil => rfl
  | cons ch l ih =>
    simp only [quote]
    by_cases h : ch = '\\' ∨ ch = '"'
    · rw [if_pos h]
      simp [unquote, ih]
    · rw [if_neg h]
      have h1 : ch ≠ '\\' := fun e => h (.inl e)
      rw [unquote]
      · rw [ih]; rfl
      all_goals (intros; first | exact h1 | (intro e; exact h1 e) | simp_all)

def quoted : Codec (List Char) where
  decJson := unquote
  encJson := quote
  decCbor := some
  encCbor := id
  Jsonb := List Char
  toJsonb := fun b => (unquote b).map fun _ => b
  text := id

theorem quoted_lawful : Lawful quoted := by
  refine ⟨fun d => rfl, unquote_quote, ?_⟩
  intro b j h
  obtain ⟨d, -, rfl⟩ := Option.map_eq_some_iff.1 h
  rfl

/-- Going back from `JSONB` to bytes changes data in which a backslash is quoted: the cast takes one of the two for its own. -/
theorem C133_violated_down : ∃ (c : Codec (List Char)) (_ : Lawful c) (rows : List (Key × c.Jsonb)) (col' : Col c.Jsonb),
    downJsonb c (.jsonb rows) = some col' ∧ oldData c (.jsonb rows) = [(("@u", "D"), some ['\\', 'n'])] ∧
    oldData c col' = [(("@u", "D"), some ['n'])] :=
  ⟨quoted, quoted_lawful, [(("@u", "D"), ['\\', '\\', 'n'])], .bytea [(("@u", "D"), ['\\', 'n'])], by rfl, by rfl, by rfl⟩

/-- Going back from `JSONB` to bytes fails if there is a quoted quote in the data. -/
theorem C133_violated_down_fails : ∃ (c : Codec (List Char)) (_ : Lawful c) (rows : List (Key × c.Jsonb)),
    oldData c (.jsonb rows) = [(("@u", "D"), some ['"'])] ∧ downJsonb c (.jsonb rows) = none :=
  ⟨quoted, quoted_lawful, [(("@u", "D"), ['\\', '"'])], by rfl, by rfl⟩

/-- Two devices, one with a backslash in its data. -/
example : ∃ col', up quoted (.bytea [(("@u", "D"), ['a', '\\', '\\']), (("@u", "E"), ['b'])]) = some col' ∧
    newData quoted col' = some [(("@u", "D"), some ['a', '\\']), (("@u", "E"), some ['b'])] :=
  ⟨.bytea [(("@u", "D"), ['a', '\\']), (("@u", "E"), ['b'])], by rfl, by rfl⟩

end Verif.Reencode
