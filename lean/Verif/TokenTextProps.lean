import Verif.TokenText
/-!
# Properties of stored access tokens (C108)
-/
namespace Verif.TokenText

theorem undigit_digit : ∀ n : Fin 16, undigit (digit n) = some n := by decide +kernel

theorem digit_ne_space : ∀ n : Fin 16, digit n ≠ ' ' := by decide +kernel

theorem decode_encode (b : Bytes) : decode (encode b) = some b := by
  induction b with
  | nil => rfl
  | cons x b ih =>
    simp only [encode, decode, undigit_digit, ih, Option.some.injEq, List.cons.injEq, and_true]
    apply Fin.ext
    show x.val / 16 * 16 + x.val % 16 = x.val
    omega

theorem encode_no_space (b : Bytes) : ' ' ∉ encode b := by
  induction b with
  | nil => simp [encode]
  | cons x b ih =>
    simp only [encode, List.mem_cons, not_or]
    exact ⟨(digit_ne_space _).symm, (digit_ne_space _).symm, ih⟩

theorem split_ne_nil (s : List Char) : split s ≠ [] := by
  cases s with
  | nil => simp [split]
  | cons c s =>
    unfold split
    split
    · simp
    · split <;> simp

theorem split_no_space {s : List Char} (h : ' ' ∉ s) : split s = [s] := by
  induction s with
  | nil => rfl
  | cons c s ih =>
    simp only [List.mem_cons, not_or] at h
    unfold split
    rw [if_neg (fun h' => h.1 h'.symm), ih h.2]

theorem split_append {s r : List Char} (h : ' ' ∉ s) : split (s ++ ' ' :: r) = s :: split r := by
  induction s with
  | nil => simp [split]
  | cons c s ih =>
    simp only [List.mem_cons, not_or] at h
    rw [List.cons_append]
    rw [show split (c :: (s ++ ' ' :: r)) = if c = ' ' then [] :: split (s ++ ' ' :: r)
      else match split (s ++ ' ' :: r) with
        | [] => [[c]]
        | s :: ss => (c :: s) :: ss from rfl]
    rw [if_neg (fun h' => h.1 h'.symm), ih h.2]

/-- Each text is a part without spaces, or such a part, a space and a text. -/
theorem text_cases (s : List Char) : ' ' ∉ s ∨ ∃ a r, s = a ++ ' ' :: r ∧ ' ' ∉ a := by
  induction s with
  | nil => left; simp
  | cons c s ih =>
    by_cases hc : c = ' '
    · exact Or.inr ⟨[], s, by simp [hc], by simp⟩
    · rcases ih with h | ⟨a, r, h1, h2⟩
      · left; simp only [List.mem_cons, not_or]; exact ⟨fun h' => hc h'.symm, h⟩
      · right; exact ⟨c :: a, r, by simp [h1], by simp only [List.mem_cons, not_or]; exact ⟨fun h' => hc h'.symm, h2⟩⟩

/-! ### Specification -/

/-- What the text says: the first two of its parts, which no space is in. -/
def Parts (text nonce : List Char) (enc : Option (List Char)) : Prop :=
  ' ' ∉ nonce ∧
  match enc with
  | none => text = nonce
  | some e => ' ' ∉ e ∧ (text = nonce ++ ' ' :: e ∨ ∃ r, text = nonce ++ ' ' :: (e ++ ' ' :: r))

/-- The first parts. -/
def Starts (l : List (List Char)) (nonce : List Char) : Option (List Char) → Prop
  | none => l = [nonce]
  | some e => ∃ r, l = nonce :: e :: r

theorem parts_split {text nonce : List Char} {enc : Option (List Char)} (h : Parts text nonce enc) :
    Starts (split text) nonce enc := by
  cases enc with
  | none => obtain ⟨h1, h2⟩ := h; have h2 : text = nonce := h2; subst h2; exact split_no_space h1
  | some e =>
    obtain ⟨h1, h2, h3 | ⟨r, h3⟩⟩ := h
    · exact ⟨[], by rw [h3, split_append h1, split_no_space h2]⟩
    · exact ⟨split r, by rw [h3, split_append h1, split_append h2]⟩

theorem parts_exist (text : List Char) : ∃ nonce enc, Parts text nonce enc := by
  rcases text_cases text with h | ⟨a, r, h1, h2⟩
  · exact ⟨text, none, h, rfl⟩
  · rcases text_cases r with h | ⟨b, r', h3, h4⟩
    · exact ⟨a, some r, h2, h, Or.inl h1⟩
    · exact ⟨a, some b, h2, h4, Or.inr ⟨r', by rw [h1, h3]⟩⟩

/-- C108: what is stored can be read back, with the same key, whatever the token and the nonce are. -/
theorem C108_roundtrip (C : Cipher) (k : C.Key) (nonce token : Bytes) (hn : nonce.length = C.nonceSize) :
    decrypt C k (encrypt C k nonce token) = .ok token := by
  unfold decrypt encrypt
  rw [split_append (encode_no_space _), split_no_space (encode_no_space _)]
  simp only [decode_encode, hn, if_true, C.open_seal]

/-- C108: with another key the outcome is what the cipher says: never a panic, and an error if the cipher refuses. -/
theorem C108_other_key (C : Cipher) (k k' : C.Key) (nonce token : Bytes) (hn : nonce.length = C.nonceSize) :
    decrypt C k' (encrypt C k nonce token) ≠ .panic ∧
    (C.opn k' nonce (C.sealed k nonce token) = none → decrypt C k' (encrypt C k nonce token) = .err) := by
  have : decrypt C k' (encrypt C k nonce token) =
      match C.opn k' nonce (C.sealed k nonce token) with | some t => .ok t | none => .err := by
    unfold decrypt encrypt
    rw [split_append (encode_no_space _), split_no_space (encode_no_space _)]
    simp only [decode_encode, hn, if_true]
    rfl
  rw [this]
  constructor
  · cases C.opn k' nonce (C.sealed k nonce token) <;> simp
  · intro h; rw [h]

/-- Two stored texts of the same key that are equal are of the same token: nothing is confused. -/
theorem C108_injective (C : Cipher) (k : C.Key) (n n' t t' : Bytes) (h : encrypt C k n t = encrypt C k n' t') : n = n' ∧ t = t' := by
  have hs : split (encrypt C k n t) = split (encrypt C k n' t') := by rw [h]
  unfold encrypt at hs
  rw [split_append (encode_no_space _), split_no_space (encode_no_space _), split_append (encode_no_space _),
    split_no_space (encode_no_space _)] at hs
  simp only [List.cons.injEq, and_true] at hs
  have h1 : some n = some n' := by rw [← decode_encode, ← decode_encode, hs.1]
  have h2 : some (C.sealed k n t) = some (C.sealed k n' t') := by rw [← decode_encode, ← decode_encode, hs.2]
  simp only [Option.some.injEq] at h1 h2
  refine ⟨h1, ?_⟩
  have h3 := C.open_seal k n t
  rw [h2, h1, C.open_seal] at h3
  simpa using h3.symm

/-- The outcome for the two parts. -/
def result (C : Cipher) (k : C.Key) (a : List Char) (o : Option (List Char)) : Res :=
  match decode a with
  | none => .err
  | some n =>
    match o with
    | none => .panic
    | some e =>
      match decode e with
      | none => .err
      | some c =>
        if n.length = C.nonceSize then
          match C.opn k n c with
          | some t => .ok t
          | none => .err
        else .panic

theorem decrypt_parts (C : Cipher) (k : C.Key) {text a : List Char} {o : Option (List Char)} (hp : Parts text a o) :
    decrypt C k text = result C k a o := by
  have hs := parts_split hp
  unfold decrypt
  cases o with
  | none => simp only [Starts] at hs; rw [hs]; rfl
  | some e => simp only [Starts] at hs; obtain ⟨r, hs⟩ := hs; rw [hs]; rfl

/-- Small letters for the digits. -/
def lower (c : Char) : Char := if 65 ≤ c.toNat ∧ c.toNat ≤ 70 then Char.ofNat (c.toNat + 32) else c

theorem undigit_iff (c : Char) (n : Fin 16) : undigit c = some n ↔ lower c = digit n := by
  by_cases hc : c.toNat < 128
  · have all : ∀ m : Fin 128, ∀ n : Fin 16, undigit (Char.ofNat m.val) = some n ↔ lower (Char.ofNat m.val) = digit n := by
      decide +kernel
    have := all ⟨c.toNat, hc⟩ n
    simpa only [Char.ofNat_toNat] using this
  · have h1 : undigit c = none := by
      unfold undigit
      rw [dif_neg (by omega), dif_neg (by omega), dif_neg (by omega)]
    have h2 : lower c = c := by unfold lower; rw [if_neg (by omega)]
    have h3 : ∀ n : Fin 16, (digit n).toNat < 128 := by decide +kernel
    rw [h1, h2]
    constructor
    · intro h; cases h
    · intro h; rw [h] at hc; exact absurd (h3 n) hc

/-- What is valid hex: exactly what is the encoding of bytes, up to capital letters. -/
theorem C108_hex (text : List Char) (b : Bytes) : decode text = some b ↔ text.map lower = encode b := by
  induction b generalizing text with
  | nil =>
    simp only [encode, List.map_eq_nil_iff]
    constructor
    · intro h
      match text with
      | [] => rfl
      | [_] => simp [decode] at h
      | x :: y :: cs =>
        simp only [decode] at h
        split at h <;> simp at h
    · rintro rfl; rfl
  | cons v b ih =>
    match text with
    | [] => simp [decode, encode]
    | [_] => simp [decode, encode]
    | x :: y :: cs =>
      simp only [encode, List.map_cons, List.cons.injEq, ← undigit_iff, ← ih]
      simp only [decode]
      cases hx : undigit x with
      | none => simp
      | some p =>
        cases hy : undigit y with
        | none => simp
        | some q =>
          cases hr : decode cs with
          | none => simp
          | some r =>
            simp only [Option.some.injEq, List.cons.injEq]
            rw [← and_assoc]
            refine and_congr_left fun _ => ?_
            constructor
            · rintro rfl
              exact ⟨Fin.ext (show p.val = (p.val * 16 + q.val) / 16 by omega), Fin.ext (show q.val = (p.val * 16 + q.val) % 16 by omega)⟩
            · rintro ⟨h1, h2⟩
              have h1 := congrArg Fin.val h1
              have h2 := congrArg Fin.val h2
              simp only at h1 h2
              exact Fin.ext (show p.val * 16 + q.val = v.val by omega)

/-- C108, exactly: the outcome for any text in the database. -/
theorem C108_exact (C : Cipher) (k : C.Key) (text : List Char) :
    (∀ t, decrypt C k text = .ok t ↔
      ∃ a e n c, Parts text a (some e) ∧ a.map lower = encode n ∧ e.map lower = encode c ∧ n.length = C.nonceSize ∧
        C.opn k n c = some t) ∧
    (decrypt C k text = .panic ↔
      ∃ a n, a.map lower = encode n ∧
        (Parts text a none ∨ ∃ e c, Parts text a (some e) ∧ e.map lower = encode c ∧ n.length ≠ C.nonceSize)) := by
  simp only [← C108_hex]
  have uniq : ∀ a o a' o', Parts text a o → Parts text a' o' → a = a' ∧ o = o' := by
    intro a o a' o' h h'
    have h1 := parts_split h
    have h2 := parts_split h'
    cases o with
    | none =>
      cases o' with
      | none => simp only [Starts] at h1 h2; rw [h1] at h2; simp only [List.cons.injEq, and_true] at h2; exact ⟨h2, rfl⟩
      | some e' => simp only [Starts] at h1 h2; obtain ⟨r, h2⟩ := h2; rw [h1] at h2; simp at h2
    | some e =>
      cases o' with
      | none => simp only [Starts] at h1 h2; obtain ⟨r, h1⟩ := h1; rw [h1] at h2; simp at h2
      | some e' =>
        simp only [Starts] at h1 h2; obtain ⟨r, h1⟩ := h1; obtain ⟨r', h2⟩ := h2
        rw [h1] at h2; simp only [List.cons.injEq] at h2
        exact ⟨h2.1, by rw [h2.2.1]⟩
  obtain ⟨a, o, hp⟩ := parts_exist text
  have hs := parts_split hp
  have red := decrypt_parts C k hp
  unfold result at red
  constructor
  · intro t
    constructor
    · intro h
      rw [red] at h
      cases ha : decode a with
      | none => rw [ha] at h; cases h
      | some n =>
        rw [ha] at h
        cases o with
        | none => cases h
        | some e =>
          cases he : decode e with
          | none => simp only [he] at h; cases h
          | some c =>
            simp only [he] at h
            split at h
            · rename_i hn
              cases ho : C.opn k n c with
              | none => rw [ho] at h; cases h
              | some t' =>
                rw [ho] at h
                cases h
                exact ⟨a, e, n, c, hp, ha, he, hn, ho⟩
            · cases h
    · rintro ⟨a', e, n, c, h1, h2, h3, h4, h5⟩
      obtain ⟨rfl, rfl⟩ := uniq _ _ _ _ hp h1
      rw [red]
      simp only [h2, h3, h4, if_true, h5]
  · constructor
    · intro h
      rw [red] at h
      cases ha : decode a with
      | none => rw [ha] at h; cases h
      | some n =>
        rw [ha] at h
        cases o with
        | none => exact ⟨a, n, ha, Or.inl hp⟩
        | some e =>
          cases he : decode e with
          | none => simp only [he] at h; cases h
          | some c =>
            simp only [he] at h
            split at h
            · cases ho : C.opn k n c <;> rw [ho] at h <;> cases h
            · rename_i hn
              exact ⟨a, n, ha, Or.inr ⟨e, c, hp, he, hn⟩⟩
    · rintro ⟨a', n, h1, h2 | ⟨e, c, h2, h3, h4⟩⟩
      · obtain ⟨rfl, rfl⟩ := uniq _ _ _ _ hp h2
        rw [red]; simp only [h1]
      · obtain ⟨rfl, rfl⟩ := uniq _ _ _ _ hp h2
        rw [red]; simp only [h1, h3, if_neg h4]

/-! ### Where it fails, and cases -/

/-- A toy cipher, which refuses other keys. -/
def toy : Cipher where
  Key := Fin 256
  nonceSize := 1
  sealed k n m := k :: (n ++ m)
  opn k n c := match c with
    | [] => none
    | k' :: r => if k = k' ∧ n <+: r then some (r.drop n.length) else none
  open_seal k n m := by simp

def key (n : Fin 256) : toy.Key := n

/-- The code violates the property: a stored text that was cut off before the space, or within the nonce, makes the proxy panic
instead of skipping the device. -/
theorem C108_violated_panic :
    decrypt toy (key 1) ['0', '2'] = .panic ∧ decrypt toy (key 1) [] = .panic ∧ decrypt toy (key 1) (' ' :: encode (toy.sealed (key 1) [2] [3])) = .panic := by
  decide +kernel

/-- Case: a token is read back, and refused with another key. -/
example : decrypt toy (key 1) (encrypt toy (key 1) [200] [104, 105]) = .ok [104, 105] ∧
    encrypt toy (key 1) [200] [104, 105] = ['c', '8', ' ', '0', '1', 'c', '8', '6', '8', '6', '9'] ∧
    decrypt toy (key 2) (encrypt toy (key 1) [200] [104, 105]) = .err := by decide +kernel

/-- Case: the parts of a text. -/
example : Parts ['0', '2', ' ', 'a', 'b', ' ', 'x'] ['0', '2'] (some ['a', 'b']) :=
  ⟨by decide, by decide, Or.inr ⟨['x'], rfl⟩⟩

end Verif.TokenText
