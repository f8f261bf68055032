/-!
# Model of how access tokens are stored

`encrypt` and `decrypt` of `sync2/tokens_table.go:58-103`: a stored token is the nonce in hex, a space, and the sealed token in
hex. `encoding/hex` and `strings.Split` are modelled as their documentation says; the cipher (AES-GCM) is a parameter with the
one law that opening what was sealed gives it back. A nonce of the wrong size makes `Open` panic, as in Go's `crypto/cipher`.
-/
namespace Verif.TokenText

abbrev Bytes := List (Fin 256)

/-- A cipher: `cipher.NewGCM` of a key. -/
structure Cipher where
  Key : Type
  nonceSize : Nat
  sealed : Key → Bytes → Bytes → Bytes
  opn : Key → Bytes → Bytes → Option Bytes
  open_seal : ∀ k n m, opn k n (sealed k n m) = some m

/-- A digit of `hex.EncodeToString`. -/
def digit (n : Fin 16) : Char := if n.val < 10 then Char.ofNat (48 + n.val) else Char.ofNat (87 + n.val)

/-- The value of a digit, `hex.DecodeString`: capital letters count as well. -/
def undigit (c : Char) : Option (Fin 16) :=
  if h : 48 ≤ c.toNat ∧ c.toNat ≤ 57 then some ⟨c.toNat - 48, by omega⟩
  else if h : 97 ≤ c.toNat ∧ c.toNat ≤ 102 then some ⟨c.toNat - 87, by omega⟩
  else if h : 65 ≤ c.toNat ∧ c.toNat ≤ 70 then some ⟨c.toNat - 55, by omega⟩
  else none

/-- `hex.EncodeToString` -/
def encode : Bytes → List Char
  | [] => []
  | b :: bs => digit ⟨b.val / 16, by omega⟩ :: digit ⟨b.val % 16, by omega⟩ :: encode bs

/-- `hex.DecodeString`; `none` is an error. -/
def decode : List Char → Option Bytes
  | [] => some []
  | [_] => none
  | a :: b :: cs =>
    match undigit a, undigit b, decode cs with
    | some x, some y, some r => some (⟨x.val * 16 + y.val, by omega⟩ :: r)
    | _, _, _ => none

/-- `strings.Split(s, " ")` -/
def split : List Char → List (List Char)
  | [] => [[]]
  | c :: cs =>
    if c = ' ' then [] :: split cs
    else match split cs with
      | [] => [[c]]
      | s :: ss => (c :: s) :: ss

inductive Res
  | ok (token : Bytes)
  | err
  | panic
  deriving DecidableEq

/-- `sync2/tokens_table.go:58-73`; the nonce is what `rand.Reader` gave. -/
def encrypt (C : Cipher) (k : C.Key) (nonce token : Bytes) : List Char :=
  encode nonce ++ ' ' :: encode (C.sealed k nonce token)

/-- `sync2/tokens_table.go:78-103`. `segs[0]` is always there, `segs[1]` need not be. -/
def decrypt (C : Cipher) (k : C.Key) (text : List Char) : Res :=
  match split text with
  | [] => .panic
  | nonce :: rest =>
    match decode nonce with
    | none => .err
    | some n =>
      match rest with
      | [] => .panic
      | enc :: _ =>
        match decode enc with
        | none => .err
        | some c =>
          if n.length = C.nonceSize then
            match C.opn k n c with
            | some t => .ok t
            | none => .err
          else .panic

end Verif.TokenText
