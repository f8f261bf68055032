import Verif.Util
/-!
# Model of the migrations that change the encoding of the device data

`state/migrations/20230802121023_device_data_jsonb.go` (JSON in a `BYTEA` column becomes `JSONB`) and
`20230814183302_cbor_device_data.go` (`JSONB` becomes CBOR in a `BYTEA` column), up and down.

Simplified: a migration is one transaction, `none` if it fails (and changes nothing, C48); the libraries are a `Codec`.  The rows
have unique keys (`UNIQUE(user_id, device_id)`), so the order in which the Go map of them is gone through does not matter.
-/
namespace Verif.Reencode

/-- The encodings, for the data `D` of a device, as strings of bytes: `json.Unmarshal` and `json.Marshal`, `cbor.Unmarshal` and
`cbor.Marshal`, and the input (which fails for what is not JSON) and output of values of type `JSONB` in the database. -/
structure Codec (D : Type) where
  decJson : List Char → Option D
  encJson : D → List Char
  decCbor : List Char → Option D
  encCbor : D → List Char
  Jsonb : Type
  toJsonb : List Char → Option Jsonb
  text : Jsonb → List Char

/-- A user and a device. -/
abbrev Key := String × String

/-- The column `data` of `syncv3_device_data` by its type; `missing` if there is no such table. -/
inductive Col (J : Type)
  | missing
  | bytea (rows : List (Key × List Char))
  | jsonb (rows : List (Key × J))

/-- The loop over the rows, each of which may fail. -/
def mapRows {A B : Type} (f : A → Option B) : List (Key × A) → Option (List (Key × B))
  | [] => some []
  | r :: rs =>
    match f r.2, mapRows f rs with
    | some b, some l => some ((r.1, b) :: l)
    | _, _ => none

variable {D : Type}

/-- `upJSONB`, `20230802121023_device_data_jsonb.go:17-77`. -/
def upJsonb (c : Codec D) : Col c.Jsonb → Option (Col c.Jsonb)
  | .missing => some .missing
  | .jsonb rows => some (.jsonb rows)
  | .bytea rows => (mapRows c.toJsonb rows).map .jsonb

/-- `upCborDeviceData`, `20230814183302_cbor_device_data.go:20-90`. -/
def upCbor (c : Codec D) : Col c.Jsonb → Option (Col c.Jsonb)
  | .missing => some .missing
  | .bytea rows => some (.bytea rows)
  | .jsonb rows => (mapRows (fun j => (c.decJson (c.text j)).map c.encCbor) rows).map .bytea

/-- Both, in the order of their dates (`goose.Up`, `v3.go:120-125`). -/
def up (c : Codec D) (col : Col c.Jsonb) : Option (Col c.Jsonb) := (upJsonb c col).bind (upCbor c)

/-- `downCborDeviceData`, `20230814183302_cbor_device_data.go:92-141`. Without a table the query fails. -/
def downCbor (c : Codec D) : Col c.Jsonb → Option (Col c.Jsonb)
  | .missing => none
  | .bytea rows => (mapRows (fun b => (c.decCbor b).bind fun d => c.toJsonb (c.encJson d)) rows).map .jsonb
  /- the column is read as text -/
  | .jsonb rows => (mapRows (fun j => (c.decCbor (c.text j)).bind fun d => c.toJsonb (c.encJson d)) rows).map .jsonb

/-- Is this the character of an octal digit, and its value. -/
def octal (ch : Char) : Option Nat := if '0' ≤ ch ∧ ch ≤ '7' then some (ch.toNat - '0'.toNat) else none

/-- The cast of text to `BYTEA`, which reads it in the escape format: a backslash is followed by another one or by
three octal digits, else it is an error.  (Text beginning with `\x` is in the hex format; an object begins with a brace.) -/
def byteaIn : List Char → Option (List Char)
  | [] => some []
  | '\\' :: '\\' :: l => (byteaIn l).map ('\\' :: ·)
  | '\\' :: a :: b :: d :: l =>
    match octal a, octal b, octal d with
    | some x, some y, some z => if x ≤ 3 then (byteaIn l).map (Char.ofNat (x * 64 + y * 8 + z) :: ·) else none
    | _, _, _ => none
  | '\\' :: _ => none
  | ch :: l => (byteaIn l).map (ch :: ·)

/-- `downJSONB`, `20230802121023_device_data_jsonb.go:79-97`: `datab = (data::TEXT)::BYTEA`. Without a table the update fails; in a
`BYTEA` column the text is the hex form of the bytes, which is read back. -/
def downJsonb (c : Codec D) : Col c.Jsonb → Option (Col c.Jsonb)
  | .missing => none
  | .bytea rows => some (.bytea rows)
  | .jsonb rows => (mapRows (fun j => byteaIn (c.text j)) rows).map .bytea

end Verif.Reencode
