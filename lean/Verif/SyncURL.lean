import Verif.Util
/-!
# Model of the address of a sync request

`createSyncURL` (`sync2/client.go:147-187`), with `url.QueryEscape` and the text `json.Marshal` makes of the filter. Texts are lists of
bytes, as a since token may have any bytes. Left out: the address of the homeserver, which comes before the path.
-/
namespace Verif.SyncURL

abbrev Byte := Fin 256

def bytes (s : String) : List Byte := s.toList.map fun c => Fin.ofNat 256 c.toNat

/-- Bytes that `url.QueryEscape` leaves alone: letters, digits and `-_.~`. -/
def plain (b : Byte) : Bool :=
  (decide (97 ≤ b.val) && decide (b.val ≤ 122)) || (decide (65 ≤ b.val) && decide (b.val ≤ 90)) || (decide (48 ≤ b.val) && decide (b.val ≤ 57)) ||
    decide (b = 45) || decide (b = 95) || decide (b = 46) || decide (b = 126)

/-- A hexadecimal digit, in upper case. -/
def hexDigit (n : Nat) : Byte := if n < 10 then Fin.ofNat 256 (48 + n) else Fin.ofNat 256 (55 + n)

/-- A space becomes `+`, other bytes `%XX`. -/
def escapeByte (b : Byte) : List Byte :=
  if plain b then [b] else if b = 32 then [43] else [37, hexDigit (b.val / 16), hexDigit (b.val % 16)]

/-- `url.QueryEscape`. -/
def escape (s : List Byte) : List Byte := s.flatMap escapeByte

/-- The values of the filter. -/
inductive J
  | num (n : Nat)
  | strs (l : List String)
  | obj (fields : List (String × J))

/-- The filter, `sync2/client.go:171-184`. `json.Marshal` writes the keys of a map in alphabetical order. -/
def filter (since : List Byte) (toDeviceOnly : Bool) : J :=
  let limit := if since = [] then 1 else 50
  .obj [("presence", .obj [("not_types", .strs ["*"])]),
    ("room", .obj ((if toDeviceOnly then [("rooms", .strs [])] else []) ++ [("timeline", .obj [("limit", .num limit)])]))]

mutual
/-- `json.Marshal`, for texts without characters to escape. -/
def marshal : J → List Byte
  | .num n => bytes (toString n)
  | .strs l => bytes "[" ++ (bytes ",").intercalate (l.map fun s => bytes "\"" ++ bytes s ++ bytes "\"") ++ bytes "]"
  | .obj fs => bytes "{" ++ marshalFields fs ++ bytes "}"
def marshalFields : List (String × J) → List Byte
  | [] => []
  | [(k, v)] => bytes "\"" ++ bytes k ++ bytes "\":" ++ marshal v
  | (k, v) :: fs => bytes "\"" ++ bytes k ++ bytes "\":" ++ marshal v ++ bytes "," ++ marshalFields fs
end

/-- `createSyncURL`, `sync2/client.go:147-187`, from the question mark on. -/
def query (since : List Byte) (isFirst toDeviceOnly : Bool) : List Byte :=
  bytes "?" ++ (if isFirst then bytes "timeout=0" else bytes "timeout=30000") ++
    (if since ≠ [] then bytes "&since=" ++ escape since else []) ++ bytes "&set_presence=offline" ++
    bytes "&filter=" ++ escape (marshal (filter since toDeviceOnly))

end Verif.SyncURL
