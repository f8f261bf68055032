import Verif.Assoc
/-!
Room names and avatars: internal/roomname.go 103-254.

A panic (slice bounds, index) is `none`. `strings.Join` is `String.intercalate`, `%d` of a Go `int` is `toString`;
integer overflow is not modelled. Go maps iterate in any order: `Disambiguate` is a relation.
-/
namespace Verif.RoomName
open Verif

/-- internal/roomname.go 148-152. -/
structure Hero where
  id : String
  name : String := ""
  avatar : String := ""
deriving DecidableEq, Repr

/-- internal/roomname.go 31-53 `RoomMetadata`: the fields read here. -/
structure Meta where
  roomID : String
  heroes : List Hero := []
  nameEvent : String := ""
  avatarEvent : String := ""
  alias : String := ""
  joinCount : Int := 0
  inviteCount : Int := 0
deriving DecidableEq, Repr

/-- internal/roomname.go 119-132 `sameHeroNames`. -/
def sameHeroNames : List Hero → List Hero → Bool
  | [], [] => true
  | a :: l, b :: l' => decide (a.id = b.id) && decide (a.name = b.name) && sameHeroNames l l'
  | _, _ => false

/-- internal/roomname.go 103-110 `SameRoomName`. -/
def sameRoomName (m o : Meta) : Bool :=
  decide (m.roomID = o.roomID) && decide (m.nameEvent = o.nameEvent) && decide (m.alias = o.alias) &&
  decide (m.joinCount = o.joinCount) && decide (m.inviteCount = o.inviteCount) && sameHeroNames m.heroes o.heroes

/-- internal/roomname.go 135-142 `RemoveHero`. -/
def removeHero : List Hero → String → List Hero
  | [], _ => []
  | h :: l, u => if h.id = u then l else h :: removeHero l u

/-- internal/roomname.go 216-219 and 231-234. -/
def displayName (h : Hero) : String := if h.name = "" then h.id else h.name

/-- internal/roomname.go 214-221: the map `displayNames`, from names to positions. -/
def displayNames (heroes : List Hero) : List (String × List Nat) :=
  (heroes.zipIdx).foldl (fun m e =>
    match Assoc.get m (displayName e.1) with
    | none => Assoc.set m (displayName e.1) [e.2]
    | some l => Assoc.set m (displayName e.1) (l ++ [e.2])) []

/-- `out[i] = v`; panics if out of bounds. -/
def write (out : List String) (i : Nat) (v : String) : Option (List String) := if i < out.length then some (out.set i v) else none

/-- internal/roomname.go 229-236: the loop over the positions of a name. -/
def fillMany (heroes : List Hero) : List Nat → List String → Option (List String)
  | [], out => some out
  | i :: is, out =>
    match heroes[i]? with
    | none => none
    | some h => (write out i (displayName h ++ " (" ++ h.id ++ ")")).bind (fillMany heroes is)

/-- internal/roomname.go 223-237: the loop over the map. -/
def fill (heroes : List Hero) : List (String × List Nat) → List String → Option (List String)
  | [], out => some out
  | (name, [i]) :: es, out => (write out i name).bind (fill heroes es)
  | (_, is) :: es, out => (fillMany heroes is out).bind (fill heroes es)

/-- internal/roomname.go 213-239 `disambiguate`. -/
def Disambiguate (heroes : List Hero) (res : Option (List String)) : Prop :=
  ∃ es, es.Perm (displayNames heroes) ∧ res = fill heroes es (List.replicate heroes.length "")

/-- `l[:n]`; panics if out of bounds. -/
def slice (l : List String) (n : Int) : Option (List String) :=
  if 0 ≤ n ∧ n ≤ l.length then some (l.take n.toNat) else none

/-- `l[n]`; panics if out of bounds. -/
def index (l : List String) (n : Int) : Option String := if 0 ≤ n then l[n.toNat]? else none

def join (l : List String) : String := String.intercalate ", " l

/-- internal/roomname.go 166-211, given the result of `disambiguate`. -/
def calculated (m : Meta) (names : List String) (maxNames : Int) : Option (String × Bool) :=
  let total := m.joinCount + m.inviteCount - 1
  let isAlone := decide (total ≤ 0)
  if m.heroes.length = 0 ∧ isAlone = true then some ("Empty Room", false)
  else if (m.heroes.length : Int) ≥ total then
    if names.length = 1 then (index names 0).map (·, true)
    else do
      let front ← slice names (names.length - 1)
      let last ← index names (names.length - 1)
      let name := join front ++ " and " ++ last
      if isAlone then some ("Empty Room (was " ++ name ++ ")", true) else some (name, true)
  else do
    let n : Int := if (names.length : Int) > maxNames then maxNames else names.length
    let front ← slice names n
    let name := join front ++ " and " ++ toString (total - n) ++ " others"
    if m.joinCount + m.inviteCount > 1 then some (name, true)
    else some ("Empty Room (was " ++ name ++ ")", true)

/-- internal/roomname.go 156-211 `CalculateRoomName`. -/
def Calculate (m : Meta) (maxNames : Int) (res : Option (String × Bool)) : Prop :=
  if m.nameEvent ≠ "" then res = some (m.nameEvent, false)
  else if m.alias ≠ "" then res = some (m.alias, false)
  else ∃ names, Disambiguate m.heroes names ∧ res = names.bind (calculated m · maxNames)

/-- internal/roomname.go 246-254 `CalculateAvatar`. -/
def calculateAvatar (m : Meta) (isDM : Bool) : String :=
  if m.avatarEvent ≠ "" then m.avatarEvent
  else match m.heroes with
    | [h] => if isDM then h.avatar else ""
    | _ => ""

end Verif.RoomName
