/-!
# Model of `RequestFilters.Include` (`sync3/request.go:488-566`)

`strings.ToLower` is a parameter `lower`, since nothing depends on how case is
folded.  The calculated room name (`internal.CalculateRoomName`, modelled in
`RoomName`) is a field of the room.  Nullable strings are `Option String`.
-/
namespace Verif.Filters

/-- The fields of `RoomConnMetadata` that filters read, `sync3/room.go:31-57`,
`internal/roomname.go:15-47`, `sync3/caches/user.go:41-68`.  `name` is the
result of `CalculateRoomName(_, 5)`; tags and spaces are the keys of their maps. -/
structure Room where
  upgraded : Option String
  encrypted : Bool
  isDM : Bool
  isInvite : Bool
  hasLeft : Bool
  name : String
  roomType : Option String
  tags : List String
  spaces : List String
  deriving DecidableEq, Repr

/-- `RequestFilters`, `sync3/request.go:488-501`. -/
structure Filter where
  spaces : List String := []
  isDM : Option Bool := none
  isEncrypted : Option Bool := none
  isInvite : Option Bool := none
  isTombstoned : Option Bool := none
  roomTypes : List (Option String) := []
  notRoomTypes : List (Option String) := []
  nameLike : String := ""
  tags : List String := []
  notTags : List String := []
  deriving DecidableEq, Repr

/-- `strings.HasPrefix` on character lists (used by `contains`). -/
def hasPrefix : List Char → List Char → Bool
  | [], _ => true
  | _ :: _, [] => false
  | c :: cs, d :: ds => c == d && hasPrefix cs ds

/-- `strings.Contains(s, sub)`: a prefix of some suffix. -/
def containsL (sub : List Char) : List Char → Bool
  | [] => hasPrefix sub []
  | d :: ds => hasPrefix sub (d :: ds) || containsL sub ds

/-- `strings.Contains(s, sub)`. -/
def contains (s sub : String) : Bool := containsL sub.toList s.toList

/-- `nullableStringExists`, `sync3/request.go:679-695`. -/
def nullableStringExists : List (Option String) → Option String → Bool
  | [], _ => false
  | a :: as, input =>
    match input with
    | none => if a = none then true else nullableStringExists as input
    | some s => if a = some s then true else nullableStringExists as input

/-- `if flag != nil && *flag != v { return false }`: does the flag reject? -/
def flagRejects (flag : Option Bool) (v : Bool) : Bool :=
  match flag with
  | none => false
  | some b => b != v

/-- `for _, t := range ts { if _, ok := m[t]; ok { ... } }`, used at
`sync3/request.go:530-545,556-562`. -/
def anyIn (ts m : List String) : Bool :=
  match ts with
  | [] => false
  | t :: ts => if m.contains t then true else anyIn ts m

/-- The old-room test at the start of `Include`, `sync3/request.go:504-512`;
`finder` is `RoomFinder.ReadOnlyRoom`. -/
def superseded (finder : String → Option Room) (r : Room) : Bool :=
  match r.upgraded with
  | none => false
  | some next =>
    match finder next with
    | none => false
    | some n => !n.hasLeft && !n.isInvite

/-- `Include`, `sync3/request.go:503-566`. -/
def incl (lower : String → String) (finder : String → Option Room) (f : Filter) (r : Room) : Bool :=
  if superseded finder r then false
  else if flagRejects f.isEncrypted r.encrypted then false
  else if flagRejects f.isTombstoned r.upgraded.isSome then false
  else if flagRejects f.isDM r.isDM then false
  else if flagRejects f.isInvite r.isInvite then false
  else if f.nameLike ≠ "" ∧ ¬ contains (lower r.name) (lower f.nameLike) then false
  else if f.notTags.length > 0 ∧ anyIn f.notTags r.tags then false
  else if f.tags.length > 0 ∧ ¬ anyIn f.tags r.tags then false
  else if nullableStringExists f.notRoomTypes r.roomType then false
  else if f.roomTypes.length > 0 then nullableStringExists f.roomTypes r.roomType
  else if f.spaces.length > 0 then anyIn f.spaces r.spaces
  else true

end Verif.Filters
