import Verif.Util
/-!
# Model of `sync3/sort.go`

`sort.SliceStable` is modelled by a stable insertion sort (`Util.isort`); the
standard library's algorithm gives the same result whenever the comparison is a
strict weak order, which is proved.  Go compares strings bytewise, which for
UTF-8 is the code-point order used here.  `finder.ReadOnlyRoom` is a total
function: rooms of a list are always known (proved in `ListsProps`).
-/
namespace Verif.SortableRooms
open Verif.Util

/-- The metadata the comparators read: canonicalised name, the timestamp
returned by `GetLastInterestedEventTimestamp(listKey)`, counts, encryption. -/
structure Meta where
  name : String
  ts : Nat
  highlight : Int
  notif : Int
  encrypted : Bool
  deriving DecidableEq, Repr

abbrev Cmp := Meta → Meta → Int

/-- `comparatorSortByName`, `sync3/sort.go:137-146`. -/
def cmpName : Cmp := fun a b => if a.name = b.name then 0 else if a.name < b.name then 1 else -1

/-- `comparatorSortByRecency`, `sync3/sort.go:148-159`. -/
def cmpRecency : Cmp := fun a b => if a.ts = b.ts then 0 else if a.ts > b.ts then 1 else -1

/-- `comparatorSortByHighlightCount`, `sync3/sort.go:161-170`. -/
def cmpHighlight : Cmp := fun a b =>
  if a.highlight = b.highlight then 0 else if a.highlight > b.highlight then 1 else -1

/-- `comparatorSortByNotificationLevel`, `sync3/sort.go:172-203`. -/
def cmpLevel : Cmp := fun a b =>
  if a.highlight > 0 ∧ b.highlight > 0 then 0
  else if a.highlight > 0 then 1
  else if b.highlight > 0 then -1
  else if a.notif > 0 ∧ b.notif > 0 then
    if a.encrypted ∧ ¬ b.encrypted then 1
    else if b.encrypted ∧ ¬ a.encrypted then -1
    else 0
  else if a.notif > 0 then 1
  else if b.notif > 0 then -1
  else 0

/-- `comparatorSortByNotificationCount`, `sync3/sort.go:205-214`. -/
def cmpNotif : Cmp := fun a b => if a.notif = b.notif then 0 else if a.notif > b.notif then 1 else -1

/-- The `switch` in `Sort`, `sync3/sort.go:94-109`. -/
def cmpOf (s : String) : Option Cmp :=
  if s = "by_highlight_count" then some cmpHighlight
  else if s = "by_notification_count" then some cmpNotif
  else if s = "by_name" then some cmpName
  else if s = "by_recency" then some cmpRecency
  else if s = "by_notification_level" then some cmpLevel
  else none

/-- All comparators, or `none` for the error, `sync3/sort.go:92-109`. -/
def cmpsOf : List String → Option (List Cmp)
  | [] => some []
  | s :: ss => do
    let c ← cmpOf s
    let cs ← cmpsOf ss
    pure (c :: cs)

/-- The `less` function, `sync3/sort.go:110-122`. -/
def less : List Cmp → Meta → Meta → Bool
  | [], _, _ => false
  | c :: cs, a, b => if c a b = 1 then true else if c a b = -1 then false else less cs a b

/-- Reordering of the room IDs by `Sort`, `sync3/sort.go:110-122`. -/
def sortIDs (cs : List Cmp) (finder : String → Meta) (ids : List String) : List String :=
  isort (fun a b => !less cs (finder b) (finder a)) ids

/-- `SortableRooms`, `sync3/sort.go:16-21`. -/
structure State where
  ids : List String
  idx : String → Option Nat

/-- `NewSortableRooms`, `sync3/sort.go:23-30`. -/
def new (rooms : List String) : State := ⟨rooms, fun _ => none⟩

/-- `IndexOf`, `sync3/sort.go:32-35`. -/
def indexOf (s : State) (room : String) : Option Nat := s.idx room

/-- `m[ids[i]] = i` for `i` from `n`, as in `sync3/sort.go:71-73,123-125`. -/
def reindex (m : String → Option Nat) : Nat → List String → (String → Option Nat)
  | _, [] => m
  | n, r :: rs => reindex (fun x => if x = r then some n else m x) (n + 1) rs

/-- `Add`, `sync3/sort.go:46-54`. -/
def add (s : State) (room : String) : State × Bool :=
  match s.idx room with
  | some _ => (s, false)
  | none => (⟨s.ids ++ [room], fun x => if x = room then some s.ids.length else s.idx x⟩, true)

/-- `Remove`, `sync3/sort.go:62-75`; the result is the index or -1.  An index
outside the slice would panic (`none`). -/
def remove (s : State) (room : String) : Option (State × Int) :=
  match s.idx room with
  | none => some (s, -1)
  | some i =>
    if i < s.ids.length then
      let ids := s.ids.take i ++ s.ids.drop (i + 1)
      let m := fun x => if x = room then none else s.idx x
      some (⟨ids, reindex m i (ids.drop i)⟩, i)
    else none

/-- `Sort`, `sync3/sort.go:89-127`; `none` is the error, which leaves the list
as it was.  (`Assert` on an empty `sortBy` only logs.) -/
def sort (s : State) (finder : String → Meta) (sortBy : List String) : Option State :=
  match cmpsOf sortBy with
  | none => none
  | some cs =>
    let ids := sortIDs cs finder s.ids
    some ⟨ids, reindex s.idx 0 ids⟩

/-- Operations on a list; the room metadata may be different at each sort. -/
inductive Op
  | add (room : String)
  | remove (room : String)
  | sort (finder : String → Meta) (sortBy : List String)

def step (s : State) : Op → Option State
  | .add r => some (add s r).1
  | .remove r => (remove s r).map (·.1)
  | .sort f by_ => some ((sort s f by_).getD s)

/-- Run operations; `none` if one panics. -/
def run (s : State) : List Op → Option State
  | [] => some s
  | o :: os => (step s o).bind fun s' => run s' os

end Verif.SortableRooms
