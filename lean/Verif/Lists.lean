import Verif.SortableRooms
import Verif.Filters
import Verif.ListOps
/-!
# Model of `sync3/lists.go` with the per-list processing of a live update

The room lists of one connection.  An update is `SetRoom` (`sync3/lists.go:59-153`)
followed by `resort` for every list delta (`sync3/handler/connstate_live.go:176-187,
423-459`).  A panic is `none`.

Simplifications:
* The canonicalised name is recomputed from the calculated name on every update;
  the code keeps the previous one if `SameRoomName` holds, in which case the
  calculated name is the same (`RoomName.C56_same_name`).
* `GetLastInterestedEventTimestamp` writes its fallback into the map while a list
  is being sorted (`sync3/room.go:90-107`).  Here reading does not write, and the
  write is a separate operation `touch` that can happen at any time.
* Fields that neither filters nor comparators read are left out.
-/
namespace Verif.Lists
open Verif

/-- The fields of `RoomConnMetadata` used by filters, comparators and `SetRoom`,
`sync3/room.go:31-57`.  `interested` is `LastInterestedEventTimestamps`. -/
structure Room where
  id : String
  f : Filters.Room
  highlight : Int
  notif : Int
  lastMsg : Nat
  interested : String → Option Nat

/-- `FilteredSortableRooms`, `sync3/sort.go:218-221`. -/
structure FList where
  filter : Filters.Filter
  sr : SortableRooms.State

/-- `InternalRequestLists`, `sync3/lists.go:46-49`.  `keys` are the keys of
`allRooms`; `lists` is a map with unique keys. -/
structure State where
  keys : List String := []
  all : String → Option Room := fun _ => none
  lists : List (String × FList) := []

/-- `strings.ToLower` and `strings.Trim(_, "#!():_@")`; nothing depends on them. -/
structure Strs where
  lower : String → String
  trim : String → String

variable (S : Strs)

/-- `GetLastInterestedEventTimestamp(listKey)`, `sync3/room.go:90-107`. -/
def effTs (r : Room) (key : String) : Nat := (r.interested key).getD r.lastMsg

/-- What the comparators of the list `key` read. -/
def metaOf (key : String) (r : Room) : SortableRooms.Meta :=
  ⟨S.lower (S.trim r.f.name), effTs r key, r.highlight, r.notif, r.f.encrypted⟩

/-- `ReadOnlyRoom` as used by filters. -/
def findF (all : String → Option Room) (id : String) : Option Filters.Room := (all id).map (·.f)

/-- `filter.Include(r, s)`. -/
def incl (all : String → Option Room) (f : Filters.Filter) (r : Room) : Bool :=
  Filters.incl S.lower (findF all) f r.f

/-- `ReadOnlyRoom` as used by the comparators. A missing room is a nil
dereference, excluded by the check in `sortList`. -/
def findM (all : String → Option Room) (key : String) (id : String) : SortableRooms.Meta :=
  match all id with
  | some r => metaOf S key r
  | none => ⟨"", 0, 0, 0, false⟩

/-- `list.Sort(by)`, whose error is only logged; panics if a room of the list is
not known. -/
def sortList (all : String → Option Room) (key : String) (st : SortableRooms.State) (by_ : List String) :
    Option SortableRooms.State :=
  if st.ids.all fun id => (all id).isSome then
    some ((SortableRooms.sort st (findM S all key) by_).getD st)
  else none

/-- What `resort` reads from the request's list: ranges, sort order and
`ShouldGetAllRooms()`. -/
structure Req where
  ranges : Ranges.Ranges
  sort : List String
  getAll : Bool

/-- The operation `SetRoom` finds for a list, `sync3/lists.go:121-150`. -/
def deltaOf (all : String → Option Room) (l : FList) (r : Room) : Option ListOps.LOp :=
  let alreadyExists := (l.sr.idx r.id).isSome
  let shouldExist := incl S all l.filter r && !r.f.hasLeft
  if alreadyExists then (if shouldExist then some .change else some .del)
  else if shouldExist then some .add else none

/-- `FilteredSortableRooms.Add`, `sync3/sort.go:240-246`. -/
def filteredAdd (all : String → Option Room) (l : FList) (r : Room) : SortableRooms.State :=
  if incl S all l.filter r then (SortableRooms.add l.sr r.id).1 else l.sr

/-- The effect of `CalculateListOps` on the list, `sync3/ops.go:32-78`. -/
def calcEffect (all : String → Option Room) (key : String) (req : Req) (l : FList) (r : Room) :
    ListOps.LOp → Option SortableRooms.State
  | .add => sortList S all key (filteredAdd S all l r) req.sort
  | .del =>
    match l.sr.idx r.id with
    | none => some l.sr
    | some _ => (SortableRooms.remove l.sr r.id).map (·.1)
  | .change =>
    match l.sr.idx r.id with
    | none => some l.sr
    | some _ => sortList S all key l.sr req.sort

/-- `resort`, `sync3/handler/connstate_live.go:423-459`: the effect on the list.
Computing the operations may panic, which is decided by `ListOps` (on the plain
list; the index map agrees with it for the lists considered, see `Inv`). -/
def resort (all : String → Option Room) (key : String) (req : Req) (l : FList) (r : Room) (op : ListOps.LOp) :
    Option SortableRooms.State :=
  if req.getAll then
    match op with
    | .add => some (filteredAdd S all l r)
    | .del => (SortableRooms.remove l.sr r.id).map (·.1)
    | .change => some l.sr
  else
    match ListOps.calculateListOps req.ranges
        (fun ids => ((SortableRooms.sort ⟨ids, fun _ => none⟩ (findM S all key) req.sort).map (·.ids)).getD ids)
        (incl S all l.filter r) l.sr.ids r.id op with
    | none => none
    | some _ => calcEffect S all key req l r op

/-- `SetRoom` and `resort` for one list. -/
def updateList (all : String → Option Room) (req : String → Req) (r : Room) (key : String) (l : FList) :
    Option FList :=
  match deltaOf S all l r with
  | none => some l
  | some op => (resort S all key (req key) l r op).map fun sr => ⟨l.filter, sr⟩

/-- All lists (`for listKey, list := range s.lists` and `for _, listDelta := range
delta.Lists`). -/
def updateLists (all : String → Option Room) (req : String → Req) (r : Room) :
    List (String × FList) → Option (List (String × FList))
  | [] => some []
  | (k, l) :: ls => do
    let l' ← updateList S all req r k l
    let ls' ← updateLists all req r ls
    pure ((k, l') :: ls')

/-- `lists[key]` -/
def getList (s : State) (key : String) : Option FList := s.lists.lookup key

/-- The room as stored by `SetRoom`, `sync3/lists.go:91-118`: the timestamps of
the update are applied over the existing ones, for the keys of existing lists. -/
def mergeRoom (s : State) (r : Room) : Room :=
  match s.all r.id with
  | none => r
  | some ex =>
    { r with interested := fun key =>
        if (getList s key).isSome then
          match r.interested key with
          | some t => some t
          | none =>
            match ex.interested key with
            | some t => some t
            | none => some ex.lastMsg
        else none }

/-- A live update for a room. -/
def update (s : State) (req : String → Req) (r : Room) : Option State :=
  let r := mergeRoom s r
  let all := fun id => if id = r.id then some r else s.all id
  let keys := if r.id ∈ s.keys then s.keys else s.keys ++ [r.id]
  (updateLists S all req r s.lists).map fun ls => ⟨keys, all, ls⟩

/-- `lists[key] = l` -/
def putList (ls : List (String × FList)) (key : String) (l : FList) : List (String × FList) :=
  (key, l) :: ls.filter fun p => p.1 ≠ key

/-- `filter.Include(finder.ReadOnlyRoom(roomID), finder)`, `sync3/sort.go:229-230`. -/
def inclID (all : String → Option Room) (f : Filters.Filter) (id : String) : Bool :=
  match all id with
  | some r => incl S all f r
  | none => false

/-- `NewFilteredSortableRooms`, `sync3/sort.go:223-238`; `order` are the room IDs. -/
def newFiltered (all : String → Option Room) (f : Filters.Filter) (order : List String) : Option FList :=
  if order.all fun id => (all id).isSome then
    some ⟨f, SortableRooms.new (order.filter (inclID S all f))⟩
  else none

/-- `AssignList`, `sync3/lists.go:229-253`; `perm` is the iteration order of the
map of rooms, a nil `sort` is `none`. -/
def assign (s : State) (key : String) (f : Filters.Filter) (sort : Option (List String)) (overwrite : Bool)
    (perm : List String → List String) : Option State :=
  if !overwrite && (getList s key).isSome then some s
  else do
    let l ← newFiltered S s.all f (perm s.keys)
    let sr ← match sort with
      | none => some l.sr
      | some by_ => sortList S s.all key l.sr by_
    pure { s with lists := putList s.lists key ⟨f, sr⟩ }

/-- `roomList.Sort(nextReqList.Sort)`, `sync3/handler/connstate.go:343-346`. -/
def sortOp (s : State) (key : String) (by_ : List String) : Option State :=
  match getList s key with
  | none => some s
  | some l => (sortList S s.all key l.sr by_).map fun sr => { s with lists := putList s.lists key ⟨l.filter, sr⟩ }

/-- `DeleteList`, `sync3/lists.go:161-166`. -/
def delete (s : State) (key : String) : State :=
  { s with
    lists := s.lists.filter fun p => p.1 ≠ key
    all := fun id => (s.all id).map fun r => { r with interested := fun k => if k = key then none else r.interested k } }

/-- The write in `GetLastInterestedEventTimestamp`, `sync3/room.go:101-105`. -/
def touch (s : State) (key id : String) : State :=
  { s with all := fun i => if i = id then (s.all id).map fun r =>
      { r with interested := fun k => if k = key then some (effTs r key) else r.interested k } else s.all i }

/-- What can happen to the lists of a connection. -/
inductive Op
  | update (req : String → Req) (r : Room)
  | assign (key : String) (f : Filters.Filter) (sort : Option (List String)) (overwrite : Bool)
      (perm : List String → List String)
  | sort (key : String) (by_ : List String)
  | delete (key : String)
  | touch (key id : String)

def step (s : State) : Op → Option State
  | .update req r => update S s req r
  | .assign key f so ow perm => assign S s key f so ow perm
  | .sort key by_ => sortOp S s key by_
  | .delete key => some (delete s key)
  | .touch key id => some (touch s key id)

/-- Run a history; `none` if some operation panics. -/
def run (s : State) : List Op → Option State
  | [] => some s
  | o :: os => (step S s o).bind fun s' => run s' os

end Verif.Lists
