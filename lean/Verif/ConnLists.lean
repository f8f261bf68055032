import Verif.Request
/-!
# Model of `sync3/handler/connstate.go`: list requests, room subscriptions and old rooms

`s.lists.AssignList` and `Sort` are modelled in `Lists`; here the room list before the request
(`cur`, or the new list if there was none) and the list after re-creating and
re-sorting it (`re`) are inputs.  `FiltersChanged` compares the JSON encodings, modelled as
inequality of the filters.
-/
namespace Verif.ConnLists
open Verif.Ranges Verif.Request

/-- `ResponseOpRange`, `sync3/response.go`. -/
inductive ROp
  | sync (r : Range) (ids : List String)
  | invalidate (r : Range)
  deriving DecidableEq

/-- `clampSliceRangeToListSize`, `connstate.go:786-794` (the assertion only logs). -/
def clamp (r : Range) (n : Int) : Range := if r.2 ≤ n - 1 then r else (r.1, n - 1)

/-- `SortOrderChanged`, `sync3/request.go:66-80`, for an existing list; for a missing one the sort order
of a new list is never empty, so it has changed. -/
def sortChanged (prev : Option RList) (next : RList) : Bool :=
  match prev with
  | none => true
  | some p => decide ((p.sort.getD []) ≠ (next.sort.getD []))

/-- `FiltersChanged`, `sync3/request.go:90-105`. -/
def filtersChanged (prev : Option RList) (next : RList) : Bool := decide ((prev.bind (·.filters)) ≠ next.filters)

/-- `ShouldGetAllRooms`, `sync3/request.go:62-64`. -/
def getsAll (l : RList) : Bool := l.getAll.getD false

/-- What a list request adds to the builder: a subscription and its rooms. -/
abbrev Add := Sub × List String

/-- INVALIDATE operations for the ranges, `connstate.go:322-333,350-360`. -/
def invalidates (n : Int) (rs : Ranges) : List ROp :=
  (rs.filter fun r => r.1 < n).map fun r => .invalidate (clamp r n)

/-- SYNC operations for the ranges and their rooms, `connstate.go:366-383`; `none` is a panic in
`SliceInto`. -/
def syncs (xs : List String) : Ranges → Option (List (ROp × List String))
  | [] => some []
  | r :: rs =>
    match sliceInto xs [r] with
    | none => none
    | some [] => syncs xs rs
    | some (ids :: _) => (syncs xs rs).map ((.sync (clamp r xs.length) ids, ids) :: ·)

/-- The rooms added because the timeline limit or the required state changed,
`connstate.go:385-418`. -/
def changedAdds (joined : String → Bool) (xs : List String) (p next : RList) : Option (List Add) :=
  let tl := decide (p.limit ≠ next.limit)
  let rs := requiredStateChanged p.toBase next.toBase
  if tl || rs then
    let sub : Sub := { limit := if tl then next.limit else 0, reqState := if rs then next.reqState else none }
    (sliceInto xs (next.ranges.getD [])).map fun ss => ss.map fun ids => (sub, ids.filter joined)
  else some []

structure Result where
  ops : List ROp
  adds : List Add
  /-- the rooms of the list afterwards -/
  rooms : List String
  deriving DecidableEq

/-- `onIncomingListRequest`, `connstate.go:269-424`.  `isNew` says that `AssignList` created the list. -/
def onListRequest (joined : String → Bool) (isNew : Bool) (cur re : List String) (prev : Option RList) (next : RList) : Option Result :=
  if getsAll next && (isNew || filtersChanged prev next) then
    some ⟨[.sync (0, (cur.length : Int) - 1) cur], [(next.toSub, cur)], cur⟩
  else
    let prevRange := prev.bind (·.ranges)
    let nextRange := next.ranges.getD []
    let d : Option (Ranges × Ranges) :=
      match prevRange with
      | some pr => (delta pr nextRange).map fun d => (d.added, d.removed)
      | none => some (nextRange, [])
    match d with
    | none => none
    | some (added0, removed0) =>
      let sc := sortChanged prev next
      let fc := filtersChanged prev next
      let inv1 := if (sc || fc) && prev.isSome then invalidates cur.length (prevRange.getD []) else []
      let xs := if sc || fc then re else cur
      let added := if sc || fc then nextRange else added0
      let removed := if sc || fc then [] else removed0
      match syncs xs added with
      | none => none
      | some ss =>
        let chg : Option (List Add) :=
          match prev with
          | none => some []
          | some p => if !sc && !fc then changedAdds joined xs p next else some []
        chg.map fun chg =>
          ⟨inv1 ++ invalidates xs.length removed ++ ss.map (·.1), ss.map (fun x => (next.toSub, x.2)) ++ chg, xs⟩

/-! ## Room subscriptions -/

structure SubState where
  /-- `s.roomSubscriptions` -/
  active : String → Option Sub
  adds : List Add

/-- The loop over `subs`, `connstate.go:446-462`. -/
def subscribe1 (joined : String → Bool) (wanted : String → Option Sub) (s : SubState) (room : String) : SubState :=
  if !joined room then s
  else match wanted room with
    | none => s
    | some sub => ⟨fun x => if x = room then some sub else s.active x, s.adds ++ [(sub, [room])]⟩

/-- `buildRoomSubscriptions`, `connstate.go:443-466`. -/
def buildRoomSubs (joined : String → Bool) (wanted active : String → Option Sub) (subs unsubs : List String) : SubState :=
  let s := subs.foldl (subscribe1 joined wanted) ⟨active, []⟩
  { s with active := fun x => if x ∈ unsubs then none else s.active x }

/-! ## Old rooms -/

/-- One iteration of the loop over predecessors, `connstate.go:489-500`: the room id is already known to
be non-nil; `room x` is `ReadOnlyRoom`, giving the predecessor if the room is known.  The result is the new
`prevRoomID`, or `none` if the loop ends. -/
def predStep (joined : String → Bool) (room : String → Option (Option String)) (x : String) : Option String :=
  if !joined x then none
  else match room x with
    | none => some x
    | some p => p

/-- The loop, with a bound on the number of iterations: `none` if it is not finished by then. -/
def predLoop (joined : String → Bool) (room : String → Option (Option String)) : Nat → String → List String → Option (List String)
  | 0, _, _ => none
  | n + 1, x, acc =>
    if !joined x then some acc
    else match predStep joined room x with
      | none => some (acc ++ [x])
      | some y => predLoop joined room n y (acc ++ [x])

end Verif.ConnLists
