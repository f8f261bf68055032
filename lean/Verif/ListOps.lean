import Verif.Ranges
/-!
# Model of `sync3/ops.go` and the move logic of `sync3/request.go`

`CalculateListOps` works on an abstract list; here the list is a plain list of
rooms of an arbitrary type `α` (room IDs), and the effect of
`list.Sort(reqList.Sort)` is a function argument `sort`.  A panic (reading
outside the list) is `none`.
-/
namespace Verif.ListOps
open Verif.Ranges

variable {α : Type _} [DecidableEq α]

/-- `ListOp`, `sync3/lists.go:18-27`. -/
inductive LOp | add | del | change
  deriving DecidableEq, Repr

/-- A list operation in the response: `ResponseOpSingle`.  `null` is the typed
nil pointer which `WriteDeleteOp` may return and which is appended to the
operations all the same (`sync3/ops.go:64`), serialised as JSON `null`. -/
inductive Op (α : Type _)
  | delete (i : Int)
  | insert (i : Int) (room : α)
  | null
  deriving DecidableEq, Repr

/-- `jumpedOverRanges`, `sync3/request.go:222-235`. -/
def jumpedOverRanges (rs : Ranges) (fromIndex toIndex : Int) : Ranges :=
  let hi := if fromIndex < toIndex then toIndex else fromIndex
  let lo := if fromIndex < toIndex then fromIndex else toIndex
  rs.filter fun r => decide (r.1 > lo) && decide (r.1 < hi) && decide (r.2 > lo) && decide (r.2 < hi)

/-- The pairs appended for the ranges jumped over, `sync3/request.go:185-191`
and `211-217`. -/
def jumpPairs (rs : Ranges) (fromIndex toIndex : Int) : List (Int × Int) :=
  rs.map fun r => if fromIndex > toIndex then (r.2, r.1) else (r.1, r.2)

/-- `CalculateMoveIndexes`, `sync3/request.go:143-220`. -/
def calculateMoveIndexes (rs : Ranges) (fromIndex toIndex : Int) : Option (List (Int × Int)) :=
  let fromRng := inside rs fromIndex
  let toRng := inside rs toIndex
  if fromRng.isSome ∧ toRng.isSome ∧ fromRng = toRng then some [(fromIndex, toIndex)]  -- case A
  else if fromRng.isNone ∧ toRng.isNone then  -- case C
    some (jumpPairs (jumpedOverRanges rs fromIndex toIndex) fromIndex toIndex)
  else do  -- case B
    let p1 ← if fromRng.isSome then do
        let c ← closestInDirection rs fromIndex (decide (toIndex < fromIndex))
        pure [(fromIndex, c)]
      else pure []
    let p2 ← if toRng.isSome then do
        let c ← closestInDirection rs toIndex (decide (fromIndex < toIndex))
        pure [(c, toIndex)]
      else pure []
    pure (p1 ++ p2 ++ jumpPairs (jumpedOverRanges rs fromIndex toIndex) fromIndex toIndex)

/-- `WriteDeleteOp`, `sync3/request.go:126-139`. -/
def writeDeleteOp (rs : Ranges) (i : Int) : Op α :=
  if i < 0 then .null
  else if (inside rs i).isNone then .null
  else .delete i

/-- `WriteSwapOp`, `sync3/request.go:247-261`. -/
def writeSwapOp (room : α) (f t : Int) : List (Op α) := [.delete f, .insert t room]

/-- `list.Get`, `sync3/sort.go:56-60`: `none` is an index-out-of-range panic
(the `Assert` only logs). -/
def getI (l : List α) (i : Int) : Option α := if i < 0 then none else l[i.toNat]?

/-- Fixed data of the loop of `CalculateListOps`. -/
structure Ctx (α : Type _) where
  rs : Ranges
  room : α
  op : LOp
  wasInside : Bool
  toIndex : Int
  after : List α
  nPairs : Nat

/-- One iteration of the loop, `sync3/ops.go:82-140`: the operations and the
room subscriptions appended. `swapOp == nil` never holds (line 136), since
`WriteSwapOp` always returns two operations, so that branch is dead. -/
def loopBody (c : Ctx α) (p : Int × Int) : Option (List (Op α) × List α) := do
  let f := p.1
  let t := p.2
  let wasUpdatedRoomInserted : Bool := t = c.toIndex
  let toRoom ← getI c.after t
  if toRoom = c.room ∧ f = t ∧ c.op = .change ∧ c.wasInside ∧ c.nPairs = 1 then
    pure ([], [])
  else if wasUpdatedRoomInserted ∧ c.op = .del ∧
      (toRoom = c.room ∨ (t = (c.after.length : Int) - 1 ∧ (inside c.rs c.after.length).isSome)) then
    pure ([writeDeleteOp c.rs f], [])
  else
    let addedSub : Bool := !wasUpdatedRoomInserted || !c.wasInside
    let subs := if addedSub then [toRoom] else []
    let subs := if wasUpdatedRoomInserted && c.op = .add && !addedSub then subs ++ [toRoom] else subs
    pure (writeSwapOp toRoom f t, subs)

/-- The loop over all moves, `sync3/ops.go:82-140`. -/
def loop (c : Ctx α) : List (Int × Int) → Option (List (Op α) × List α)
  | [] => some ([], [])
  | p :: ps => do
    let (o, s) ← loopBody c p
    let (os, ss) ← loop c ps
    pure (o ++ os, s ++ ss)

/-- Result of `CalculateListOps` together with the modified list. -/
structure Result (α : Type _) where
  ops : List (Op α)
  subs : List α
  after : List α
  deriving DecidableEq, Repr

/-- `list.IndexOf`, `sync3/sort.go:32-35` (see `SortableRooms` for the index
map that implements it). -/
def indexOf (l : List α) (room : α) : Option Int :=
  if room ∈ l then some (l.idxOf room) else none

/-- `CalculateListOps`, `sync3/ops.go:32-142`.
* `sort` is the effect of `list.Sort(reqList.Sort)` (identity when it errors);
* `accept` is whether `FilteredSortableRooms.Add` accepts the room
  (`sync3/sort.go:240-246`; always so when called through `SetRoom`). -/
def calculateListOps (rs : Ranges) (sort : List α → List α) (accept : Bool)
    (before : List α) (room : α) (op : LOp) : Option (Result α) :=
  match indexOf before room, op with
  | none, .del => some ⟨[], [], before⟩
  | none, .change => some ⟨[], [], before⟩
  | from?, op =>
    let fromIndex : Int := from?.getD before.length
    let wasInside := (inside rs fromIndex).isSome
    match op with
    | .add =>
      let added := if accept ∧ room ∉ before then before ++ [room] else before
      let after := sort added
      finish rs after room .add fromIndex ((indexOf after room).getD 0) false
    | .del =>
      let after := before.erase room
      let toIndex : Int := (after.length : Int) - 1
      if toIndex = -1 then some ⟨[writeDeleteOp rs 0], [], after⟩
      else finish rs after room .del fromIndex toIndex wasInside
    | .change =>
      let after := sort before
      finish rs after room .change fromIndex ((indexOf after room).getD 0) wasInside
where
  finish (rs : Ranges) (after : List α) (room : α) (op : LOp) (fromIndex toIndex : Int)
      (wasInside : Bool) : Option (Result α) := do
    let ps ← calculateMoveIndexes rs fromIndex toIndex
    let (ops, subs) ← loop ⟨rs, room, op, wasInside, toIndex, after, ps.length⟩ ps
    pure ⟨ops, subs, after⟩

/-! ## The client

The proxy ships a client (`client/sync.js`) which documents how operations are
replayed.  `roomIndexToRoomId` is a JS object: a finite map from indices to
room IDs, where an entry may also be present with value `undefined`. -/

/-- `roomIndexToRoomId`, `client/sync.js:114`. -/
abbrev CMap (α : Type _) := List (Int × Option α)

/-- `obj[i]` -/
def CMap.get (m : CMap α) (i : Int) : Option α := (m.lookup i).join
/-- `obj[i] = v` -/
def CMap.set (m : CMap α) (i : Int) (v : Option α) : CMap α :=
  (i, v) :: m.filter fun p => p.1 ≠ i
/-- `delete obj[i]` -/
def CMap.del (m : CMap α) (i : Int) : CMap α := m.filter fun p => p.1 ≠ i

/-- `isIndexInRange`, `client/sync.js:459-466`. -/
def inRange (rs : Ranges) (i : Int) : Bool := rs.any fun r => decide (r.1 ≤ i) && decide (i ≤ r.2)

/-- `shiftRight`, `client/sync.js:400-412`: the loop `for i = low+n; i > low; i--`. -/
def shiftRight (rs : Ranges) (low : Int) : Nat → CMap α → CMap α
  | 0, m => m
  | n + 1, m =>
    let i := low + n + 1
    shiftRight rs low n (if inRange rs i then m.set i (m.get (i - 1)) else m)

/-- `shiftLeft`, `client/sync.js:414-426`: the loop `for i = low; i < low+n; i++`. -/
def shiftLeft (rs : Ranges) (low : Int) : Nat → CMap α → CMap α
  | 0, m => m
  | n + 1, m =>
    shiftLeft rs (low + 1) n (if inRange rs low then m.set low (m.get (low + 1)) else m)

/-- Highest key, or -1, `client/sync.js:430-435`. -/
def maxKey (m : CMap α) : Int := m.foldl (fun a p => if p.1 > a then p.1 else a) (-1)

/-- `removeEntry`, `client/sync.js:428-442`. -/
def removeEntry (rs : Ranges) (m : CMap α) (index : Int) : CMap α :=
  let mx := maxKey m
  if mx < 0 ∨ index > mx then m
  else (shiftLeft rs index (mx - index).toNat m).del mx

/-- `addEntry`, `client/sync.js:444-457`. -/
def addEntry (rs : Ranges) (m : CMap α) (index : Int) : CMap α :=
  let mx := maxKey m
  if mx < 0 ∨ index > mx then m
  else shiftRight rs index (mx + 1 - index).toNat m

/-- Client state while replaying: the map and `gapIndex` (-1 for none). -/
structure Client (α : Type _) where
  m : CMap α
  gap : Int := -1

/-- One operation, `client/sync.js:306-353`; a `null` operation makes the
client throw (`none`). -/
def clientOp (rs : Ranges) (c : Client α) : Op α → Option (Client α)
  | .null => none
  | .delete i =>
    let m := c.m.del i
    let m := if c.gap ≠ -1 then removeEntry rs m c.gap else m
    some ⟨m, i⟩
  | .insert i room =>
    let m :=
      if (c.m.get i).isSome then
        if c.gap < 0 then addEntry rs c.m i
        else if c.gap > i then shiftRight rs i (c.gap - i).toNat c.m
        else if c.gap < i then shiftLeft rs c.gap (i - c.gap).toNat c.m
        else c.m
      else c.m
    some ⟨m.set i (some room), -1⟩

/-- All operations of one response followed by the final gap handling,
`client/sync.js:302-394`. `rs` are the client's active ranges. -/
def clientReplay (rs : Ranges) (m : CMap α) (ops : List (Op α)) : Option (CMap α) := do
  let c ← ops.foldlM (clientOp rs) ⟨m, -1⟩
  pure (if c.gap ≠ -1 then removeEntry rs c.m c.gap else c.m)

end Verif.ListOps
