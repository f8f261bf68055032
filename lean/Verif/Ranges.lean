import Verif.Util
/-!
# Model of `sync3/range.go`

Go `int64` is modelled by `Int` (overflow not modelled).  A Go panic is the
result `none` of an `Option`-valued function.
-/

namespace Verif.Ranges

/-- A closed range `[a, b]` (`[2]int64`), `sync3/range.go:8-14`. -/
abbrev Range := Int × Int

/-- `SliceRanges`, `sync3/range.go:14`. -/
abbrev Ranges := List Range

/-- The inner loop body of `Valid`, `sync3/range.go:26-38`: does an end point
of one range lie inside the other one? -/
def clash (sr t : Range) : Bool :=
  (t.1 ≤ sr.1 && sr.1 ≤ t.2) || (t.1 ≤ sr.2 && sr.2 ≤ t.2) ||
  (sr.1 ≤ t.1 && t.1 ≤ sr.2) || (sr.1 ≤ t.2 && t.2 ≤ sr.2)

/-- `SliceRanges.Valid`, `sync3/range.go:16-42`. -/
def valid : Ranges → Bool
  | [] => true
  | sr :: rest =>
    if sr.2 < sr.1 then false
    else if sr.1 < 0 then false
    else if rest.any (clash sr) then false
    else valid rest

/-- `SliceRanges.Inside`, `sync3/range.go:45-52`: the first range containing
`i`, if any. -/
def inside (r : Ranges) (i : Int) : Option Range :=
  r.find? fun sr => sr.1 ≤ i && i ≤ sr.2

/-- All bounds of all ranges in ascending order, `sync3/range.go:67-74`. -/
def bounds (r : Ranges) : List Int :=
  Util.isort (fun a b => decide (a ≤ b)) (r.flatMap fun sr => [sr.1, sr.2])

/-- The `towardsZero` loop of `ClosestInDirection`, `sync3/range.go:78-94`.
`j` is the current index, `prev` is `indexes[j-1]` when `j > 0`.  Running off
the end returns the last element, which panics on an empty slice (`none`). -/
def closestDown (i : Int) : Nat → Option Int → List Int → Option Int
  | _, prev, [] => prev
  | j, prev, x :: xs =>
    if x ≥ i then
      match prev with
      | none => if x = i then some x else some (-1)
      | some p => if j % 2 = 0 ∧ x = i then some x else some p
    else closestDown i (j + 1) (some x) xs

/-- The other loop of `ClosestInDirection`, `sync3/range.go:96-114`, which
walks from the highest index to the lowest one.  The list argument is the
reversed list of bounds, `j` is the (original) index of its head, and `next`
is `indexes[j+1]` when it exists. -/
def closestUp (i : Int) : Nat → Option Int → List Int → Option Int
  | _, next, [] => next
  | j, next, x :: xs =>
    if x ≤ i then
      match next with
      | none => if x = i then some x else some (-1)
      | some p => if j % 2 = 1 ∧ x = i then some x else some p
    else closestUp i (j - 1) (some x) xs

/-- `SliceRanges.ClosestInDirection`, `sync3/range.go:66-115`. `none` is the
index-out-of-range panic for an empty list of ranges. -/
def closestInDirection (r : Ranges) (i : Int) (towardsZero : Bool) : Option Int :=
  let ix := bounds r
  if towardsZero then closestDown i 0 none ix
  else closestUp i (ix.length - 1) none ix.reverse

/-- `pointInfo`, `sync3/range.go:117-121`. -/
structure Pt where
  x : Int
  old : Bool
  op : Bool
  deriving DecidableEq, Repr

/-- The order of `sortPoints`, `sync3/range.go:321-354`, as a reflexive
comparison: by `x`, then opens before closes, then old before new. -/
def Pt.le (p q : Pt) : Bool :=
  p.x < q.x || (p.x = q.x && ((p.op && !q.op) || (p.op == q.op && (p.old || !q.old))))

/-- The two points of each range, `sync3/range.go:160-181`. -/
def pts (isOld : Bool) (r : Ranges) : List Pt :=
  r.flatMap fun sr => [⟨sr.1, isOld, true⟩, ⟨sr.2, isOld, false⟩]

/-- `createRange`, `sync3/range.go:288-319`. -/
def createRange (p last : Pt) (merged : Option Range) : Option Range :=
  if p.x ≤ last.x then none
  else
    let inMerged := match merged with
      | some m => decide (last.x ≤ m.2)
      | none => false
    let start := if inMerged then last.x + 1
      else if !last.op then last.x + 1 else last.x
    if p.op then some (start, p.x - 1) else some (start, p.x)

/-- Variables of the sweep, `sync3/range.go:185-188` and the named results. -/
structure Sweep where
  openOld : Bool := false
  openNew : Bool := false
  last : Option Pt := none
  merged : Option Range := none
  added : Ranges := []
  removed : Ranges := []
  same : Ranges := []

/-- The emission part of the loop body, `sync3/range.go:208-227`.  `none` is a
nil dereference of `lastPoint`. -/
def emit (s : Sweep) (p : Pt) : Option Sweep :=
  if s.openNew && s.openOld then
    match s.last with
    | none => none
    | some l => some { s with same := s.same ++ [(l.x, p.x)], merged := some (l.x, p.x) }
  else if s.openNew then
    match s.last with
    | none => none
    | some l => match createRange p l s.merged with
      | none => some s
      | some m => some { s with added := s.added ++ [m], merged := some m }
  else if s.openOld then
    match s.last with
    | none => none
    | some l => match createRange p l s.merged with
      | none => some s
      | some m => some { s with removed := s.removed ++ [m], merged := some m }
  else some s

/-- The bookkeeping part of the loop body, `sync3/range.go:229-251`; `none`
are the two explicit panics. -/
def remember (s : Sweep) (p : Pt) : Option Sweep :=
  if p.op then
    if (p.old && s.openOld) || (!p.old && s.openNew) then none
    else if p.old then some { s with openOld := true, last := some p }
    else some { s with openNew := true, last := some p }
  else
    if (p.old && !s.openOld) || (!p.old && !s.openNew) then none
    else if p.old then some { s with openOld := false, last := some p }
    else some { s with openNew := false, last := some p }

/-- One iteration of the sweep, `sync3/range.go:189-252`. -/
def sweepStep (s : Sweep) (p : Pt) : Option Sweep :=
  if s.last = some p then some s
  else (emit s p).bind (remember · p)

/-- Result of `Delta`. -/
structure DeltaResult where
  added : Ranges
  removed : Ranges
  same : Ranges
  deriving DecidableEq, Repr

/-- `SliceRanges.Delta`, `sync3/range.go:129-255`; `none` is a panic.  The Go
sort is not stable, but two points that compare equal are identical, so any
sort yields the same list. -/
def delta (r next : Ranges) : Option DeltaResult :=
  if r = next then some ⟨[], [], next⟩
  else
    let points := Util.isort Pt.le (pts true r ++ pts false next)
    (points.foldlM sweepStep {}).map fun s => ⟨s.added, s.removed, s.same⟩

/-- Go slicing `xs[i:j]`; `none` is the bounds panic. -/
def goSlice {α} (xs : List α) (i j : Int) : Option (List α) :=
  if 0 ≤ i ∧ i ≤ j ∧ j ≤ xs.length then some ((xs.drop i.toNat).take (j - i).toNat)
  else none

/-- `SliceRanges.SliceInto`, `sync3/range.go:258-282`, applied to the room IDs
of a `SortableRooms` (`sync3/sort.go:80-87`; the `Assert` there only logs). -/
def sliceInto {α} (xs : List α) : Ranges → Option (List (List α))
  | [] => some []
  | sr :: rest =>
    let n : Int := xs.length
    if n = 0 then sliceInto xs rest
    else if sr.1 ≥ n ∧ sr.2 ≥ n then sliceInto xs rest
    else
      let a := if sr.1 ≥ n then n - 1 else sr.1
      let b := if sr.2 ≥ n then n - 1 else sr.2
      match goSlice xs a (b + 1) with
      | none => none
      | some s => (sliceInto xs rest).map (s :: ·)

end Verif.Ranges
