import Verif.Request
/-!
# Model of `sync3/handler/rooms_builder.go`

`BuildSubscriptions` is written once over a combining operation that may change a heap, and
used twice: with values (`Request.combine`), and with Go slices that share backing arrays,
because `Combine` appends to a slice of one of the stored subscriptions.

Iteration order: the loop over `roomToSubIDs` runs in an arbitrary order, given as
`order`.  The ids of a room are collected from a map but sorted in place by `subKey` before they
are used, so they are ascending.  The key string `fmt.Sprintf("%v", ids)` is the list of ids.
The result is a set of pairs (its order is not used by the caller).
-/
namespace Verif.RoomsBuilder

variable {σ S : Type}

/-- `RoomsBuilder`, `rooms_builder.go:30-33`; the calls of `AddRoomsToSubscription` in order. -/
structure State (S : Type) where
  subs : List S := []
  rooms : List (Nat × List String) := []

inductive Op (S : Type)
  | addSub (s : S)
  | addRooms (id : Nat) (rooms : List String)

/-- `AddSubscription` 54-57 and `AddRoomsToSubscription` 60-63. -/
def step (b : State S) : Op S → State S
  | .addSub s => { b with subs := b.subs ++ [s] }
  | .addRooms id rs => { b with rooms := b.rooms ++ [(id, rs)] }

def run (ops : List (Op S)) : State S := ops.foldl step {}

/-- `IncludesRoom`, `rooms_builder.go:41-50`. -/
def includesRoom (b : State S) (room : String) : Bool := b.rooms.any fun p => p.2.any (· = room)

/-- The sorted ids in `roomToSubIDs[room]`, `rooms_builder.go:69-77,88-93`. -/
def idsOf (b : State S) (room : String) : List Nat :=
  (List.range b.subs.length).filter fun i => b.rooms.any fun p => p.1 = i && p.2.any (· = room)

/-- Combine the subscriptions with these ids, `rooms_builder.go:97-106`. -/
def combineIDs (comb : σ → S → S → σ × S) (subs : List S) : List Nat → σ → Option S → σ × Option S
  | [], h, acc => (h, acc)
  | i :: is, h, acc =>
    match subs[i]?, acc with
    | none, _ => (h, none)
    | some s, none => combineIDs comb subs is h (some s)
    | some s, some a => combineIDs comb subs is (comb h a s).1 (some (comb h a s).2)

/-- The maps of `BuildSubscriptions`: `subIDToSub`, and `subToRoomIDs` (indexed by key instead
of by the pointer the key maps to). -/
structure Built (σ S : Type) where
  heap : σ
  subOf : List (List Nat × S)
  groups : List (List Nat × List String)

/-- `subToRoomIDs[sub] = append(subToRoomIDs[sub], room)`. -/
def addTo (gs : List (List Nat × List String)) (k : List Nat) (room : String) : List (List Nat × List String) :=
  match gs with
  | [] => [(k, [room])]
  | g :: gs => if g.1 = k then (g.1, g.2 ++ [room]) :: gs else g :: addTo gs k room

/-- The loop body, `rooms_builder.go:86-113`. -/
def body (comb : σ → S → S → σ × S) (b : State S) (s : Built σ S) (room : String) : Built σ S :=
  let ids := idsOf b room
  match s.subOf.lookup ids with
  | some _ => { s with groups := addTo s.groups ids room }
  | none =>
    match combineIDs comb b.subs ids s.heap none with
    | (h, some c) => ⟨h, s.subOf ++ [(ids, c)], addTo s.groups ids room⟩
    | (h, none) => { s with heap := h }

/-- `BuildSubscriptions`, `rooms_builder.go:67-122`: for each group the subscription and its rooms,
and the heap in which the subscriptions are to be read.  `none` if rooms were added to an unknown
subscription (index out of range panic at line 99). -/
def build (comb : σ → S → S → σ × S) (h : σ) (b : State S) (order : List String) : Option (σ × List (S × List String)) :=
  if b.rooms.any fun p => decide (b.subs.length ≤ p.1) && !p.2.isEmpty then none
  else
    let init : Built σ S := ⟨h, b.subs.zipIdx.map fun p => ([p.2], p.1), []⟩
    let r := order.foldl (body comb b) init
    some (r.heap, r.groups.filterMap fun g => (r.subOf.lookup g.1).map fun s => (s, g.2))

/-! ## Values -/

/-- Combination without aliasing. -/
def valueComb : Unit → Request.Sub → Request.Sub → Unit × Request.Sub := fun _ a b => ((), Request.combine a b)

/-! ## Slices -/

abbrev Entry := String × String

/-- Backing arrays; the length of an array is the capacity of slices starting at its beginning. -/
abbrev Heap := List (List Entry)

/-- A slice of required state entries starting at the beginning of an array (as all of them do);
the nil slice is `none`. -/
abbrev Slice := Option (Nat × Nat)

def read (h : Heap) : Slice → List Entry
  | none => []
  | some (a, n) => ((h[a]?).getD []).take n

/-- Overwrite the elements from position `n` on with `xs`. -/
def write (arr : List Entry) (n : Nat) (xs : List Entry) : List Entry :=
  arr.take n ++ xs ++ arr.drop (n + xs.length)

/-- `append(s, xs...)`: in place if the capacity suffices, else into a new array with the
capacity `grow cap need` chosen by the runtime. -/
def goAppend (grow : Nat → Nat → Nat) (h : Heap) (s : Slice) (xs : List Entry) : Heap × Slice :=
  match xs with
  | [] => (h, s)
  | x :: rest =>
    let xs := x :: rest
    match s with
    | none => (h ++ [xs ++ List.replicate (grow 0 xs.length - xs.length) ("", "")], some (h.length, xs.length))
    | some (a, n) =>
      let arr := (h[a]?).getD []
      if n + xs.length ≤ arr.length then (h.set a (write arr n xs), some (a, n + xs.length))
      else (h ++ [arr.take n ++ xs ++ List.replicate (grow arr.length (n + xs.length) - (n + xs.length)) ("", "")],
        some (h.length, n + xs.length))

/-- A subscription's timeline limit and required state slice.  (Old rooms are combined in the same
way and are left out here.) -/
structure GSub where
  limit : Int
  rs : Slice
  deriving DecidableEq

/-- `Combine`, `sync3/request.go:601-628`, on slices. -/
def sliceComb (grow : Nat → Nat → Nat) : Heap → GSub → GSub → Heap × GSub := fun h a b =>
  let r := goAppend grow h a.rs (read h b.rs)
  (r.1, ⟨if a.limit > b.limit then a.limit else b.limit, r.2⟩)

end Verif.RoomsBuilder
