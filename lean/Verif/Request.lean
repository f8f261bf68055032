import Verif.Ranges
import Verif.Filters
/-!
# Model of the sticky request parameters, `sync3/request.go`

Go maps are functions to `Option`; the loops over them treat every key
independently, so the iteration order is not visible.  A nil slice or pointer is
`none`.  `IncludeOldRooms` is itself a room subscription; its own
`IncludeOldRooms` is never read (`sync3/handler/connstate.go:481-509`), so it has
none here.  Extensions are modelled in `Extensions`.
-/
namespace Verif.Request

/-- The part of `RoomSubscription` without `IncludeOldRooms`, `sync3/request.go:568-573`. -/
structure Base where
  reqState : Option (List (String × String)) := none
  limit : Int := 0
  heroes : Option Bool := none
  deriving DecidableEq, Repr

/-- `RoomSubscription`, `sync3/request.go:568-573`. -/
structure Sub extends Base where
  old : Option Base := none
  deriving DecidableEq, Repr

/-- `RequestList`, `sync3/request.go:52-60`. -/
structure RList extends Sub where
  ranges : Option Ranges.Ranges := none
  sort : Option (List String) := none
  filters : Option Filters.Filter := none
  getAll : Option Bool := none
  deleted : Bool := false
  bump : Option (List String) := none
  deriving DecidableEq, Repr

/-- `Request`, `sync3/request.go:29-40`, without `TxnID`, `ConnID`, extensions. -/
structure Req where
  lists : String → Option RList := fun _ => none
  subs : String → Option Sub := fun _ => none
  unsubs : List String := []

/-- `x := next; if x == nil { x = existing }` -/
def orElse {α} (next existing : Option α) : Option α :=
  match next with
  | some x => some x
  | none => existing

/-- Both lists exist and the new one is not deleted, `sync3/request.go:362-416`. -/
def mergeList (ex next : RList) : RList :=
  { ranges := orElse next.ranges ex.ranges
    sort := orElse next.sort ex.sort
    reqState := orElse next.reqState ex.reqState
    getAll := orElse next.getAll ex.getAll
    old := orElse next.old ex.old
    limit := if next.limit = 0 then ex.limit else next.limit
    filters := orElse next.filters ex.filters
    bump := orElse next.bump ex.bump
    heroes := orElse next.heroes ex.heroes
    deleted := false }

/-- The value of one list key, `sync3/request.go:338-417`. -/
def applyList (ex next : Option RList) : Option RList :=
  match next, ex with
  | none, e => e
  | some n, none =>
    if (n.sort.getD []).length = 0 then some { n with sort := some ["by_recency"] } else some n
  | some n, some e => if n.deleted then none else some (mergeList e n)

/-- `RequiredStateChanged`, `sync3/request.go:575-585`. -/
def requiredStateChanged (a b : Base) : Bool :=
  let x := a.reqState.getD []
  let y := b.reqState.getD []
  if x.length ≠ y.length then true else (x.zip y).any fun p => p.1 ≠ p.2

/-- `RequestDelta`: announced subscriptions and unsubscriptions,
`sync3/request.go:294-301`. -/
structure Delta where
  subs : String → Bool
  unsubs : List String

/-- `delete(m, k)` -/
def del {α} (m : String → Option α) (k : String) : String → Option α := fun x => if x = k then none else m x

/-- The loop over the old request's unsubscriptions, `sync3/request.go:444-450`,
and over the new request's, lines 455-466; `skip` says that the room is
subscribed to in the same request. -/
def unsubLoop (skip : String → Bool) : List String → (String → Option Sub) × List String → (String → Option Sub) × List String
  | [], p => p
  | r :: rs, p =>
    unsubLoop skip rs (del p.1 r, if (p.1 r).isSome && !skip r then p.2 ++ [r] else p.2)

/-- Is the room announced as a new subscription? `sync3/request.go:468-478`. -/
def announced (old : String → Option Sub) (result : String → Option Sub) (r : String) : Bool :=
  match result r with
  | none => false
  | some n =>
    match old r with
    | some o => requiredStateChanged o.toBase n.toBase || decide (o.limit ≠ n.limit)
    | none => true

/-- `ApplyDelta`, `sync3/request.go:314-482`; a nil receiver is the empty request. -/
def applyDelta (r next : Req) : Req × Delta :=
  let p := unsubLoop (fun _ => false) r.unsubs (r.subs, [])
  let subs := fun x => match next.subs x with
    | some s => some s
    | none => p.1 x
  let q := unsubLoop (fun x => (next.subs x).isSome) next.unsubs (subs, p.2)
  ({ lists := fun k => applyList (r.lists k) (next.lists k), subs := q.1 },
   { subs := announced r.subs q.1, unsubs := q.2 })

/-- The parameters in force after a sequence of requests on a connection. -/
def muxed (reqs : List Req) : Req := reqs.foldl (fun r n => (applyDelta r n).1) {}

/-- The active room subscriptions of a connection, `s.roomSubscriptions`, after
`buildRoomSubscriptions` (`sync3/handler/connstate.go:443-466`) for one request;
`joined` is the join check. -/
def activate (joined : String → Bool) (active : String → Option Sub) (m : Req) (d : Delta) : String → Option Sub :=
  fun r =>
    if r ∈ d.unsubs then none
    else if d.subs r && joined r then
      match m.subs r with
      | some s => some s
      | none => active r
    else active r

/-- Muxed request and active subscriptions after a sequence of requests, each
with the rooms joined at that time. -/
def active : List (Req × (String → Bool)) → Req × (String → Option Sub)
  | reqs => reqs.foldl (fun s x =>
      ((applyDelta s.1 x.1).1, activate x.2 s.2 (applyDelta s.1 x.1).1 (applyDelta s.1 x.1).2)) ({}, fun _ => none)

/-! ## Combining subscriptions -/

/-- `append(a, b...)` on possibly nil slices (values only; the shared backing
arrays are modelled in `RoomsBuilder`). -/
def goAppend {α} (a b : Option (List α)) : Option (List α) :=
  match a, b with
  | none, none => none
  | none, some [] => none
  | none, some (y :: ys) => some (y :: ys)
  | some xs, b => some (xs ++ b.getD [])

/-- `combineRecursive(_, false)`, `sync3/request.go:606-616`; heroes are not set. -/
def combineBase (a b : Base) : Base :=
  { limit := if a.limit > b.limit then a.limit else b.limit
    reqState := goAppend a.reqState b.reqState
    heroes := none }

/-- `Combine`, `sync3/request.go:601-628`. -/
def combine (a b : Sub) : Sub :=
  { toBase := combineBase a.toBase b.toBase
    old := match a.old, b.old with
      | none, o => o
      | some x, some y => some (combineBase x y)
      | some _, none => none }

/-! ## Required state -/

/-- `RequiredStateMap`, `internal/required_state_map.go:5-11`.  The map
`eventTypeToStateKeys` is kept as its (type, key) pairs in insertion order. -/
structure RSM where
  typesWild : List String := []
  keysWild : List String := []
  exact : List (String × String) := []
  allState : Bool := false
  lazy : Bool := false
  deriving DecidableEq, Repr

/-- `eventTypeToStateKeys[t]` -/
def RSM.keys (m : RSM) (t : String) : List String := (m.exact.filter (·.1 = t)).map (·.2)

/-- `LazyLoadMembers`, `sync3/request.go:587-594`. -/
def lazyLoadMembers (rs : List (String × String)) : Bool :=
  rs.any fun t => t.1 = "m.room.member" && t.2 = "$LAZY"

/-- One iteration of the loop of `RequiredStateMap`, `sync3/request.go:654-672`. -/
def rsmStep (user : String) (m : RSM) (t : String × String) : RSM :=
  let key := if t.2 = "$ME" then user else t.2
  if t.1 = "*" then
    if key = "*" then { m with allState := true }
    else { m with keysWild := m.keysWild ++ [key] }
  else if key = "*" then { m with typesWild := if t.1 ∈ m.typesWild then m.typesWild else m.typesWild ++ [t.1] }
  else { m with exact := m.exact ++ [(t.1, key)] }

/-- `RequiredStateMap(userID)`, `sync3/request.go:649-676`. -/
def rsm (rs : List (String × String)) (user : String) : RSM :=
  { rs.foldl (rsmStep user) {} with lazy := lazyLoadMembers rs }

/-- `Include`, `internal/required_state_map.go:30-63`. -/
def RSM.include (m : RSM) (t k : String) : Bool :=
  if m.allState then
    if (m.keys t).length > 0 then (m.keys t).any (· = k) else true
  else if m.keysWild.any fun sk => sk = k || sk = "*" then true
  else if m.typesWild.any (· = t) then true
  else (m.keys t).any (· = k)

/-- `QueryStateMap`, `internal/required_state_map.go:75-93`: type to state keys,
`[]` for nil; later entries win, so wildcard types come first in the lookup. -/
def RSM.query (m : RSM) : List (String × List String) :=
  if m.allState then []
  else if m.keysWild.length = 0 then
    m.typesWild.map (fun t => (t, [])) ++
    m.exact.map (fun p => if p.1 = "m.room.member" ∧ m.lazy then (p.1, []) else (p.1, m.keys p.1))
  else []

/-- What the storage returns for a query, `state/storage.go:609-640`: an empty map
means all state; no state keys for a type means all of that type. -/
def fetched (q : List (String × List String)) (t k : String) : Bool :=
  if q.length = 0 then true
  else match q.lookup t with
    | none => false
    | some ks => ks.length = 0 || ks.any (· = k)

end Verif.Request
