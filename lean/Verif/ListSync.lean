import Verif.Lists
import Verif.ConnLists
/-!
# One list of a connection, from the server's room list to the client's windows

Composes `Lists` (the room lists of a connection), `ConnLists` (the operations a request causes), `ListOps` (the
operations an update causes, and the client's replay) into the history of one list `key`: each round is a request
and its response, in which the operations of the request are followed by those of the live updates processed for it
(`OnIncomingRequest`, `sync3/handler/connstate.go:191-267`, `liveUpdate`, `sync3/handler/connstate_live.go:49-115`).
What the connection does for its other lists in between are `other` events.

Simplifications:
* When updates are processed, and how many go into one response (time-outs, the cap of 100), is not modelled: the
  events of a round are any list.
* Updates that do not reach `SetRoom` have no effect on lists and are left out.
* A client that drops a list forgets its rooms (the client in `client/sync.js` never drops one).
* A request that fails is not modelled; retries are the subject of C13.
-/
namespace Verif.ListSync
open Verif Verif.Ranges Verif.Request

/-- An operation of a list in a response: `ResponseOpSingle` or `ResponseOpRange`, `sync3/response.go:106-143`. -/
inductive COp
  | single (o : ListOps.Op String)
  | range (o : ConnLists.ROp)
  deriving DecidableEq

/-- The loop of SYNC, `client/sync.js:376-382`, over the rooms that fall into the range (room IDs are not empty). -/
def setFrom (m : ListOps.CMap String) (i : Int) : List String → ListOps.CMap String
  | [] => m
  | x :: xs => setFrom (m.set i (some x)) (i + 1) xs

/-- One operation, `client/sync.js:306-388`. -/
def clientStep (rs : Ranges) (c : ListOps.Client String) : COp → Option (ListOps.Client String)
  | .single o => ListOps.clientOp rs c o
  | .range (.invalidate r) => some { c with m := c.m.filter fun p => !(decide (r.1 ≤ p.1) && decide (p.1 ≤ r.2)) }
  | .range (.sync r ids) => some { c with m := setFrom c.m r.1 (ids.take (r.2 + 1 - r.1).toNat) }

/-- All operations of a response, then the pending gap, `client/sync.js:302-394`. -/
def replay (rs : Ranges) (m : ListOps.CMap String) (ops : List COp) : Option (ListOps.CMap String) := do
  let c ← ops.foldlM (clientStep rs) ⟨m, -1⟩
  pure (if c.gap ≠ -1 then ListOps.removeEntry rs c.m c.gap else c.m)

/-- The ranges of a list in a request. -/
def rangesOf (l : RList) : Ranges := l.ranges.getD []

/-- What `resort` reads from the list in the request. -/
def reqOf (l : RList) : Lists.Req := ⟨rangesOf l, l.sort.getD [], ConnLists.getsAll l⟩

variable (S : Lists.Strs) (key : String)

/-- Re-creating the list if the filters changed, `sync3/handler/connstate.go:330-333`. -/
def recreate (fc : Bool) (s : Lists.State) (next : RList) (p2 : List String → List String) : Option Lists.State :=
  if fc then Lists.assign S s key (next.filters.getD {}) next.sort true p2 else some s

/-- Sorting the list if the order or the filters changed, `sync3/handler/connstate.go:334-338`. -/
def resortIf (changed : Bool) (s : Lists.State) (next : RList) : Option Lists.State :=
  if changed then Lists.sortOp S s key (next.sort.getD []) else some s

/-- `onIncomingListRequest`, `sync3/handler/connstate.go:269-424`: the lists of the connection afterwards and the
operations.  `p1`, `p2` are the orders in which the map of rooms is iterated; nil filters are empty filters
(`sync3/sort.go:223-228`). -/
def request (joined : String → Bool) (s : Lists.State) (prev : Option RList) (next : RList)
    (p1 p2 : List String → List String) : Option (Lists.State × List ConnLists.ROp) := do
  let isNew := (Lists.getList s key).isNone
  let s1 ← Lists.assign S s key (next.filters.getD {}) next.sort false p1
  let l1 ← Lists.getList s1 key
  if ConnLists.getsAll next && (isNew || ConnLists.filtersChanged prev next) then
    pure (s1, [.sync (0, (l1.sr.ids.length : Int) - 1) l1.sr.ids])
  else
    let sc := ConnLists.sortChanged prev next
    let fc := ConnLists.filtersChanged prev next
    let s2 ← recreate S key fc s1 next p2
    let s3 ← resortIf S key (sc || fc) s2 next
    let l3 ← Lists.getList s3 key
    let res ← ConnLists.onListRequest joined isNew l1.sr.ids l3.sr.ids prev next
    pure (s3, res.ops)

/-- What happens while a request is being answered. -/
inductive Ev
  /-- a live update of a room; `others` are the other lists of the request -/
  | update (others : String → Lists.Req) (r : Lists.Room)
  /-- something the connection does for another list -/
  | other (o : Lists.Op)

/-- The operations `resort` returns for the list, `sync3/handler/connstate_live.go:423-459`; a panic is caught by
`Lists.update`. -/
def opsOf (all : String → Option Lists.Room) (req : Lists.Req) (l : Lists.FList) (r : Lists.Room) : List (ListOps.Op String) :=
  match Lists.deltaOf S all l r with
  | none => []
  | some op =>
    if req.getAll then []
    else
      match ListOps.calculateListOps req.ranges
          (fun ids => ((SortableRooms.sort ⟨ids, fun _ => none⟩ (Lists.findM S all key) req.sort).map (·.ids)).getD ids)
          (Lists.incl S all l.filter r) l.sr.ids r.id op with
      | none => []
      | some res => res.ops

/-- One event, with the operations it adds to the response. -/
def event (cur : Option RList) (s : Lists.State) : Ev → Option (Lists.State × List (ListOps.Op String))
  | .update others r => do
    let req := fun k => if k = key then (cur.map reqOf).getD (others k) else others k
    let s' ← Lists.update S s req r
    let ops :=
      match Lists.getList s key with
      | none => []
      | some l => opsOf S key s'.all (req key) l (Lists.mergeRoom s r)
    pure (s', ops)
  | .other o => (Lists.step S s o).map (·, [])

/-- All events of a round. -/
def events (cur : Option RList) (s : Lists.State) : List Ev → Option (Lists.State × List (ListOps.Op String))
  | [] => some (s, [])
  | e :: es => do
    let (s1, o1) ← event S key cur s e
    let (s2, o2) ← events cur s1 es
    pure (s2, o1 ++ o2)

/-- The server's lists, the list of the merged request (`s.muxedReq.Lists[key]`) and the client's rooms by index. -/
structure World where
  s : Lists.State := {}
  cur : Option RList := none
  m : ListOps.CMap String := []

/-- A request and what happens until its response.  `next` is the list of the merged request. -/
structure Round where
  next : Option RList
  joined : String → Bool := fun _ => true
  p1 : List String → List String := id
  p2 : List String → List String := id
  evs : List Ev := []

/-- `buildListSubscriptions` for the list, `sync3/handler/connstate.go:426-441`: a list that is no longer requested is
deleted. -/
def listSub (s : Lists.State) (cur : Option RList) (r : Round) : Option (Lists.State × List ConnLists.ROp) :=
  match r.next with
  | none => some (if cur.isSome then Lists.delete s key else s, [])
  | some next => request S key r.joined s cur next r.p1 r.p2

/-- The server's side of a round: its lists afterwards, and the operations in the response. -/
def respond (s : Lists.State) (cur : Option RList) (r : Round) : Option (Lists.State × List COp) := do
  let (s1, o1) ← listSub S key s cur r
  let (s2, o2) ← events S key r.next s1 r.evs
  pure (s2, o1.map .range ++ o2.map .single)

/-- The client's side of a round. -/
def receive (m : ListOps.CMap String) (next : Option RList) (ops : List COp) : Option (ListOps.CMap String) :=
  match next with
  | none => some []
  | some next => replay (rangesOf next) m ops

/-- A round: the server responds and the client replays. -/
def round (w : World) (r : Round) : Option World := do
  let (s, ops) ← respond S key w.s w.cur r
  let m ← receive w.m r.next ops
  pure ⟨s, r.next, m⟩

/-- A history of the connection; `none` if the server panics or the client throws. -/
def run (w : World) : List Round → Option World
  | [] => some w
  | r :: rs => (round S key w r).bind fun w' => run w' rs

end Verif.ListSync
