import Verif.LazyMember
/-!
# What a client that lazily loads members knows of them

With `["m.room.member", "$LAZY"]` a connection sends the member events of those users only that the client hears of: the senders in the
first timeline of a room (`sync3/handler/connstate.go:569-597`, `sync3/caches/global.go:192-224`), the senders of live events
(`sync3/handler/connstate_live.go:248-262`) and users who type (`sync3/handler/connstate.go:526-553`). The client keeps the member events
it has, takes over those of the required state, and then those of the timeline.

Positions are counted in the events of each room, in place of the global numbers of the events. The state at a position is that after all
events up to it (C41 says when the store gives it). Loading state does not fail. Live updates that are always processed, which repeat an
event, are left out. The cache of the members that were sent is that of `LazyMember`, with its keys.
-/
namespace Verif.LazyFlow
open Verif.LazyMember (Str)

/-- A stored event: who sent it, and for a member event whose membership it is. -/
structure Ev where
  id : Nat
  sender : Str
  member : Option Str := none
  deriving DecidableEq, Repr

/-- `RoomStateAfterEventPosition` for the member event of a user, `state/storage.go:520-660`, called by `LoadStateEvent`,
`sync3/caches/global.go:174-188`. -/
def memberAt (h : List Ev) (n : Nat) (u : Str) : Option Ev := (h.take n).reverse.find? fun e => e.member = some u

/-- What a response says of a room: the required state, the timeline, and who types. -/
structure Resp where
  room : Str
  state : List Ev
  timeline : List Ev
  typing : List Str := []
  deriving DecidableEq

structure W where
  /-- the stored events of the rooms -/
  hist : Str → List Ev := fun _ => []
  lc : LazyMember.State := {}
  /-- `ConnState.loadPositions` -/
  pos : Str → Nat := fun _ => 0
  /-- the rooms that were sent -/
  sent : Str → Bool := fun _ => false
  /-- the member events the client has -/
  client : Str → Str → Option Ev := fun _ _ => none

inductive Op
  /-- an event of the room is stored -/
  | store (r : Str) (e : Ev)
  /-- the room is sent with its last `limit` events up to `n`, without the messages that are not `shown` -/
  | initial (r : Str) (n limit : Nat) (lazyLoading : Bool) (shown : Nat → Bool)
  /-- the update with the `n`th event of the room is processed, the first being 1 -/
  | live (r : Str) (n : Nat)
  /-- the client is told who types -/
  | typing (r : Str) (us : List Str)

def set {β : Type} (f : Str → β) (r : Str) (b : β) : Str → β := fun q => if q = r then b else f q

/-- The client takes over an event. -/
def learn1 (c : Str → Option Ev) (e : Ev) : Str → Option Ev :=
  match e.member with
  | some u => set c u (some e)
  | none => c

def learn (c : Str → Option Ev) (es : List Ev) : Str → Option Ev := es.foldl learn1 c

/-- The timeline of `LazyLoadTimelines`: the last events, without messages of ignored users, `sync3/caches/user.go:325-346`. -/
def timeline (h : List Ev) (n limit : Nat) (shown : Nat → Bool) : List Ev :=
  ((h.take n).drop ((h.take n).length - limit)).filter fun e => e.member.isSome || shown e.id

/-- The member event of a user the client hears of, `sync3/handler/connstate_live.go:250-262` and `sync3/handler/connstate.go:537-546`. -/
def lazyUser (s : LazyMember.State) (h : List Ev) (n : Nat) (r u : Str) : LazyMember.State × List Ev :=
  if LazyMember.isLazyLoading s r && !LazyMember.isSet s r u then
    match memberAt h n u with
    | some m => ((LazyMember.addUser s r u).1, [m])
    | none => (s, [])
  else (s, [])

def lazyUsers (s : LazyMember.State) (h : List Ev) (n : Nat) (r : Str) : List Str → LazyMember.State × List Ev
  | [] => (s, [])
  | u :: us =>
    let a := lazyUser s h n r u
    let b := lazyUsers a.1 h n r us
    (b.1, a.2 ++ b.2)

/-- A step; `rep` says that the client forgets what it has of a room when the room is sent with `initial: true`. -/
def step (rep : Bool) (w : W) : Op → W × Option Resp
  | .store r e => ({ w with hist := set w.hist r (w.hist r ++ [e]) }, none)
  | .initial r n limit l shown =>
    let h := w.hist r
    let t := timeline h n limit shown
    let senders := t.map (·.sender)
    let st := if l then senders.filterMap (memberAt h n) else []
    ({ w with
        lc := if l then LazyMember.add w.lc r senders else w.lc
        pos := set w.pos r (min n h.length)
        sent := set w.sent r true
        client := set w.client r (learn (if rep then fun _ => none else w.client r) (st ++ t)) },
      some { room := r, state := st, timeline := t })
  | .live r n =>
    if n = 0 then (w, none) else
    match (w.hist r)[n - 1]? with
    | none => (w, none)
    | some e =>
      if n ≤ w.pos r then ({ w with pos := set w.pos r n }, none)
      else
        let a := lazyUser w.lc (w.hist r) n r e.sender
        ({ w with lc := a.1, pos := set w.pos r n, client := set w.client r (learn (w.client r) (a.2 ++ [e])) },
          some { room := r, state := a.2, timeline := [e] })
  | .typing r us =>
    let a := lazyUsers w.lc (w.hist r) (w.pos r) r us
    ({ w with lc := a.1, client := set w.client r (learn (w.client r) a.2) },
      some { room := r, state := a.2, timeline := [], typing := us })

def run (rep : Bool) (w : W) (ops : List Op) : W := ops.foldl (fun w o => (step rep w o).1) w

end Verif.LazyFlow
