import Verif.ConnFlow
/-!
Unread counts of a room from the cache of the user to the client: the cache (sync3/caches/user.go 546-569, 593-634), the events held
back for a transaction id (sync3/handler/txn_id_waiter.go 30-93), the channel of updates of the connection, the copy of the counts in
its lists (sync3/lists.go 59-68), what is put into a response (sync3/handler/connstate_live.go 133-308,
sync3/handler/connstate.go 554-700), the connection with its buffer of responses and the client (`ConnFlow`).

One room, which the user is in or invited to and does not leave, and one connection at a time. Updates of other rooms do not touch the
counts of this one; they may bring it into view, which is a step of its own here. That the cache has the counts of the table is C94.
Messages of ignored users are skipped in the same way as events the connection has already loaded, but have no counts of their own.
Counts are in the JSON of a room also if they are 0 (sync3/room.go 18-19). A connection that is destroyed ends at once, with its
request.
-/
namespace Verif.UnreadFlow
open Verif

/-- `NotificationCount` and `HighlightCount`. -/
structure Counts where
  notif : Nat := 0
  high : Nat := 0
  deriving DecidableEq

/-- An update for a connection has the counts in the cache when it was made, sync3/caches/user.go 397-415. `ends`: the event is the
user's own membership, which ended an invite. -/
inductive Entry
  | event (nid : Nat) (ends : Bool) (v : Counts)
  | other (v : Counts)
  deriving DecidableEq

def Entry.counts : Entry → Counts
  | .event _ _ v => v
  | .other v => v

/-- The client takes the counts of a response that has the room. -/
def put (h : Option Counts) (o : Option Counts) : Option Counts := o.or h

structure State where
  /-- the cache of the user -/
  cur : Counts := {}
  /-- the events held back for the connection -/
  held : List Entry := []
  /-- the channel of the connection -/
  queue : List Entry := []
  /-- the connection has loaded its rooms -/
  loaded : Bool := false
  /-- `allRooms` of the connection, if the room is there -/
  existing : Option Counts := none
  /-- `loadPositions` of the connection -/
  lp : Nat := 0
  /-- the connection has put the room, with `initial: true`, into a response -/
  sent : Bool := false
  c : ConnFlow.Client (Option Counts) (Option Counts) := { has := none }

/-- The update is emitted: to the connection, if there is one. -/
def State.emit (s : State) (e : Entry) : State := if s.c.conn.isSome then { s with queue := s.queue ++ [e] } else s

/-- `OnUnreadCounts`, sync3/caches/user.go 546-569. -/
def unread (s : State) (high notif : Option Nat) : State :=
  let cur : Counts := { notif := notif.getD s.cur.notif, high := high.getD s.cur.high }
  { s with cur := cur }.emit (.other cur)

/-- `OnInvite`, sync3/caches/user.go 621-647. -/
def invite (s : State) : State := { s with cur := { s.cur with high := 1 } }.emit (.other { s.cur with high := 1 })

/-- `OnNewEvent`, sync3/caches/user.go 593-619; `ends`: it is the user's own membership, which ends an invite. An event of a state
block (number 0) is not passed on (sync3/handler/connstate.go 742-750). `own`: it is a message of the user without a transaction id;
such an event is held back, and so are those after it (sync3/handler/txn_id_waiter.go 30-63). -/
def event (s : State) (nid : Nat) (own ends : Bool) : State :=
  let s := if ends then { s with cur := { s.cur with high := 0 } } else s
  if nid = 0 then s
  else if s.c.conn.isNone then s
  else if own ∨ s.held ≠ [] then { s with held := s.held ++ [.event nid ends s.cur] }
  else s.emit (.event nid ends s.cur)

/-- A request that reaches the handler; without a position there is a new connection, sync3/handler/connstate.go 61-96. -/
def ask (s : State) (body : Nat) : State :=
  let s' := { s with c := s.c.serve ⟨body, true, none⟩ }
  if s.c.pos = 0 then { s' with held := [], queue := [], loaded := false, existing := none, lp := 0, sent := false } else s'

/-- `getInitialRoomData`, sync3/handler/connstate.go 554-700: the counts are those of the cache. -/
def built (s : State) (lp : Nat) : State :=
  { s with lp := lp, sent := true, c := { s.c with busy := s.c.busy.map fun b => { b with out := some s.cur } } }

/-- The counts of an update are put into the response. -/
def told (s : State) (v : Counts) : State :=
  { s with c := { s.c with busy := s.c.busy.map fun b => { b with out := some v } } }

/-- `processLiveUpdate` for an update of the room, sync3/handler/connstate_live.go 133-308, with `SetRoom`, sync3/lists.go 59-68:
`visible`: `hasUpdates`; `build`: the room comes into a window or a subscription begins. -/
def take (s : State) (e : Entry) (visible : Bool) (build : Option Nat) : State :=
  let old := match e with
    | .event n _ _ => decide (0 < s.lp ∧ n < s.lp)
    | .other _ => false
  if old then s
  else
    let changed := match s.existing with
      | some x => decide (x ≠ e.counts)
      | none => false
    let s := { s with existing := some e.counts }
    let s := match build with
      | some p => built s p
      | none => s
    match e with
    | .event n _ v =>
      let s' := if visible then { s with lp := n } else s
      if visible ∨ changed then told s' v else s'
    | .other v => if changed then told s v else s

/-- What is possible. -/
structure Mode where
  /-- an event that was held back is released although the counts have changed since -/
  stale : Prop
  /-- the event that ended an invite is skipped as the connection has already loaded it -/
  skip : Prop
  /-- an invite ends with an event of a state block -/
  silent : Prop
  /-- a request fails with counts in its response, not being the first of its connection -/
  fails : Prop

/-- No restriction. -/
def Mode.any : Mode := ⟨True, True, True, True⟩

/-- The restrictions under which the client gets the counts. -/
def Mode.good : Mode := ⟨False, False, False, False⟩

/-- Executions, with the counts that the cache has had. -/
inductive Run (ok : Mode) : List Counts → State → Prop
  | start (cur : Counts) : Run ok [cur] { cur := cur }
  | unread {p : List Counts} {s : State} (high notif : Option Nat) (h : Run ok p s) : Run ok ((unread s high notif).cur :: p) (unread s high notif)
  | invite {p : List Counts} {s : State} (h : Run ok p s) : Run ok ((invite s).cur :: p) (invite s)
  | event {p : List Counts} {s : State} (nid : Nat) (own ends : Bool) (h : Run ok p s) (hs : ¬ ok.silent → nid = 0 → ends = false) :
      Run ok ((event s nid own ends).cur :: p) (event s nid own ends)
  /-- a typing notification, a receipt or account data of the room -/
  | other {p : List Counts} {s : State} (h : Run ok p s) : Run ok p (s.emit (.other s.cur))
  /-- the time of an event that is held back is over, or its transaction id is known, sync3/handler/txn_id_waiter.go 65-93 -/
  | release {p : List Counts} {s : State} {e : Entry} {l : List Entry} (h : Run ok p s) (hh : s.held = e :: l) (hs : ¬ ok.stale → e.counts = s.cur) :
      Run ok p ({ s with held := l }.emit e)
  /-- a request which is answered without the handler -/
  | again {p : List Counts} {s : State} (body : Nat) (arrives : Bool) (h : Run ok p s) (hb : s.c.busy = none) (hc : s.c.calls body = false) :
      Run ok p { s with c := s.c.repeated put body arrives }
  | ask {p : List Counts} {s : State} (body : Nat) (h : Run ok p s) (hb : s.c.busy = none) (hc : s.c.calls body = true) : Run ok p (ask s body)
  /-- the first request of a connection loads the rooms, sync3/handler/connstate.go 109-171; `known`: this one is among them -/
  | load {p : List Counts} {s : State} {b : ConnFlow.Busy (Option Counts)} (known : Bool) (lp : Nat) (h : Run ok p s) (hb : s.c.busy = some b) (hl : s.loaded = false) :
      Run ok p { s with loaded := true, existing := if known then some s.cur else none, lp := if known then lp else 0 }
  /-- the room comes into view by the request, or by an update of another room -/
  | build {p : List Counts} {s : State} {b : ConnFlow.Busy (Option Counts)} {x : Counts} (lp : Nat) (h : Run ok p s) (hb : s.c.busy = some b) (hx : s.existing = some x) :
      Run ok p (built s lp)
  /-- the request takes an update of the room from the channel -/
  | take {p : List Counts} {s : State} {b : ConnFlow.Busy (Option Counts)} {e : Entry} {q : List Entry} (visible : Bool) (build : Option Nat) (h : Run ok p s)
      (hb : s.c.busy = some b) (hl : s.loaded = true) (hq : s.queue = e :: q)
      (hs : ¬ ok.skip → ∀ n v, e = .event n true v → ¬ (0 < s.lp ∧ n < s.lp)) :
      Run ok p (take { s with queue := q } e visible build)
  /-- the request ends -/
  | done {p : List Counts} {s : State} {b : ConnFlow.Busy (Option Counts)} (fails arrives : Bool) (h : Run ok p s) (hb : s.c.busy = some b) (hl : fails = false → s.loaded = true)
      (hf : ¬ ok.fails → fails = true → s.c.pos = 0 ∨ b.out = none) : Run ok p { s with c := s.c.finish put b fails arrives }
  /-- the proxy restarts or the connection expires -/
  | lose {p : List Counts} {s : State} (h : Run ok p s) : Run ok p { s with held := [], queue := [], loaded := false, existing := none, lp := 0, sent := false, c := s.c.lose }

end Verif.UnreadFlow
