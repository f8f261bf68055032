import Verif.Lists
/-!
# Model of how changes of rooms reach the filters of a connection's lists

One user, one connection, any number of rooms: what filters read in the caches, the updates made from them
(`sync3/caches/user.go:397-415,546-787`), the wait for transaction ids (`sync3/handler/txn_id_waiter.go:29-100`), the channel of
the connection, `load` (`sync3/handler/connstate.go:109-171`), the processing of updates (`sync3/handler/connstate_live.go:133-152,
335-381`) and the lists (`Lists`).

Simplified: the metadata an event gives a room is a parameter (C71, C74), and so is whether the dispatcher passes the event to the user
(C22); an `m.space.child` event is two steps, for the child and for the space; releasing several events is several steps; the buffer of
the channel is not full.  Missing entries of the caches read as empty ones, as `NewRoomMetadata` and `NewUserRoomData` are.
-/
namespace Verif.FilterFlow
open Verif

/-- What filters read of `internal.RoomMetadata`, `internal/roomname.go:15-47`. -/
structure G where
  upgraded : Option String := none
  encrypted : Bool := false
  name : String := ""
  roomType : Option String := none
  deriving DecidableEq

/-- What filters read of `UserRoomData`, `sync3/caches/user.go:41-68`. -/
structure U where
  isDM : Bool := false
  isInvite : Bool := false
  hasLeft : Bool := false
  tags : List String := []
  spaces : List String := []
  deriving DecidableEq

/-- A `RoomConnMetadata` of both, `sync3/handler/connstate_live.go:367-371`. -/
def both (g : G) (u : U) : Filters.Room :=
  ⟨g.upgraded, g.encrypted, u.isDM, u.isInvite, u.hasLeft, g.name, g.roomType, u.tags, u.spaces⟩

/-- What is used of the `EventData` of a `RoomEventUpdate`. `wait` is its room, which need not be the room of the update
(`user.go:583-589`); `sender` is there for events without a state key; `noTxn`: sent by the user, not a state event, and without a
transaction id while there is a delay for these (`txn_id_waiter.go:32-50`). -/
structure Ev where
  nid : Nat
  wait : String
  sender : Option String := none
  noTxn : Bool := false
  always : Bool := false
  deriving DecidableEq

/-- A `RoomUpdate` with the copies of the caches in it; `ev` if it is a `RoomEventUpdate`. -/
structure Entry where
  room : String
  f : Filters.Room
  ev : Option Ev := none
  deriving DecidableEq

/-- The data of a room that no filter reads. -/
structure X where
  highlight : Int := 0
  notif : Int := 0
  lastMsg : Nat := 0
  interested : String → Option Nat := fun _ => none

structure St where
  /-- the global cache -/
  glob : String → G := fun _ => {}
  /-- `roomToData` of the user's cache -/
  usr : String → U := fun _ => {}
  ignored : List String := []
  /-- the connection listens to the user's cache -/
  subscribed : Bool := false
  loaded : Bool := false
  /-- the queues of the `TxnIDWaiter`, of all rooms -/
  held : List Entry := []
  queue : List Entry := []
  /-- `loadPositions` -/
  lp : String → Nat := fun _ => 0
  lists : Lists.State := {}

inductive Op
  /-- `NewConnState` -/
  | connect
  /-- `load`: the joined rooms with metadata, the invites with theirs, and the positions read from the store -/
  | load (rooms : List (String × X)) (invites : List (String × G × X)) (pos : String → Option Nat)
  /-- a state event; `mine`: it is the user's membership, and whether that is `invite`; `nid` is 0 for a state block -/
  | state (room : String) (nid : Nat) (g : G) (mine : Option Bool) (told : Bool)
  | message (room : String) (nid : Nat) (sender : String) (noTxn told : Bool)
  /-- an `m.space.child` in `parent`; `told`: the user is joined to the child -/
  | space (parent child : String) (nid : Nat) (deleted told : Bool)
  /-- `m.tag` of a room -/
  | tag (room : String) (tags : List String)
  /-- `m.direct` -/
  | direct (rooms : List String)
  | ignore (users : List String)
  /-- unread counts, typing, a receipt or other account data of a room -/
  | other (room : String)
  | invite (room : String) (g : G) (dm : Bool)
  /-- `OnLeftRoom`; `always`: it is a kick, or the user was invited -/
  | left (room : String) (always : Bool)
  /-- the waiter releases the first event of a room -/
  | release (room : String)
  /-- an update is processed; `visible`: the room is in a window or a subscription -/
  | process (req : String → Lists.Req) (x : X) (visible : Bool)
  /-- the room is sent with `initial: true`, with the timeline up to a position -/
  | build (room : String) (pos : Nat)
  /-- the request changes the lists -/
  | list (o : Lists.Op)

/-- What filters would read now. -/
def cur (s : St) (r : String) : Filters.Room := both (s.glob r) (s.usr r)

def waits (w : String) (e : Entry) : Bool := decide (e.ev.map (·.wait) = some w)

/-- `emitOnRoomUpdate`, `user.go:522-532`, `OnRoomUpdate`, `connstate.go:747-768`, and `Ingest`, `txn_id_waiter.go:29-64`. -/
def emit (s : St) (e : Entry) : St :=
  if !s.subscribed then s
  else match e.ev with
  | none => { s with queue := s.queue ++ [e] }
  | some v =>
    if !v.always && decide (v.nid = 0) then s
    else if v.noTxn || s.held.any (waits v.wait) then { s with held := s.held ++ [e] }
    else { s with queue := s.queue ++ [e] }

def setUsr (s : St) (r : String) (u : U) : St := { s with usr := fun i => if i = r then u else s.usr i }

/-- The argument of `SetRoom`. -/
def room (r : String) (f : Filters.Room) (x : X) : Lists.Room := ⟨r, f, x.highlight, x.notif, x.lastMsg, x.interested⟩

variable (S : Lists.Strs)

/-- `SetRoom` for each of some rooms, `connstate.go:166-168`. -/
def setAll (req : String → Lists.Req) (l : Lists.State) : List Lists.Room → Option Lists.State
  | [] => some l
  | r :: rs => (Lists.update S l req r).bind fun l' => setAll req l' rs

/-- The rooms `load` puts into the lists, `connstate.go:117-165`: the joined ones, then the invites of the user's cache. -/
def loadRooms (s : St) (rooms : List (String × X)) (invites : List (String × G × X)) : List Lists.Room :=
  rooms.map (fun p => room p.1 (cur s p.1) p.2) ++
    (invites.filter fun p => (s.usr p.1).isInvite).map fun p => room p.1 (both p.2.1 (s.usr p.1)) p.2.2

/-- Is the update skipped, `connstate_live.go:139-162`? -/
def skipped (s : St) (e : Entry) : Bool :=
  match e.ev with
  | none => false
  | some v =>
    (!v.always && decide (s.lp e.room > 0) && decide (v.nid < s.lp e.room)) ||
      match v.sender with
      | none => false
      | some u => decide (u ∈ s.ignored)

/-- The new load position, `connstate_live.go:222-232`. -/
def advance (s : St) (e : Entry) (visible : Bool) : String → Nat :=
  match e.ev with
  | none => s.lp
  | some v => if visible && !v.always then fun i => if i = e.room then v.nid else s.lp i else s.lp

/-- `processLiveUpdate`, `connstate_live.go:133-187`, with `processGlobalUpdates`, `connstate_live.go:335-381`. -/
def process (s : St) (req : String → Lists.Req) (x : X) (visible : Bool) : Option St :=
  match s.queue with
  | [] => some s
  | e :: q =>
    if skipped s e then some { s with queue := q }
    else (Lists.update S s.lists req (room e.room e.f x)).map fun l =>
      { s with queue := q, lists := l, lp := advance s e visible }

/-- `none` is a panic. -/
def step (s : St) : Op → Option St
  | .connect => some { s with subscribed := true }
  | .load rooms invites pos =>
    if s.loaded then some s
    else (setAll S (fun _ => ⟨[], [], false⟩) s.lists (loadRooms s rooms invites)).map fun l =>
      { s with loaded := true, lists := l, lp := fun r => (pos r).getD (s.lp r) }
  | .state r n g mine told =>
    -- `user.go:597-602`, for events the user is told
    let u := s.usr r
    let u := match mine with
      | some inv => if told && u.isInvite then { u with isInvite := inv } else u
      | none => u
    let s := setUsr { s with glob := fun i => if i = r then g else s.glob i } r u
    some (if told then emit s ⟨r, cur s r, some { nid := n, wait := r }⟩ else s)
  | .message r n sender noTxn told =>
    some (if told then emit s ⟨r, cur s r, some { nid := n, wait := r, sender := some sender, noTxn := noTxn }⟩ else s)
  | .space p c n deleted told =>
    let u := s.usr c
    let sp := u.spaces.filter fun i => decide (i ≠ p)
    let s := setUsr s c { u with spaces := if deleted then sp else p :: sp }
    some (if told then emit s ⟨c, cur s c, some { nid := n, wait := p }⟩ else s)
  | .tag r ts =>
    let s := setUsr s r { s.usr r with tags := ts }
    some (emit s ⟨r, cur s r, none⟩)
  | .direct rs => some { s with usr := fun i => { s.usr i with isDM := decide (i ∈ rs) } }
  | .ignore us => some { s with ignored := us }
  | .other r => some (emit s ⟨r, cur s r, none⟩)
  | .invite r g dm =>
    let s := setUsr s r { s.usr r with isInvite := true, hasLeft := false, isDM := dm }
    some (emit s ⟨r, both g (s.usr r), none⟩)
  | .left r always =>
    let s := setUsr s r { s.usr r with isInvite := false, hasLeft := true }
    some (emit s ⟨r, both {} (s.usr r), some { nid := 0, wait := r, always := always }⟩)
  | .release w =>
    match s.held.find? (waits w) with
    | none => some s
    | some e => some { s with held := s.held.eraseP (waits w), queue := s.queue ++ [e] }
  | .process req x visible => if s.loaded then process S s req x visible else some s
  | .build r p => some { s with lp := fun i => if i = r then p else s.lp i }
  | .list o =>
    match o with
    | .update _ _ => some s
    | o => (Lists.step S s.lists o).map fun l => { s with lists := l }

def run (s : St) : List Op → Option St
  | [] => some s
  | o :: os => (step S s o).bind fun s' => run s' os

end Verif.FilterFlow
