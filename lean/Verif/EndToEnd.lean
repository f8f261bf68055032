import Verif.StartPos
import Verif.Visibility
import Verif.Dispatcher
/-!
# Model of the whole way of an event: from a poller to the client

The parts are those of the other modules: the store (`Store`), the positions a connection starts from (`StartPos`), what part of a
timeline a user may see (`Visibility`) and the dispatcher with its tracker (`Dispatcher`, `Tracker`). Here they are put together: pollers
store sections of sync responses and publish messages (`sync2/handler2/handler.go:260-394`), the request handler takes them one by one and
gives the events to the dispatcher (`sync3/handler/handler.go:650-693,829-877`), which gives them to the user's connection
(`sync3/handler/connstate.go:744-765`), whose requests read rooms from the store (`sync3/handler/connstate.go:109-171,554-583`) and take
events from the queue (`sync3/handler/connstate_live.go:133-262`).

For one user and one connection at a time. Simplified: pollers write one at a time (`sync2/poller.go:314-318`); messages are neither lost nor
exchanged (C87), nor are queued updates (C82); the connection has a single queue, so there is no delay for transaction ids (C25, C99) and no
update other than events; no sender is ignored; which rooms are loaded and whether an event is of interest is decided by the lists and
is an arbitrary input (C06, C81). Loading the positions is one step (`C101_stable` says why it may be). An event is known by the number
of its row; its membership is given by its id.
-/
namespace Verif.EndToEnd
open Verif.Store (DB Row)

structure Cfg where
  user : String
  /-- `content.membership` of the event with the id -/
  mem : String → String
  /-- `MaxTimelineLimit` -/
  maxLimit : Nat

/-- What the pollers publish, `pubsub/v2.go`. -/
inductive Msg
  | acc (room : String) (nids : List Nat)
  | init (room : String) (snap : Nat)
  | inval (room : String)
  deriving DecidableEq

/-- An update in the queue: the room, the event (the number of its row) and its position. -/
structure Upd where
  room : String
  ev : Nat
  nid : Nat
  deriving DecidableEq

structure Conn where
  /-- `anchorLoadPosition` -/
  anchor : Nat := 0
  /-- `loadPositions`, 0 for a missing entry -/
  lp : String → Nat := fun _ => 0
  /-- `updates` -/
  queue : List Upd := []
  /-- the timeline the client has of a room: that of the initial data and what was appended since; none if the client was never given
  the room, or was not told of an event since -/
  view : String → Option (List Nat) := fun _ => none
  /-- the state the client was given with the room -/
  base : String → Option (List Row) := fun _ => none
  /-- the events the client was given since (`num_live`, C110) -/
  live : String → List Nat := fun _ => []

structure State where
  db : DB := {}
  bus : List Msg := []
  disp : Dispatcher.State := ⟨Tracker.empty, []⟩
  conn : Option Conn := none
  /-- recorded: the position of the last event handed on -/
  handed : Nat := 0

/-! ## Pollers -/

/-- The messages for a section of a response: `Accumulate` (`sync2/handler2/handler.go:293-316`) and `Initialise`
(`sync2/handler2/handler.go:378-393`). A new snapshot is told from its number. -/
def publish (db : DB) : Store.Op → List Msg
  | .acc room skip limited timeline =>
    match Store.accumulate db room skip limited timeline with
    | none => []
    | some (_, post) => if post.length ≠ 0 then [.acc room (post.map (·.nid))] else []
  | .init room skip block =>
    match Store.initialise db room skip block with
    | none => []
    | some db' =>
      if db'.cur room = db.cur room then []
      else if db.cur room ≠ 0 then [.inval room]
      else [.init room (db'.cur room)]

/-! ## The request handler's listener -/

/-- `newEventData`, `sync3/dispatcher.go:98-118`. -/
def toEvent (cfg : Cfg) (r : Row) : Dispatcher.Event :=
  { id := r.nid, type := r.ev.type, stateKey := if r.ev.hasKey then some r.ev.stateKey else none, membership := cfg.mem r.ev.id }

/-- `OnRoomUpdate`, `sync3/handler/connstate.go:744-765`, for what the dispatcher gives to the user: events of state blocks are dropped. -/
def give (cfg : Cfg) (ds : List Dispatcher.Delivery) (c : Conn) : Conn :=
  { c with queue := c.queue ++ (ds.filter fun d => decide (d.to = cfg.user) && decide (d.nid ≠ 0)).map fun d => ⟨d.room, d.ev.id, d.nid.toNat⟩ }

/-- One turn of the loop `sync3/handler/handler.go:664-666`. -/
def dispatch (cfg : Cfg) (room : String) (s : State) (x : Row × Nat) : State :=
  let r := Dispatcher.onNewEvent s.disp room (toEvent cfg x.1) x.2
  { s with disp := r.1, conn := s.conn.map (give cfg r.2), handed := x.2 }

/-- The users of the current memberships, `FetchMemberships`, `state/storage.go:395-432`: those with the memberships, or those with others. -/
def membersWith (cfg : Cfg) (db : DB) (room : String) (p : String → Bool) : List String :=
  match Store.selectSnap db (db.cur room) with
  | none => []
  | some s => (db.rows.filter fun r => decide (r.nid ∈ s.members) && p (cfg.mem r.ev.id)).map (·.ev.stateKey)

/-- A message is taken: `Accumulate` (`sync3/handler/handler.go:650-668`), `Initialise` (`sync3/handler/handler.go:681-693`) and
`OnInvalidateRoom` (`sync3/handler/handler.go:829-877`). -/
def handle (cfg : Cfg) (s : State) : Msg → State
  | .acc room nids =>
    match Store.selectByNIDs s.db nids with
    | none => s
    | some rows => (rows.zip nids).foldl (dispatch cfg room) s
  | .init room snap =>
    match Store.stripped s.db snap with
    | none => s
    | some rows =>
      let r := Dispatcher.onNewInitialRoomState s.disp room (rows.map (toEvent cfg))
      { s with disp := r.1, conn := s.conn.map (give cfg r.2) }
  | .inval room =>
    let joins := membersWith cfg s.db room (· == "join")
    let invites := membersWith cfg s.db room (· == "invite")
    let leaves := membersWith cfg s.db room fun m => m != "join" && m != "invite"
    let r := Dispatcher.unregister (Dispatcher.onInvalidateRoom s.disp room joins invites) (joins ++ invites ++ leaves)
    { s with disp := r.1, conn := if cfg.user ∈ r.2 then none else s.conn }

/-! ## The connection -/

/-- The member events of the user. -/
def mrows (cfg : Cfg) (db : DB) : List Visibility.MEv :=
  (db.rows.filter fun r => decide (r.ev.type = "m.room.member") && decide (r.ev.stateKey = cfg.user)).map fun r => ⟨r.room, r.nid, cfg.mem r.ev.id⟩

def trows (db : DB) : List Visibility.TEv := db.rows.map fun r => ⟨r.room, r.nid, r.isState, r.missing⟩

/-- The rooms the user is in at a position, `JoinedRoomsAfterPosition`, `state/storage.go:1142-1189`. -/
def joinedRooms (cfg : Cfg) (db : DB) (pos : Nat) : List String :=
  (db.rows.map (·.room)).eraseDups.filter fun room =>
    (Visibility.determineJoined ((mrows cfg db).filter fun e => decide (e.nid ≤ pos)) room).isSome

/-- `load`, `sync3/handler/connstate.go:109-171`, with `LoadJoinedRooms`, `sync3/caches/global.go:142-172`. -/
def load (cfg : Cfg) (db : DB) (c : Conn) : Conn :=
  let pos := Store.highest db
  let m := Store.latestNIDs db pos (joinedRooms cfg db pos)
  { c with anchor := pos, lp := fun r => (Assoc.get m r).getD (c.lp r) }

def set {α : Type} (f : String → α) (r : String) (v : α) : String → α := fun x => if x = r then v else f x

/-- `required_state` of a room loaded with `["*", "*"]`, `LoadRoomState`, `sync3/caches/global.go:191-223` and
`sync3/handler/connstate.go:614-616`: nothing if the state cannot be read. Which part is sent to a client that asks for less is said by C102. -/
def stateOf (db : DB) (room : String) (pos : Nat) : List Row := (Store.stateAfter db room pos).getD []

/-- `getInitialRoomData` for one room with a timeline limit, `sync3/handler/connstate.go:566-583,614-616`; without an entry for the room the position
stays and the timeline is empty. -/
def load1 (cfg : Cfg) (db : DB) (c : Conn) (x : String × Nat) : Conn :=
  match Visibility.latestEvents (mrows cfg db) (trows db) [x.1] c.anchor cfg.maxLimit x.2 x.1 with
  | none =>
    { c with
      view := set c.view x.1 (some [])
      base := set c.base x.1 (some (stateOf db x.1 c.anchor))
      live := set c.live x.1 [] }
  | some t =>
    let t := t.map (·.nid.toNat)
    { c with
      lp := set c.lp x.1 (t.getLast?.getD 0)
      view := set c.view x.1 (some t)
      base := set c.base x.1 (some (stateOf db x.1 c.anchor))
      live := set c.live x.1 [] }

/-- `buildRooms`, `sync3/handler/connstate.go:468-524`. -/
def loads (cfg : Cfg) (db : DB) (c : Conn) (xs : List (String × Nat)) : Conn := xs.foldl (load1 cfg db) c

/-- The end of `processLiveUpdate`, `sync3/handler/connstate_live.go:224-262`. -/
def append (c : Conn) (u : Upd) : Conn :=
  { c with
    view := if u.nid ≤ c.lp u.room then c.view else set c.view u.room (some ((c.view u.room).getD [] ++ [u.ev]))
    live := if u.nid ≤ c.lp u.room then c.live else set c.live u.room (c.live u.room ++ [u.ev])
    lp := set c.lp u.room u.nid }

/-- `processLiveUpdate`, `sync3/handler/connstate_live.go:133-262`; `vis` is `hasUpdates`. -/
def deliver (cfg : Cfg) (db : DB) (c : Conn) (u : Upd) (vis : Bool) (xs : List (String × Nat)) : Conn :=
  if 0 < c.lp u.room ∧ u.nid < c.lp u.room then c
  else
    let c1 := loads cfg db { c with anchor := max c.anchor u.nid } xs
    if vis then append c1 u
    else if xs.any (·.1 = u.room) then c1
    else { c1 with view := set c1.view u.room none, base := set c1.base u.room none }

/-- A request up to the live loop: `OnIncomingRequest`, `sync3/handler/connstate.go:174-189`. -/
def request (cfg : Cfg) (db : DB) (c : Conn) (xs : List (String × Nat)) : Conn :=
  loads cfg db (if c.anchor = 0 then load cfg db c else c) xs

/-- An update is taken from the queue; a request has loaded the connection before. -/
def take (cfg : Cfg) (db : DB) (c : Conn) (vis : Bool) (xs : List (String × Nat)) : Conn :=
  if c.anchor = 0 then c
  else match c.queue with
    | [] => c
    | u :: q => deliver cfg db { c with queue := q } u vis xs

/-- The process ends and starts again: the messages and the connection are gone, and the dispatcher is filled from the store, `Startup`,
`sync3/handler/handler.go:108-117` and `sync3/dispatcher.go:51-57`, with the joined members of the current snapshots, `AllJoinedMembers`,
`state/storage.go:996-1073`. All that is stored counts as handed on. -/
def restart (cfg : Cfg) (s : State) : State :=
  { db := s.db
    disp := ⟨Tracker.startup ((s.db.rows.map (·.room)).eraseDups.map fun room => (room, membersWith cfg s.db room (· == "join"))), []⟩
    handed := (s.db.rows.getLast?.map (·.nid)).getD 0 }

inductive Op
  /-- a poller handles a section of a response -/
  | poll (o : Store.Op)
  /-- the request handler takes a message -/
  | recv
  /-- a connection is made and registered, `sync3/handler/handler.go:439-457` -/
  | «open»
  | request (xs : List (String × Nat))
  | take (vis : Bool) (xs : List (String × Nat))
  | restart

def step (cfg : Cfg) (s : State) : Op → State
  | .poll o => { s with db := Store.step s.db o, bus := s.bus ++ publish s.db o }
  | .recv =>
    match s.bus with
    | [] => s
    | m :: rest => handle cfg { s with bus := rest } m
  | .open => { s with disp := Dispatcher.register s.disp cfg.user, conn := some {} }
  | .request xs => { s with conn := s.conn.map fun c => request cfg s.db c xs }
  | .take vis xs => { s with conn := s.conn.map fun c => take cfg s.db c vis xs }
  | .restart => restart cfg s

def run (cfg : Cfg) (s : State) (ops : List Op) : State := ops.foldl (step cfg) s

end Verif.EndToEnd
