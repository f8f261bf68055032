import Verif.SideTables
import Verif.RoomsTableProps
/-!
# Model of the room metadata of `sync3/caches/global.go`, and of what feeds it

The store (`state/accumulator.go`), redactions (`state/event_table.go:382-418`), the payloads sent by
`sync2/handler2/handler.go:260-394`, the queue of `pubsub/pubsub.go` and the global cache.  The fields modelled are
the name, avatar, alias, encryption, upgrade, type, predecessor and children of a room; the member counts and heroes
are in `Heroes`, timestamps are not modelled.
-/
namespace Verif.Metadata

open Verif Verif.Store

/-- What is read of the JSON of an event: `content.name`, `content.url`, `content.alias` ("" if not a string),
`content.replacement_room` and `content.type` if they are strings, `content.predecessor.room_id`, whether
`content.via` is an array, and `redacts` or else `content.redacts`. -/
structure Content where
  name : String := ""
  url : String := ""
  alias : String := ""
  replacement : Option String := none
  ctype : Option String := none
  pred : String := ""
  via : Bool := false
  redacts : String := ""
  deriving DecidableEq

/-- `RoomMetadata`, `internal/roomname.go:30-53`, in part.  The set of children is its membership test. -/
structure Meta where
  name : String := ""
  avatar : String := ""
  alias : String := ""
  enc : Bool := false
  upgraded : Option String := none
  type : Option String := none
  pred : Option String := none
  children : String → Bool := fun _ => false

/-- `GlobalCache.OnNewEvent`, `global.go:281-378`; `c` is the content of the event. -/
def onNew (c : Content) (m : Meta) (e : Ev) : Meta :=
  let plain := e.hasKey ∧ e.stateKey = ""
  if e.type = "m.room.name" then if plain then { m with name := c.name } else m
  else if e.type = "m.room.avatar" then if plain then { m with avatar := c.url } else m
  else if e.type = "m.room.encryption" then if plain then { m with enc := true } else m
  else if e.type = "m.room.tombstone" then
    if plain then { m with upgraded := if c.replacement.getD "" = "" then none else c.replacement } else m
  else if e.type = "m.room.canonical_alias" then if plain then { m with alias := c.alias } else m
  else if e.type = "m.room.create" then
    if plain then
      let m := match c.ctype with | some t => { m with type := some t } | none => m
      if c.pred ≠ "" then { m with pred := some c.pred } else m
    else m
  else if e.type = "m.space.child" then
    if e.hasKey then { m with children := fun x => if x = e.stateKey then c.via else m.children x } else m
  else m

/-- The rows of the current snapshot of a room in ascending order: the join of the events, snapshots and rooms
tables in `storage.go:314-330` (and `ARRAY_CAT(events, membership_events)` there). -/
def currentRows (db : DB) (room : String) : List Row :=
  match db.snaps.find? (·.id = db.cur room) with
  | some s => db.rows.filter fun r => decide (r.nid ∈ s.nids)
  | none => []

/-- The query of `ResetMetadataState`, `storage.go:325-326`, without the members: only these types. -/
def queried (r : Row) : Bool :=
  decide (r.ev.type ∈ ["m.room.name", "m.room.avatar", "m.room.canonical_alias", "m.room.encryption"]) && decide (r.ev.stateKey = "")

/-- One turn of the loop `storage.go:338-363`; the query returns no `m.space.child`. -/
def resetStep (cont : String → Content) (m : Meta) (r : Row) : Meta :=
  if r.ev.type = "m.room.name" then { m with name := (cont r.ev.id).name }
  else if r.ev.type = "m.room.avatar" then { m with avatar := (cont r.ev.id).url }
  else if r.ev.type = "m.room.canonical_alias" then { m with alias := (cont r.ev.id).alias }
  else if r.ev.type = "m.room.encryption" then { m with enc := true }
  else if r.ev.type = "m.space.child" then { m with children := fun x => if x = r.ev.stateKey then true else m.children x }
  else m

/-- `ResetMetadataState`, `storage.go:312-381`. -/
def reset (cont : String → Content) (rows : List Row) (m : Meta) : Meta :=
  (rows.filter queried).foldl (resetStep cont) { m with children := fun _ => false }

/-- One turn of the loop `storage.go:254-263`. -/
def loadStep (cont : String → Content) (m : Meta) (r : Row) : Meta :=
  if r.ev.type = "m.room.name" ∧ r.ev.stateKey = "" then { m with name := (cont r.ev.id).name }
  else if r.ev.type = "m.room.canonical_alias" ∧ r.ev.stateKey = "" then { m with alias := (cont r.ev.id).alias }
  else if r.ev.type = "m.room.avatar" ∧ r.ev.stateKey = "" then { m with avatar := (cont r.ev.id).url }
  else m

/-- `MetadataForAllRooms`, `storage.go:208-306`, for one room; `ch` is what the spaces table has (see `SideTables`),
used for rooms of type `m.space` only. -/
def load (cont : String → Content) (rows : List Row) (info : RoomsTable.Row) (ch : String → Bool) : Meta :=
  let m := (rows.filter fun r => decide (r.ev.type ∈ ["m.room.name", "m.room.canonical_alias", "m.room.avatar"])).foldl (loadStep cont) {}
  { m with
    enc := info.enc, upgraded := info.upgraded, type := info.type, pred := info.pred
    children := if info.type = some "m.space" then ch else fun _ => false }

/-- `V2InvalidateRoom` and `V2StateRedaction` (the same for this cache), and `V2Accumulate` and `V2Initialise`: both
name events, by their numbers or by a snapshot, whose numbers are carried here. -/
inductive Payload
  | inv (room : String)
  | evs (room : String) (nids : List Nat)
  deriving DecidableEq

structure State where
  db : DB := {}
  /-- the stored events whose JSON was replaced -/
  redacted : List String := []
  infos : List (String × RoomsTable.Row) := []
  queue : List Payload := []
  cache : String → Option Meta := fun _ => none

/-- The stored JSON of an event: `orig` as it came, `red` as redacted.  Simplified: the redacted form does not depend
on the version of the room of the redaction. -/
def State.cont (orig red : String → Content) (s : State) (id : String) : Content :=
  if id ∈ s.redacted then red id else orig id

/-- The ids to redact, `accumulator.go:456-467`; the keys of a map, so only membership matters. -/
def redactions (orig : String → Content) (post : List Row) : List String :=
  post.filterMap fun r =>
    if r.ev.hasKey = false ∧ r.ev.type = "m.room.redaction" ∧ (orig r.ev.id).redacts ≠ "" then some (orig r.ev.id).redacts else none

/-- The event for `roomInfoDelta`. -/
def toInfo (orig : String → Content) (e : Ev) : RoomsTable.Ev :=
  { type := e.type, stateKey := if e.hasKey then some e.stateKey else none, replacement := (orig e.id).replacement,
    ctype := (orig e.id).ctype, pred := (orig e.id).pred }

/-- `Accumulate` of `handler2/handler.go:260-369` and of the store: the redaction of stored events
(`SelectByIDs` has no room, `event_table.go:388`), the test for redacted current state `accumulator.go:532-550`, the
room info, and the payloads. -/
def accumulated (orig : String → Content) (s : State) (room : String) (db' : DB) (post : List Row) : State :=
  let ids := redactions orig post
  { s with
    db := db'
    redacted := s.redacted ++ ids.filter fun i => db'.rows.any (·.ev.id = i)
    infos := if post = [] then s.infos
      else RoomsTable.step s.infos ⟨room, post.map fun r => toInfo orig r.ev, db'.cur room, db'.latest room⟩
    queue := s.queue
      ++ (if (currentRows db' room).any (fun r => decide (r.ev.id ∈ ids)) then [.inv room] else [])
      ++ (if post = [] then [] else [.evs room (post.map (·.nid))]) }

/-- `Initialise` of `handler2/handler.go:371-394` and of the store, given that events were new. -/
def initialised (orig : String → Content) (s : State) (room : String) (db' : DB) (block : List (Option Ev)) : State :=
  { s with
    db := db'
    infos := RoomsTable.step s.infos ⟨room, (block.filterMap id).map (toInfo orig), db'.cur room, db'.latest room⟩
    queue := s.queue ++ if s.db.cur room > 0 then [.inv room] else [.evs room ((currentRows db' room).map (·.nid))] }

/-- What the subscriber does with a payload: `sync3/handler/handler.go:650-693,829-850` and `Dispatcher`.  Events that
cannot be loaded are dropped. -/
def handle (orig red : String → Content) (s : State) : Payload → String → Option Meta
  | .inv room, r =>
    if r = room then (s.cache room).map (reset (s.cont orig red) (currentRows s.db room)) else s.cache r
  | .evs room nids, r =>
    if r = room then
      match selectByNIDs s.db nids with
      | none => s.cache room
      | some rows => if rows = [] then s.cache room
          else some (rows.foldl (fun m x => onNew (s.cont orig red x.ev.id) m x.ev) ((s.cache room).getD {}))
    else s.cache r

/-- Something happens. -/
inductive Step
  /-- a section of an upstream response is stored and announced; the callbacks are serialised (see `PollerMap`) -/
  | op (o : Op)
  /-- the subscriber takes the next payload -/
  | deliver
  /-- `OnEphemeralEvent`, `global.go:261-275` -/
  | typing (room : String)
  /-- the process starts again: `Startup`, `global.go:232-255` -/
  | restart (children : String → String → Bool)

def next (orig red : String → Content) (s : State) : Step → State
  | .op (.acc room k l timeline) =>
    match accumulate s.db room k l timeline with
    | none => s
    | some (db', post) => accumulated orig s room db' post
  | .op (.init room k block) =>
    match initialise s.db room k block with
    | none => s
    | some db' => if db'.rows.length = s.db.rows.length then { s with db := db' } else initialised orig s room db' block
  | .deliver =>
    match s.queue with
    | [] => s
    | p :: q => { s with queue := q, cache := handle orig red s p }
  | .typing room => { s with cache := fun r => if r = room then some ((s.cache room).getD {}) else s.cache r }
  | .restart ch =>
    { s with
      queue := []
      cache := fun r =>
        if s.db.cur r = 0 then none
        else some (load (s.cont orig red) (currentRows s.db r) ((Assoc.get s.infos r).getD { snapshot := 0, latest := 0 }) (ch r)) }

def run (orig red : String → Content) (steps : List Step) : State := steps.foldl (next orig red) {}

/-- The store operations of a history. -/
def ops : List Step → List Op
  | [] => []
  | .op o :: l => o :: ops l
  | _ :: l => ops l

end Verif.Metadata
