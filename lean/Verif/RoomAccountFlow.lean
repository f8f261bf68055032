import Verif.AccountFlow
import Verif.ConnFlow
import Verif.Extensions
/-!
The account data of a room from the pollers to the client: the v2 handler with its duplicate suppression and the table
(`Verif.DedupAccount`, sync2/handler2/handler.go 487-525), the pub/sub channel (in the process: v3.go 136), the v3 handler, which
reads the table for the types named in a payload (sync3/handler/handler.go 800-814), the user cache, which hands the data on
(sync3/caches/user.go 697-787), the channel of updates of the connection, the account data extension
(sync3/extensions/account_data.go 44-135), the connection with its buffer of responses and the client (`ConnFlow`).

One user, one room (whose id is not empty) and one connection at a time. A request takes several steps: it sends rooms, then extensions are processed
(sync3/handler/connstate.go 226-237), then updates are taken from the channel, and for each one the rooms it makes the connection
send are put into the response before the extension sees it (sync3/handler/connstate_live.go 117-131). Which rooms are sent when
is an input of the steps (C106 is about that), as is what is in scope of the extension (C31). Other updates come at any time. A
connection that is destroyed ends at once, with its request.
-/
namespace Verif.RoomAccountFlow
open Verif
open Verif.AccountFlow (Data put)

/-- Updates in the channel of the connection. -/
inductive Item
  /-- account data of the room, `RoomAccountDataUpdate` -/
  | data (d : Data)
  /-- another update of the room -/
  | room
  /-- an update of another room -/
  | other

def Item.isData : Item → Bool
  | .data _ => true
  | _ => false

structure State where
  /-- what the pollers delivered, with the results -/
  tr : List (DedupAccount.Op × Bool) := []
  ded : DedupAccount.State := {}
  /-- payloads: user, room, types -/
  bus : List (String × String × List String) := []
  queue : List Item := []
  /-- the extensions have been processed in the request in progress -/
  stage : Bool := false
  /-- the room is in the response of the request in progress, `extCtx.RoomIDToTimeline` -/
  shown : Bool := false
  /-- `loadedRooms` of that response -/
  loaded : Bool := false
  /-- the connection has sent the room, and no account data of it was taken from the channel since while the room was out of scope
  or the extension off -/
  sent : Bool := false
  c : ConnFlow.Client Data (String → Option String) := { has := fun _ => none }

/-- state/account_data.go 68-72, as the caches pass it on. -/
def rowsFor (db : List AccountData.Row) (user room : String) (types : List String) : Data :=
  (AccountData.select db user types room).map fun r => (r.type, r.data)

/-- state/account_data.go 80-89 for one room, as sync3/extensions/account_data.go 66-75 has it. -/
def roomRows (db : List AccountData.Row) (user room : String) : Data :=
  (AccountData.selectMany db user [room]).map fun r => (r.type, r.data)

/-- sync3/extensions/account_data.go 95-121: what the response has for the room when `rooms` are sent. One query is for all
of them (`Extensions.queryRooms`). -/
def initialRows (db : List AccountData.Row) (user room : String) (inScope : String → Bool) (rooms : List String) : Data :=
  let ids := Extensions.queryRooms inScope rooms
  let rows := if ids.length > 0 then AccountData.selectMany db user ids else []
  (rows.filter fun r => decide (r.room = room)).map fun r => (r.type, r.data)

/-- sync3/extensions/account_data.go 44-92 for a room in scope: the account data of the room and its entry in `loadedRooms`.
`there`: the room is in the response. `readOk`: the table can be read. -/
def live (db : List AccountData.Row) (user room : String) (there readOk : Bool) (out : Data) (loaded : Bool) : Item → Data × Bool
  | .data d => (out ++ d, true)
  | .room =>
    if !there then (out, loaded)
    else if loaded then (out, loaded)
    else if !readOk then (out, loaded)
    else if (roomRows db user room).length > 0 then (out ++ roomRows db user room, true)
    else (out, loaded)
  | .other => (out, loaded)

/-- A payload is handled, sync3/handler/handler.go 800-814 and sync3/caches/user.go 697-787. A connection is subscribed to the cache of
its user as long as it exists; without one the payload has no effect. -/
def handle (user room : String) (s : State) (p : String × String × List String) (readOk : Bool) : State :=
  if s.c.conn.isSome && decide (p.1 = user) && decide (p.2.1 = room) && readOk && decide (rowsFor s.ded.db user room p.2.2 ≠ []) then
    { s with queue := s.queue ++ [.data (rowsFor s.ded.db user room p.2.2)] }
  else s

/-- A request that reaches the handler; without a position there is a new connection, sync3/handler/connstate.go 61-96. `on`: the
extension is enabled. -/
def ask (s : State) (body : Nat) (on : Bool) : State :=
  let s' := { s with stage := false, shown := false, loaded := false, c := s.c.serve ⟨body, on, []⟩ }
  if s.c.pos = 0 then { s' with queue := [], sent := false } else s'

/-- The account data of the room in the response. -/
def State.out (s : State) (o : Data) : State :=
  { s with c := { s.c with busy := s.c.busy.map fun b => { b with out := o } } }

/-- What is possible. -/
structure Mode where
  /-- the room is sent because of an update of another room or of its account data, or account data of it is in the response
  already -/
  odd : Prop
  /-- the table cannot be read when the room is sent -/
  noLoad : Prop
  /-- the table cannot be read when a payload is handled -/
  noRead : Prop
  /-- a request fails with account data of the room in its response, not being the first of its connection -/
  fails : Prop

/-- No restriction. -/
def Mode.any : Mode := ⟨True, True, True, True⟩

/-- The restrictions under which the client gets the account data. -/
def Mode.good : Mode := ⟨False, False, False, False⟩

/-- The room is sent because of an update of it, and there is nothing of it in the response yet. -/
def plain (i : Item) (loaded : Bool) : Bool :=
  match i with
  | .room => !loaded
  | _ => false

/-- Executions. -/
inductive Run (hash : String → Nat) (user room : String) (ok : Mode) : State → Prop
  | start : Run hash user room ok {}
  /-- a delivery of a poller that writes nothing: all are duplicates, or the database fails -/
  | quiet {s : State} {u r : String} {es : List (String × String)} {f res : Bool} {d : DedupAccount.State} (h : Run hash user room ok s)
      (hd : DedupAccount.Step hash s.ded (.deliver u r es f) d res) (hn : (es.foldl (DedupAccount.keep hash u r) (s.ded.mem, [])).2 = [] ∨ f = true) :
      Run hash user room ok { s with tr := s.tr ++ [(.deliver u r es f, res)], ded := d }
  /-- a delivery that is stored and published, sync2/handler2/handler.go 510-524 -/
  | stored {s : State} {u r : String} {es : List (String × String)} {db' out : List AccountData.Row} (h : Run hash user room ok s)
      (hn : (es.foldl (DedupAccount.keep hash u r) (s.ded.mem, [])).2 ≠ [])
      (hi : AccountData.InsertAccountData s.ded.db u r (es.foldl (DedupAccount.keep hash u r) (s.ded.mem, [])).2 (some (db', out))) :
      Run hash user room ok { s with
        tr := s.tr ++ [(.deliver u r es false, true)]
        ded := { mem := (es.foldl (DedupAccount.keep hash u r) (s.ded.mem, [])).1, db := db' }
        bus := s.bus ++ [(u, r, out.map (·.type))] }
  /-- the next payload is handled -/
  | handle {s : State} {p : String × String × List String} {bus : List (String × String × List String)} (readOk : Bool)
      (h : Run hash user room ok s) (hb : s.bus = p :: bus) (hr : ¬ ok.noRead → readOk = true) :
      Run hash user room ok (handle user room { s with bus := bus } p readOk)
  /-- another update comes -/
  | push {s : State} (i : Item) (h : Run hash user room ok s) (hc : s.c.conn.isSome = true) (hi : ∀ d, i ≠ .data d) :
      Run hash user room ok { s with queue := s.queue ++ [i] }
  /-- a request which is answered without the handler -/
  | again {s : State} (body : Nat) (arrives : Bool) (h : Run hash user room ok s) (hb : s.c.busy = none) (hc : s.c.calls body = false) :
      Run hash user room ok { s with c := s.c.repeated put body arrives }
  | ask {s : State} (body : Nat) (on : Bool) (h : Run hash user room ok s) (hb : s.c.busy = none) (hc : s.c.calls body = true) :
      Run hash user room ok (ask s body on)
  /-- extensions are processed for a request that does not send the room (`shown = false`), or while the room is not in scope or the
  extension off -/
  | pass {s : State} {b : ConnFlow.Busy Data} (shown : Bool) (h : Run hash user room ok s) (hb : s.c.busy = some b) (hs : s.stage = false) :
      Run hash user room ok { s with stage := true, shown := shown }
  /-- extensions are processed for a request that sends the room; `rooms` are the rooms it sends -/
  | load {s : State} {b : ConnFlow.Busy Data} (inScope : String → Bool) (rooms : List String) (readOk : Bool)
      (h : Run hash user room ok s) (hb : s.c.busy = some b) (hs : s.stage = false) (hon : b.on = true) (hin : inScope room = true)
      (hr : room ∈ rooms) (hk : ¬ ok.noLoad → readOk = true) :
      Run hash user room ok ({ s with
          stage := true
          shown := true
          loaded := readOk && decide (initialRows s.ded.db user room inScope rooms ≠ [])
          sent := true }.out
        (if readOk then initialRows s.ded.db user room inScope rooms else []))
  /-- the request takes an update from the channel while the room is in scope. `there`: the room is in the response afterwards;
  `odd`: it counts as sent however that came -/
  | take {s : State} {b : ConnFlow.Busy Data} {i : Item} {q : List Item} (there readOk odd : Bool) (h : Run hash user room ok s)
      (hb : s.c.busy = some b) (hs : s.stage = true) (hq : s.queue = i :: q) (hon : b.on = true) (ht : s.shown = true → there = true)
      (hk : ¬ ok.noLoad → readOk = true) (ho : ¬ ok.odd → odd = false) :
      Run hash user room ok ({ s with
          queue := q
          shown := there
          loaded := (live s.ded.db user room there readOk b.out s.loaded i).2
          sent := s.sent || there && (odd || plain i s.loaded) }.out
        (live s.ded.db user room there readOk b.out s.loaded i).1)
  /-- the same while the room is not in scope or the extension off -/
  | drop {s : State} {b : ConnFlow.Busy Data} {i : Item} {q : List Item} (there : Bool) (h : Run hash user room ok s)
      (hb : s.c.busy = some b) (hs : s.stage = true) (hq : s.queue = i :: q) (ht : s.shown = true → there = true) :
      Run hash user room ok { s with
        queue := q
        shown := there
        sent := s.sent && !i.isData }
  /-- the request ends -/
  | done {s : State} {b : ConnFlow.Busy Data} (fails arrives : Bool) (h : Run hash user room ok s) (hb : s.c.busy = some b)
      (hl : fails = false → s.stage = true) (hf : ¬ ok.fails → fails = true → s.c.pos = 0 ∨ b.out = []) :
      Run hash user room ok { s with c := s.c.finish put b fails arrives }
  /-- the connection expires or is destroyed -/
  | lose {s : State} (h : Run hash user room ok s) : Run hash user room ok { s with queue := [], sent := false, c := s.c.lose }
  /-- the proxy restarts; payloads that were not handled are lost -/
  | restart {s : State} (h : Run hash user room ok s) :
      Run hash user room ok { s with
        tr := s.tr ++ [(.restart, true)]
        ded := { s.ded with mem := [] }
        bus := []
        queue := []
        sent := false
        c := s.c.lose }

end Verif.RoomAccountFlow
