import Verif.DedupAccount
import Verif.Conn
/-!
Global account data from the pollers to the client: the v2 handler with its duplicate suppression and the table
(`Verif.DedupAccount`, sync2/handler2/handler.go 487-525), the pub/sub channel (pubsub/pubsub.go, in the process: v3.go 136), the
v3 handler, which reads the table for the types named in a payload (sync3/handler/handler.go 800-814), the user cache, which
hands the data on (sync3/caches/user.go 697-787), the channel of updates of the connection, the account data extension
(sync3/extensions/account_data.go 44-135), the connection with its buffer of responses (`Conn.step`) and the client.

One user with one connection at a time. A request takes several steps, so that deliveries fall in between. Updates of other
kinds and the account data of rooms in the channel of the connection are not modelled (C33 and C65 are about rooms), nor is the
rest of a response. A connection that is destroyed (its channel is full, sync3/handler/connstate_live.go 29-46) ends at once,
with its request. The payload is on the channel as soon as the table has the data: the pollers' calls are serialised, and
whoever comes between the two finds what it finds when the payload waits.
-/
namespace Verif.AccountFlow
open Verif

/-- The global account data of a response, in order: type and JSON. -/
abbrev Data := List (String × String)

/-- A request in progress. `on`: the extension is enabled. `loaded`: extensions have been processed
(sync3/handler/connstate.go 226-237), so updates can be taken. -/
structure Busy where
  body : Nat
  on : Bool
  loaded : Bool
  out : Data

/-- The connection as the proxy has it, and the client. -/
structure Client where
  /-- the connection; none after a restart of the proxy or when it has expired -/
  conn : Option (Conn.State Nat Data) := none
  /-- the channel of updates of the connection -/
  queue : List Data := []
  busy : Option Busy := none
  /-- the client's position; 0 is none -/
  pos : Int := 0
  /-- what the client has -/
  has : String → Option String := fun _ => none

/-- The client stores the data of a response, a later entry replacing an earlier one. -/
def put (has : String → Option String) (d : Data) : String → Option String :=
  d.foldl (fun f e t => if t = e.1 then some e.2 else f t) has

/-- The response arrives at the client. -/
def Client.get (c : Client) (r : Conn.Resp Data) : Client :=
  { c with pos := r.pos, has := put c.has r.data }

/-- The whole. `tr` is what the pollers delivered. -/
structure State where
  tr : List (DedupAccount.Op × Bool) := []
  ded : DedupAccount.State := {}
  /-- payloads: user, room (empty: global), types -/
  bus : List (String × String × List String) := []
  c : Client := {}

/-- state/account_data.go 68-72, as the extension and the caches pass it on. -/
def rowsFor (db : List AccountData.Row) (user : String) (types : List String) : Data :=
  (AccountData.select db user types "").map fun r => (r.type, r.data)

/-- sync3/extensions/account_data.go 122-131: all global account data. -/
def allRows (db : List AccountData.Row) (user : String) : Data :=
  (AccountData.selectMany db user []).map fun r => (r.type, r.data)

/-- A request arrives. Without a position there is a new connection with an empty channel, which replaces one that exists
(sync3/handler/handler.go 347-461, sync3/connmap.go 138-163, sync3/handler/connstate.go 61-96); without a connection the session has expired;
then as in sync3/conn.go 137-250: `Conn.step` with a failing handler fails exactly if the handler is called. `arrives`: the client
gets the response. A request with a position has nothing to load. -/
def begin (c : Client) (body : Nat) (on arrives : Bool) : Client :=
  if c.pos = 0 then { c with conn := some (Conn.init 0), queue := [], busy := some ⟨body, on, false, []⟩ }
  else match c.conn with
    | none => if arrives then { c with pos := 0 } else c
    | some k =>
      match Conn.step k ⟨c.pos, body⟩ none with
      | (_, .failed) => { c with busy := some ⟨body, on, true, []⟩ }
      | (k', .cached r) => if arrives then { c with conn := some k' }.get r else { c with conn := some k' }
      | (k', _) => if arrives then { c with conn := some k', pos := 0 } else { c with conn := some k' }

/-- The handler is done; `fails`: with a panic, which is recovered from (sync3/conn.go 93-122). -/
def finish (c : Client) (b : Busy) (fails arrives : Bool) : Client :=
  match c.conn with
  | none => { c with busy := none }
  | some k =>
    match Conn.step k ⟨c.pos, b.body⟩ (if fails then none else some b.out) with
    | (k', .fresh r) => if arrives then { c with conn := some k', busy := none }.get r else { c with conn := some k', busy := none }
    | (k', _) => { c with conn := some k', busy := none }

/-- A payload is handled, sync3/handler/handler.go 800-814 and sync3/caches/user.go 697-787. `readOk`: the table can be read.
A connection is subscribed to the cache of its user as long as it exists; without one the payload has no effect. -/
def handle (db : List AccountData.Row) (user : String) (c : Client) (p : String × String × List String) (readOk : Bool) : Client :=
  match c.conn with
  | none => c
  | some _ => if p.1 = user ∧ p.2.1 = "" ∧ readOk = true then { c with queue := c.queue ++ [rowsFor db user p.2.2] } else c

/-- What is possible. -/
structure Mode where
  /-- the table cannot be read for the first response of a connection -/
  noLoad : Prop
  /-- the table cannot be read when a payload is handled -/
  noRead : Prop
  /-- a request panics -/
  fails : Prop
  /-- the extension is off in a request -/
  off : Prop

/-- No restriction. -/
def Mode.any : Mode := ⟨True, True, True, True⟩

/-- Steps. -/
inductive Step (hash : String → Nat) (user : String) (ok : Mode) : State → State → Prop
  /-- a delivery of a poller that writes nothing: all are duplicates, or the database fails -/
  | quiet {s : State} {u r : String} {es : List (String × String)} {f res : Bool} {d : DedupAccount.State}
      (h : DedupAccount.Step hash s.ded (.deliver u r es f) d res) (hn : (es.foldl (DedupAccount.keep hash u r) (s.ded.mem, [])).2 = [] ∨ f = true) :
      Step hash user ok s { s with tr := s.tr ++ [(.deliver u r es f, res)], ded := d }
  /-- a delivery that is stored and published, sync2/handler2/handler.go 510-524 -/
  | stored {s : State} {u r : String} {es : List (String × String)} {db' out : List AccountData.Row}
      (hn : (es.foldl (DedupAccount.keep hash u r) (s.ded.mem, [])).2 ≠ [])
      (hi : AccountData.InsertAccountData s.ded.db u r (es.foldl (DedupAccount.keep hash u r) (s.ded.mem, [])).2 (some (db', out))) :
      Step hash user ok s { s with
        tr := s.tr ++ [(.deliver u r es false, true)]
        ded := { mem := (es.foldl (DedupAccount.keep hash u r) (s.ded.mem, [])).1, db := db' }
        bus := s.bus ++ [(u, r, out.map (·.type))] }
  /-- the next payload is handled -/
  | handle {s : State} {p : String × String × List String} {bus : List (String × String × List String)} (readOk : Bool)
      (hb : s.bus = p :: bus) (hr : ¬ ok.noRead → readOk = true) :
      Step hash user ok s { s with bus := bus, c := handle s.ded.db user s.c p readOk }
  /-- the client sends a request -/
  | ask {s : State} (body : Nat) (on arrives : Bool) (hb : s.c.busy = none) (ho : ¬ ok.off → on = true) :
      Step hash user ok s { s with c := begin s.c body on arrives }
  /-- the extension is processed in the first request of a connection -/
  | load {s : State} {b : Busy} (readOk : Bool) (hb : s.c.busy = some b) (hl : b.loaded = false) (hr : ¬ ok.noLoad → readOk = true) :
      Step hash user ok s { s with c := { s.c with busy := some { b with
        loaded := true
        out := if b.on && readOk then allRows s.ded.db user else [] } } }
  /-- the request takes an update from the channel, sync3/handler/connstate_live.go 48-131 -/
  | take {s : State} {b : Busy} {x : Data} {q : List Data} (hb : s.c.busy = some b) (hl : b.loaded = true) (hq : s.c.queue = x :: q) :
      Step hash user ok s { s with c := { s.c with queue := q, busy := some { b with out := if b.on then b.out ++ x else b.out } } }
  /-- the request ends -/
  | done {s : State} {b : Busy} (fails arrives : Bool) (hb : s.c.busy = some b) (hl : b.loaded = true) (hf : ¬ ok.fails → fails = false) :
      Step hash user ok s { s with c := finish s.c b fails arrives }
  /-- the connection expires or is destroyed -/
  | expire {s : State} : Step hash user ok s { s with c := { s.c with conn := none, queue := [], busy := none } }
  /-- the proxy restarts -/
  | restart {s : State} :
      Step hash user ok s { s with
        tr := s.tr ++ [(.restart, true)]
        ded := { s.ded with mem := [] }
        bus := []
        c := { s.c with conn := none, queue := [], busy := none } }

/-- Steps in a row. -/
inductive Steps (hash : String → Nat) (user : String) (ok : Mode) (s : State) : State → Prop
  | refl : Steps hash user ok s s
  | snoc {s' s'' : State} : Steps hash user ok s s' → Step hash user ok s' s'' → Steps hash user ok s s''

/-- Executions. -/
abbrev Run (hash : String → Nat) (user : String) (ok : Mode) (s : State) : Prop := Steps hash user ok {} s

end Verif.AccountFlow
