import Verif.Receipts
import Verif.ConnFlow
/-!
Read receipts of the user from the pollers to the client: the tables (`Verif.Receipts`, state/receipt_table.go), the v2 handler, which
publishes the receipts that are new (sync2/handler2/handler.go 418-434), the pub/sub channel (in the process: v3.go 136), the v3
handler and dispatcher (sync3/handler/handler.go 756-786, sync3/dispatcher.go 242-265), the user cache, which hands them on
(sync3/caches/user.go 515-520), the channel of updates of the connection, the receipts extension (sync3/extensions/receipts.go
34-129), the connection with its buffer of responses and the client (`ConnFlow`).

One user, one room which the user has joined, and one connection at a time. A request takes several steps: it sends rooms, then
extensions are processed (sync3/handler/connstate.go 226-237), then updates are taken from the channel. Which rooms are in view is an
input of the steps, as is what is in scope of the extension (C31). Updates of other kinds and rooms do not touch the receipts of this
one. A connection that is destroyed ends at once, with its request.
-/
namespace Verif.ReceiptFlow
open Verif Receipts

/-- What the client has been told about the room: event, private or not, user; timestamp and thread. -/
abbrev Told := List (Key × Info)

/-- The client takes the receipts of the room in a response. -/
def put (h : Told) (o : Option Edu) : Told :=
  match o with
  | none => h
  | some edu => h ++ edu.content

structure State where
  db : DB := {}
  /-- what pollers have delivered for the room, recorded -/
  edus : List Edu := []
  /-- payloads for the room -/
  bus : List (List Receipt) := []
  /-- the receipts in the channel of the connection -/
  queue : List Receipt := []
  /-- the extensions have been processed in the request in progress -/
  stage : Bool := false
  /-- the connection has sent the room, and no receipt of the user was taken from the channel since while the room was out of
  scope or the extension off -/
  sent : Bool := false
  c : ConnFlow.Client (Option Edu) Told := { has := [] }

/-- What the user is handed of a payload. -/
def handed (user : String) (receipts : List Receipt) : List Receipt :=
  ((onReceipt (fun u => decide (u = user)) (fun _ => [user]) receipts).filter fun x => decide (x.1 = user)).map (·.2)

/-- A payload is handled. A connection is subscribed to the cache of its user as long as it exists. -/
def handle (user : String) (s : State) (p : List Receipt) : State :=
  if s.c.conn.isSome then { s with queue := s.queue ++ handed user p } else s

/-- A request that reaches the handler; without a position there is a new connection, sync3/handler/connstate.go 61-96. `on`: the
extension is enabled. -/
def ask (s : State) (body : Nat) (on : Bool) : State :=
  let s' := { s with stage := false, c := s.c.serve ⟨body, on, none⟩ }
  if s.c.pos = 0 then { s' with queue := [], sent := false } else s'

/-- The receipts of the room in the response. -/
def State.out (s : State) (o : Option Edu) : State :=
  { s with c := { s.c with busy := s.c.busy.map fun b => { b with out := o } } }

/-- What is possible. -/
structure Mode where
  /-- the room is sent because of an update -/
  live : Prop
  /-- the tables cannot be read -/
  noRead : Prop
  /-- a request fails with receipts of the room in its response, not being the first of its connection -/
  fails : Prop

/-- No restriction. -/
def Mode.any : Mode := ⟨True, True, True⟩

/-- The restrictions under which the client gets the receipts. -/
def Mode.good : Mode := ⟨False, False, False⟩

/-- Executions. -/
inductive Run (user room : String) (ok : Mode) : State → Prop
  | start : Run user room ok {}
  /-- a poller delivers receipts of the room, sync2/handler2/handler.go 418-434; they may be refused -/
  | deliver {s : State} {edu : Edu} {db : DB} {new : List Receipt} (h : Run user room ok s) (hi : Insert s.db room edu (some (db, new))) :
      Run user room ok { s with db := db, edus := s.edus ++ [edu], bus := if new.length = 0 then s.bus else s.bus ++ [new] }
  /-- the next payload is handled -/
  | handle {s : State} {p : List Receipt} {bus : List (List Receipt)} (h : Run user room ok s) (hb : s.bus = p :: bus) :
      Run user room ok (handle user { s with bus := bus } p)
  /-- a request which is answered without the handler -/
  | again {s : State} (body : Nat) (arrives : Bool) (h : Run user room ok s) (hb : s.c.busy = none) (hc : s.c.calls body = false) :
      Run user room ok { s with c := s.c.repeated put body arrives }
  | ask {s : State} (body : Nat) (on : Bool) (h : Run user room ok s) (hb : s.c.busy = none) (hc : s.c.calls body = true) :
      Run user room ok (ask s body on)
  /-- extensions are processed for a request that does not send the room, or while the room is not in scope or the extension off -/
  | pass {s : State} {b : ConnFlow.Busy (Option Edu)} (h : Run user room ok s) (hb : s.c.busy = some b) (hs : s.stage = false) :
      Run user room ok { s with stage := true }
  /-- extensions are processed for a request that sends the room; `rooms` are the rooms it sends, with their timelines -/
  | load {s : State} {b : ConnFlow.Busy (Option Edu)} (inScope : String → Bool) (rooms : List (String × List String)) (readOk : Bool)
      (h : Run user room ok s) (hb : s.c.busy = some b) (hs : s.stage = false) (hon : b.on = true) (hin : inScope room = true)
      (hr : ∃ t, (room, t) ∈ rooms) (hk : ¬ ok.noRead → readOk = true) :
      Run user room ok ({ s with stage := true, sent := true }.out (if readOk then processInitial s.db user inScope rooms room else none))
  /-- the room is sent because of an update: nothing is loaded. Where it does not count as sent, nothing happens here. -/
  | come {s : State} {b : ConnFlow.Busy (Option Edu)} (h : Run user room ok s) (hb : s.c.busy = some b) (hs : s.stage = true)
      (hl : ok.live) : Run user room ok { s with sent := true }
  /-- the request takes a receipt from the channel -/
  | take {s : State} {b : ConnFlow.Busy (Option Edu)} {r : Receipt} {q : List Receipt} {res : Resp} (h : Run user room ok s)
      (hb : s.c.busy = some b) (hs : s.stage = true) (hq : s.queue = r :: q) (hon : b.on = true)
      (ha : AppendLive (fun _ => true) (fun x => if x = room then b.out else none) r res) :
      Run user room ok ({ s with queue := q }.out (res room))
  /-- the same while the room is not in scope or the extension off -/
  | drop {s : State} {b : ConnFlow.Busy (Option Edu)} {r : Receipt} {q : List Receipt} (h : Run user room ok s)
      (hb : s.c.busy = some b) (hs : s.stage = true) (hq : s.queue = r :: q) :
      Run user room ok { s with queue := q, sent := s.sent && decide (r.user ≠ user) }
  /-- the request ends -/
  | done {s : State} {b : ConnFlow.Busy (Option Edu)} (fails arrives : Bool) (h : Run user room ok s) (hb : s.c.busy = some b)
      (hl : fails = false → s.stage = true) (hf : ¬ ok.fails → fails = true → s.c.pos = 0 ∨ b.out = none) :
      Run user room ok { s with c := s.c.finish put b fails arrives }
  /-- the connection expires or is destroyed -/
  | lose {s : State} (h : Run user room ok s) : Run user room ok { s with queue := [], sent := false, c := s.c.lose }
  /-- the proxy restarts; payloads that were not handled are lost -/
  | restart {s : State} (h : Run user room ok s) : Run user room ok { s with bus := [], queue := [], sent := false, c := s.c.lose }

end Verif.ReceiptFlow
