import Verif.Poller
import Verif.E2EE
import Verif.Conn
/-!
Device list changes from the homeserver to the client: the homeserver's stream of changes, the poller (`Poller.poll`,
sync2/poller.go 549-659) with the v2 handler as receiver (sync2/handler2/handler.go 230-253), the two buckets of
`syncv3_device_list_updates` (`E2EE.upsert`, `E2EE.read`), the connection with its buffer of responses (`Conn.step`) and the
client.

One device with one poller and one connection at a time. A request to the proxy takes several steps, so that polls and
restarts can fall in between: it begins with a read of the tables if the extension is on (sync3/handler/connstate.go 226-237),
may be woken up and read again while it has nothing (sync3/extensions/e2ee.go 43-55), and ends. The rest of a response is not
modelled. What the other calls of the receiver do to their tables is not modelled; they only fail or not.
-/
namespace Verif.DeviceListFlow
open Verif.Poller (Call Err World Turn Reply Resp Rcv)
open Verif.E2EE (Change Out)

/-- The receiver: the tables, and the errors the next calls meet (no entry left: no error). -/
structure Db where
  srv : E2EE.State := {}
  next : List Err := []

/-- What the next call meets. -/
def Db.fate (s : Db) : Err :=
  match s.next with
  | [] => .nil
  | x :: _ => x

/-- The v2 handler. `OnE2EEData` (sync2/handler2/handler.go 230-253) waits for the write (`Upsert`,
state/device_data_table.go 110-153) and returns its error, which is one of the database, never a `DataError`. -/
def recv : Rcv Db := fun s c =>
  match c with
  | .e2ee otk fb changed left =>
    if s.fate = .nil then
      ({ next := s.next.tail, srv := E2EE.upsert s.srv (otk.map fun m => m.map fun e => (e.1, (e.2 : Int))) fb
          (E2EE.toChanges changed left) }, .nil)
    else ({ s with next := s.next.tail }, .other)
  | _ => ({ s with next := s.next.tail }, s.fate)

/-- A request in progress. `on`: the extension is enabled. -/
structure Busy where
  body : Nat
  on : Bool
  out : Out

/-- The connection as the proxy has it, and the client. -/
structure Client where
  /-- the connection; none after a restart of the proxy or when it has expired -/
  conn : Option (Conn.State Nat Out) := none
  busy : Option Busy := none
  /-- the client's position; 0 is none -/
  pos : Int := 0
  /-- the body of the request the client has sent and not had a response to -/
  wants : Option Nat := none
  /-- what the client was told last about each user -/
  told : String → Option Change := fun _ => none
  /-- the last change of each user, if the client has not been told of it since -/
  due : String → Option Change := fun _ => none
  /-- the last change of each user since the poller's first response -/
  last : String → Option Change := fun _ => none

/-- The response arrives at the client. -/
def Client.get (c : Client) (r : Conn.Resp Out) : Client :=
  { c with
    pos := r.pos
    wants := none
    told := fun u => (r.data.lists u).or (c.told u)
    due := fun u => if r.data.lists u = c.due u then none else c.due u }

/-- A request arrives. Without a position there is a new connection (sync3/handler/handler.go 347-461), without a connection the
session has expired; then as in sync3/conn.go 137-250: `Conn.step` with a failing handler fails exactly if the handler is
called. `arrives`: the client gets the response. -/
def begin (srv : E2EE.State) (c : Client) (body : Nat) (on arrives : Bool) : E2EE.State × Client :=
  match (if c.pos = 0 then some (Conn.init 0) else c.conn) with
  | none => (srv, if arrives then { c with pos := 0, wants := none } else { c with wants := some body })
  | some k =>
    match Conn.step k ⟨c.pos, body⟩ none with
    | (_, .failed) =>
      let r := E2EE.read srv (c.pos = 0)
      (if on then r.1 else srv,
       { c with conn := some k, wants := some body, busy := some ⟨body, on, if on then r.2 else {}⟩ })
    | (k', .cached r) => (srv, if arrives then { c with conn := some k' }.get r else { c with conn := some k', wants := some body })
    | (k', _) => (srv, if arrives then { c with conn := some k', pos := 0, wants := none } else { c with conn := some k', wants := some body })

/-- The handler is done; `fails`: with an error or a panic. -/
def finish (c : Client) (b : Busy) (fails arrives : Bool) : Client :=
  match c.conn with
  | none => { c with busy := none }
  | some k =>
    match Conn.step k ⟨c.pos, b.body⟩ (if fails then none else some b.out) with
    | (k', .fresh r) => if arrives then { c with conn := some k', busy := none }.get r else { c with conn := some k', busy := none }
    | (k', _) => { c with conn := some k', busy := none }

/-- The whole. -/
structure State where
  /-- all changes ever, as the homeserver has them -/
  hs : List (String × Change)
  /-- the poller with its receiver, and the stored token -/
  w : World Db
  c : Client := {}

/-- The last change of a user. -/
def lastOf (u : String) (l : List (String × Change)) : Option Change :=
  ((l.filter fun e => decide (e.1 = u)).getLast?).map (·.2)

/-- An answer of the homeserver. With a token it has the users with changes since, each in the list of their last change;
without one it has none. -/
def Answer (tok : Nat → String) (hs : List (String × Change)) (since : String) (res : Resp) : Prop :=
  (since = "" ∧ res.changed = [] ∧ res.left = [] ∧ ∃ m, m ≤ hs.length ∧ res.nextBatch = tok m) ∨
  ∃ n m, since = tok n ∧ n ≤ m ∧ m ≤ hs.length ∧ res.nextBatch = tok m ∧
    ∀ u, (u ∈ res.changed ↔ lastOf u ((hs.take m).drop n) = some .changed) ∧
      (u ∈ res.left ↔ lastOf u ((hs.take m).drop n) = some .left)

/-- What is possible. -/
structure Mode where
  /-- turns of the poller -/
  turn : Turn → Prop
  /-- a request other than the one sent before at the same position, before a response to that one -/
  changes : Prop
  /-- an error after the tables were read -/
  fails : Prop
  /-- the extension is not in the first request of a connection -/
  late : Prop

/-- No restriction. -/
def Mode.any : Mode := ⟨fun _ => True, True, True, True⟩

/-- Executions. -/
inductive Run (tok : Nat → String) (user : String) (ok : Mode) : State → Prop
  /-- a device unknown to the proxy -/
  | start (hs : List (String × Change)) : Run tok user ok ⟨hs, ⟨⟨{}, []⟩, { since := "" }, ""⟩, {}⟩
  /-- a user's devices change, or the user is no longer in a room with this one. Before the poller's first response this is
  nobody's business (the client starts with the lists of that time). -/
  | change {s : State} (u : String) (x : Change) (h : Run tok user ok s) :
      Run tok user ok { s with
        hs := s.hs ++ [(u, x)]
        c := if s.w.lp.since = "" then s.c else { s.c with
          due := fun v => if v = u then some x else s.c.due v
          last := fun v => if v = u then some x else s.c.last v } }
  /-- what the database does next is arbitrary -/
  | fate {s : State} (next : List Err) (h : Run tok user ok s) :
      Run tok user ok { s with w := { s.w with m := { s.w.m with s := { s.w.m.s with next := next } } } }
  /-- one turn of the poll loop -/
  | turn {s : State} (t : Turn) (h : Run tok user ok s) (hok : ok.turn t)
      (ha : ∀ res, t.reply = .ok res → Answer tok s.hs s.w.lp.since res) :
      Run tok user ok { s with w := (Poller.poll recv user s.w t).1 }
  /-- a new poller, in this process or after a crash -/
  | restart {s : State} (toDeviceOnly : Bool) (h : Run tok user ok s) :
      Run tok user ok { s with w := Poller.restart s.w toDeviceOnly }
  /-- the client sends a request -/
  | ask {s : State} (body : Nat) (on arrives : Bool) (h : Run tok user ok s) (hb : s.c.busy = none)
      (hw : ¬ ok.changes → s.c.pos ≠ 0 → ∀ b, s.c.wants = some b → body = b)
      (hl : ¬ ok.late → s.c.pos = 0 → on = true) :
      Run tok user ok { s with
        w := { s.w with m := { s.w.m with s := { s.w.m.s with srv := (begin s.w.m.s.srv s.c body on arrives).1 } } }
        c := (begin s.w.m.s.srv s.c body on arrives).2 }
  /-- the request is woken up and reads again, as there is nothing yet -/
  | wake {s : State} (b : Busy) (h : Run tok user ok s) (hb : s.c.busy = some b) (hon : b.on = true)
      (he : (b.out.otk = none ∨ b.out.otk = some []) ∧ b.out.fallback = none ∧ ∀ u, b.out.lists u = none) :
      Run tok user ok { s with
        w := { s.w with m := { s.w.m with s := { s.w.m.s with srv := (E2EE.read s.w.m.s.srv false).1 } } }
        c := { s.c with busy := some { b with out := (E2EE.read s.w.m.s.srv false).2 } } }
  /-- the request ends -/
  | done {s : State} (b : Busy) (fails arrives : Bool) (h : Run tok user ok s) (hb : s.c.busy = some b)
      (hf : ¬ ok.fails → fails = false) : Run tok user ok { s with c := finish s.c b fails arrives }
  /-- the proxy restarts or the connection expires -/
  | crash {s : State} (h : Run tok user ok s) : Run tok user ok { s with c := { s.c with conn := none, busy := none } }

end Verif.DeviceListFlow
