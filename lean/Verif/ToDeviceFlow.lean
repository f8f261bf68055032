import Verif.Poller
import Verif.ToDevice
/-!
To-device messages from the homeserver to the client: the homeserver's queue for the device, the poller
(`Poller.poll`, sync2/poller.go 549-659) with the v2 handler as receiver (sync2/handler2/handler.go 222-228 and 436-448),
the `syncv3_to_device_messages` table with the to-device extension and the client (`ToDevice.sysStep`).

The homeserver follows the client-server specification: it deletes a message once a request was made with a token at or
beyond it, and answers with messages following that token, in order, any number of them. One device, with one poller at a
time. What the other calls of the receiver do to their tables is not modelled here; they only fail or not.
-/
namespace Verif.ToDeviceFlow
open Verif.Poller (Call Err World Turn Reply Resp Rcv)

/-- The receiver: the to-device table with its client, and what the next calls meet: an error, and the number of positions
given to other devices. No entry left: no error. -/
structure Db where
  sys : ToDevice.Sys := {}
  next : List (Err × Nat) := []

/-- What the next call meets. -/
def Db.fate (s : Db) : Err × Nat :=
  match s.next with
  | [] => (.nil, 0)
  | x :: _ => x

/-- The v2 handler. `AddToDeviceMessages` (sync2/handler2/handler.go 436-448) inserts the messages in one transaction
(`InsertMessages`, state/to_device_table.go 119-222); its errors are those of the database, never a `DataError`. `dec` reads
the fields of a message. -/
def recv (dec : String → ToDevice.Msg) : Rcv Db := fun s c =>
  match c with
  | .toDevice msgs =>
    if s.fate.1 = .nil then
      ({ next := s.next.tail, sys := ToDevice.sysStep s.sys (.insert s.fate.2 (msgs.map dec)) }, .nil)
    else ({ s with next := s.next.tail }, .other)
  | _ => ({ s with next := s.next.tail }, s.fate.1)

/-- The whole. -/
structure State where
  /-- all messages ever sent to the device, as the homeserver has queued them -/
  sent : List String
  /-- the homeserver has deleted this many, from the front -/
  deleted : Nat
  /-- the poller, the table and the client, the stored token -/
  w : World Db

/-- The place in the queue a token stands for; without a token, the homeserver answers from what is left. -/
inductive At (tok : Nat → String) (deleted : Nat) : String → Nat → Prop
  | token (n : Nat) : At tok deleted (tok n) n
  | none : At tok deleted "" deleted

/-- An answer to a request with a token at `n`: the messages up to the new token, those deleted excepted. -/
def Answer (tok : Nat → String) (sent : List String) (deleted n : Nat) (res : Resp) : Prop :=
  ∃ m, max n deleted ≤ m ∧ m ≤ sent.length ∧ res.nextBatch = tok m ∧
    res.toDevice = (sent.take m).drop (max n deleted)

/-- What is possible: turns of the poller, and whether the proxy restarts or the client starts again. -/
structure Mode where
  turn : Turn → Prop
  reset : Prop

/-- No restriction. -/
def Mode.any : Mode := ⟨fun _ => True, True⟩

/-- Executions. -/
inductive Run (dec : String → ToDevice.Msg) (tok : Nat → String) (user : String) (ok : Mode) : State → Prop
  /-- a device unknown to the proxy -/
  | start (sent : List String) :
      Run dec tok user ok ⟨sent, 0, ⟨⟨{}, []⟩, { since := "" }, ""⟩⟩
  /-- a message is sent to the device -/
  | send {s : State} (m : String) (h : Run dec tok user ok s) : Run dec tok user ok { s with sent := s.sent ++ [m] }
  /-- what the database does next is arbitrary -/
  | fate {s : State} (next : List (Err × Nat)) (h : Run dec tok user ok s) :
      Run dec tok user ok { s with w := { s.w with m := { s.w.m with s := { s.w.m.s with next := next } } } }
  /-- one turn of the poll loop. Messages up to the token of the request may be deleted, whether or not the answer arrives. -/
  | turn {s : State} (t : Turn) (n del : Nat) (h : Run dec tok user ok s) (hok : ok.turn t)
      (hn : At tok s.deleted s.w.lp.since n) (hd : s.deleted ≤ del ∧ del ≤ max n s.deleted)
      (ha : ∀ res, t.reply = .ok res → Answer tok s.sent s.deleted n res) :
      Run dec tok user ok { s with deleted := del, w := (Poller.poll (recv dec) user s.w t).1 }
  /-- a new poller, in this process or after a crash -/
  | restart {s : State} (toDeviceOnly : Bool) (h : Run dec tok user ok s) :
      Run dec tok user ok { s with w := Poller.restart s.w toDeviceOnly }
  /-- the client asks the proxy, the answer may be lost -/
  | client {s : State} (limit : Nat) (received : Bool) (h : Run dec tok user ok s) :
      Run dec tok user ok { s with w := { s.w with m := { s.w.m with s := { s.w.m.s with
        sys := ToDevice.sysStep s.w.m.s.sys (.poll limit received) } } } }
  /-- the proxy forgets whether it knows the device (restart), or learns of it by another user's of the same id -/
  | known {s : State} (b : Bool) (hr : ok.reset) (h : Run dec tok user ok s) :
      Run dec tok user ok { s with w := { s.w with m := { s.w.m with s := { s.w.m.s with
        sys := ToDevice.sysStep s.w.m.s.sys (.known b) } } } }
  /-- the client starts again without a token -/
  | forget {s : State} (hr : ok.reset) (h : Run dec tok user ok s) :
      Run dec tok user ok { s with w := { s.w with m := { s.w.m with s := { s.w.m.s with
        sys := ToDevice.sysStep s.w.m.s.sys .forget } } } }

end Verif.ToDeviceFlow
