import Verif.ToDevice
import Verif.E2EE
/-!
# Several connections of one device

A client may have several connections, told apart by `conn_id` (`sync3/connmap.go:13-29`). To-device messages, device list changes and key
counts are stored per device (`state/to_device_table.go:28-42`, `state/device_list_table.go:29-48`, `state/device_data_table.go:28-46`), and
each connection with the extension reads, acknowledges and empties the same rows.

The tables are those of `ToDevice` and `E2EE`. Each connection follows its own `next_batch`. Responses of the `e2ee` extension are not
lost here; what happens to lost ones is in C36 and C119. -/
namespace Verif.ManyConns
open Verif

structure W where
  inbox : ToDevice.State := {}
  /-- the last `next_batch` that was received on a connection -/
  cursor : Nat → Option Nat := fun _ => none
  /-- the messages received on a connection -/
  got : Nat → List ToDevice.Row := fun _ => []
  data : E2EE.State := {}
  /-- what a connection was told last about the devices of a user -/
  told : Nat → String → Option E2EE.Change := fun _ _ => none
  /-- the counts a connection was told last -/
  keys : Nat → Option E2EE.Map := fun _ => none
  /-- ghost: all messages that were stored -/
  log : List ToDevice.Row := []
  /-- ghost: messages removed by a cancellation -/
  gone : List ToDevice.Row := []
  /-- ghost: messages received on any connection -/
  all : List ToDevice.Row := []
  /-- ghost: the largest `since` sent on any connection -/
  acked : Nat := 0

def put {α : Type} (f : Nat → α) (k : Nat) (v : α) : Nat → α := fun j => if j = k then v else f j

inductive Op
  /-- the poller stores messages -/
  | insert (skip : Nat) (msgs : List ToDevice.Msg)
  /-- a request with the `to_device` extension on connection `k`; the response may be lost -/
  | poll (k : Nat) (limit : Nat) (received : Bool)
  /-- a connection starts again without a token -/
  | forget (k : Nat)
  /-- see `ToDevice.Op.known` -/
  | known (b : Bool)
  /-- the poller stores device list changes and keys -/
  | upsert (otk : Option E2EE.Map) (fb : Option (List String)) (ch : String → Option E2EE.Change)
  /-- a request with the `e2ee` extension on connection `k`, `isInitial` if it is the first of the connection -/
  | read (k : Nat) (isInitial : Bool)

/-- `sync3/extensions/todevice.go:63-139`, `sync3/extensions/e2ee.go:52-91` on the tables of the device. -/
def step (w : W) : Op → W
  | .insert n ms =>
    let t := ToDevice.insert w.inbox n ms
    { w with inbox := t, log := w.log ++ t.rows.filter fun r => w.inbox.seq < r.pos
             gone := w.gone ++ w.inbox.rows.filter (ToDevice.isCancelled w.inbox (ToDevice.cancels ms)) }
  | .poll k limit received =>
    let r := ToDevice.request w.inbox (w.cursor k) limit
    let w := { w with inbox := r.1, acked := max w.acked ((w.cursor k).getD 0) }
    if received then
      { w with cursor := put w.cursor k (some r.2.2), got := put w.got k (w.got k ++ r.2.1), all := w.all ++ r.2.1 }
    else w
  | .forget k => { w with cursor := put w.cursor k none }
  | .known b => { w with inbox := { w.inbox with known := b } }
  | .upsert o f c => { w with data := E2EE.upsert w.data o f c }
  | .read k i =>
    let r := E2EE.read w.data i
    { w with data := r.1
             told := put w.told k fun u => match r.2.lists u with | some c => some c | none => w.told k u
             keys := put w.keys k (match r.2.otk with | some m => some m | none => w.keys k) }

def run (w : W) (ops : List Op) : W := ops.foldl step w

end Verif.ManyConns
