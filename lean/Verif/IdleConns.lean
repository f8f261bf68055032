import Verif.ConnMap
/-!
# Connections that expire when they are not used

The `ConnMap` of `ConnMap` with a clock: an item of the TTL cache expires when it was neither set nor looked up for the
lifetime of the cache (`sync3/connmap.go:31-39`, 30 minutes in `sync3/handler/handler.go:83`). The cache itself,
`ReneKroon/ttlcache`, is not in the repository: assumed is that `Set` and a successful `Get` give an item a full
lifetime, that `Get` does not return an item whose time is over, and that the callback of such an item runs in a
goroutine of its own. The time at which the cache notices that an item is over is arbitrary (`sweep`), but a look-up of
its key notices it. Times are in milliseconds.
-/
namespace Verif.IdleConns
open Verif.ConnMap (CID Conn)

structure T where
  conns : ConnMap.State := {}
  /-- until when the item of a key lives -/
  due : String → Nat := fun _ => 0
  now : Nat := 0

/-- The cache notices that the item of a key is over. -/
def sweep (t : T) (k : String) : T :=
  if t.due k < t.now then { t with conns := ConnMap.removeKey t.conns k } else t

/-- The item of a key gets a full lifetime. -/
def touch (ttl : Nat) (t : T) (k : String) : T :=
  { t with due := fun j => if j = k then t.now + ttl else t.due j }

/-- `Conn`, `sync3/connmap.go:110-135`, as `setupConnection` calls it (`sync3/handler/handler.go:400-410`). -/
def find (ttl : Nat) (t : T) (cid : CID) : T × Option Conn :=
  let t1 := touch ttl (sweep t cid.key) cid.key
  let r := ConnMap.getConn t1.conns cid
  ({ t1 with conns := r.1 }, r.2)

/-- `CreateConn`, `sync3/connmap.go:138-163`. -/
def create (ttl : Nat) (t : T) (cid : CID) : T :=
  let t1 := touch ttl (sweep t cid.key) cid.key
  { t1 with conns := ConnMap.createConn t1.conns cid }

inductive Op
  | tick (d : Nat)
  | find (cid : CID)
  | create (cid : CID)
  | sweep (k : String)
  | die (id : Nat)
  | closeDevice (user device : String)
  | closeUsers (users : List String)
  | callback (i : Nat)

def step (ttl : Nat) (t : T) : Op → T
  | .tick d => { t with now := t.now + d }
  | .find cid => (find ttl t cid).1
  | .create cid => create ttl t cid
  | .sweep k => sweep t k
  | .die id => { t with conns := ConnMap.step t.conns (.die id) }
  | .closeDevice u d => { t with conns := ConnMap.step t.conns (.closeDevice u d) }
  | .closeUsers us => { t with conns := ConnMap.step t.conns (.closeUsers us) }
  | .callback i => { t with conns := ConnMap.step t.conns (.callback i) }

def run (ttl : Nat) (ops : List Op) : T := ops.foldl (step ttl) {}

/-- How long a request waits if nothing happens: the `timeout` of the query, `sync3/handler/handler.go:283-294` with
`DefaultTimeoutMSecs` of `sync3/request.go:26`, and the least wait of `sync3/handler/connstate_live.go:57-67`. The least is
applied once the connection has nothing to send; a request that has is answered sooner. -/
def wait (timeout : Option Nat) : Nat :=
  let ms := timeout.getD 10000
  if ms < 100 then 100 else ms

/-- A client that asks again `pause` after each answer, while nothing happens: its requests. -/
def asks (cid : CID) (rs : List (Option Nat × Nat)) : List Op :=
  rs.flatMap fun r => [.find cid, .tick (wait r.1), .tick r.2]

end Verif.IdleConns
