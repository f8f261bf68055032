import Verif.ConnMap
/-!
# Which connections listen to a user's cache

`NewConnState` subscribes the connection to its user's cache (`sync3/handler/connstate.go:94`) and `Destroy` ends the subscription
(`sync3/handler/connstate.go:725-732`). `Destroy` is called when the `ConnMap` closes a connection (`sync3/connmap.go:244`) and by the
connection itself when its buffer is full (`sync3/handler/connstate_live.go:44-45`); both may happen to the same connection.

The `ConnMap` is that of `ConnMap`, with callbacks that run at any later time. Each step of it is followed by the subscriptions it ends
and makes; in the code they are made under the lock of the `ConnMap`, but for those that the buffer ends. A user's cache is never replaced
(`sync3/handler/handler.go:525-575`).
-/
namespace Verif.Lifecycle
open Verif

structure W where
  conns : ConnMap.State := {}
  /-- `UserCache.id` of each user's cache -/
  next : String → Nat := fun _ => 0
  /-- `UserCache.listeners`: which connection listens under which number -/
  listeners : String → List (Nat × Nat) := fun _ => []
  /-- `ConnState.userCache` and `userCacheID` of a connection -/
  sub : Nat → Option (String × Nat) := fun _ => none

/-- `Subscribe`, `sync3/caches/user.go:225-232`, and `sync3/handler/connstate.go:94`. -/
def subscribe (w : W) (u : String) (c : Nat) : W :=
  { w with
    next := fun v => if v = u then w.next u + 1 else w.next v
    listeners := fun v => if v = u then (w.next u, c) :: (w.listeners u).filter (fun p => p.1 ≠ w.next u) else w.listeners v
    sub := fun d => if d = c then some (u, w.next u) else w.sub d }

/-- `Unsubscribe`, `sync3/caches/user.go:234-238`, and `sync3/handler/connstate.go:726`. -/
def unsubscribe (w : W) (c : Nat) : W :=
  match w.sub c with
  | none => w
  | some (u, i) => { w with listeners := fun v => if v = u then (w.listeners u).filter (fun p => p.1 ≠ i) else w.listeners v }

/-- The connections a step destroys. -/
def ended (s s' : ConnMap.State) : ConnMap.Op → List Nat
  | .die id => if id < s.next then [id] else []
  | _ => s'.destroyed.take (s'.destroyed.length - s.destroyed.length)

def step (w : W) (o : ConnMap.Op) : W :=
  let s' := ConnMap.step w.conns o
  let w1 := (ended w.conns s' o).foldl unsubscribe w
  let w2 := match o with
    | .create cid => subscribe w1 cid.user w.conns.next
    | _ => w1
  { w2 with conns := s' }

def run (ops : List ConnMap.Op) : W := ops.foldl step {}

end Verif.Lifecycle
