import Verif.ConnMap
/-!
# The delay for clients that start over

`CreateConn` makes a client wait that starts over although the connection it has was used for at most one answer
(`sync3/connmap.go:143-151`, `SpamProtectionInterval` of `sync3/conn.go:17`). It sleeps while it holds the lock of the `ConnMap`, which every
request of every client needs (`sync3/connmap.go:110-115`, `138-142`). The model is the `ConnMap` of `ConnMap`, which is served one operation after
the other in any order, with the time for which the lock was held by sleeping; other work under the lock is taken to need no time. The
second delay of the code (`sync3/conn.go:202`) holds the lock of a single connection and is not modelled.
-/
namespace Verif.SpamDelay
open Verif.ConnMap (CID Conn)

structure S where
  conns : ConnMap.State := {}
  /-- `Conn.lastPos` -/
  pos : Nat → Nat := fun _ => 0
  /-- milliseconds slept with the lock held -/
  slept : Nat := 0

inductive Op
  /-- an operation under the lock -/
  | conn (o : ConnMap.Op)
  /-- a request was processed on a connection, `sync3/conn.go:236-243` -/
  | answer (id : Nat)

/-- `sync3/connmap.go:143-151`; the interval is that of `sync3/conn.go:17`. -/
def delay (s : S) (cid : CID) : Nat :=
  match (ConnMap.getConn s.conns cid).2 with
  | some c => if s.pos c.id ≤ 1 then 10 else 0
  | none => 0

def step (s : S) : Op → S
  | .conn o => { s with
      conns := ConnMap.step s.conns o
      slept := s.slept + match o with | .create cid => delay s cid | _ => 0 }
  | .answer id => if id < s.conns.next then { s with pos := fun j => if j = id then s.pos id + 1 else s.pos j } else s

def run (ops : List Op) : S := ops.foldl step {}

end Verif.SpamDelay
