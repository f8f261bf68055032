import Verif.Assoc
/-!
# Model of how a user's cache comes to be, is fed and goes away

`userCache` (`sync3/handler/handler.go:525-588`), the handlers of messages that look the cache up
(`sync3/handler/handler.go:696-754,800-814`), `Register`, `Unregister` and `UnregisterBulk` of the dispatcher
(`sync3/dispatcher.go:58-90`), `OnInvalidateRoom` (`sync3/handler/handler.go:829-877`) and the creation of connections
(`sync3/handler/handler.go:439-457`), for one user.

Each query, map operation or lock section is one step. Messages are handled by one goroutine, one at a time, which also hands on
events and does invalidations. Simplified: a connection never expires by itself, and `CreateConn` never finds an existing one (C19);
the value of a key is a number, 0 if there is none; database errors other than those of `OnRegistered` are not modelled (the request
then fails and nothing was stored); retiring of invites by member events is not modelled (C57), nor that an invite sets the highlight
count and the direct flag of its room, which are other keys (C53).
-/
namespace Verif.UserCaches

/-- What is loaded, in the order of the queries: unread counts, direct rooms, ignored users, tags, invites. A key is the query and
the room (or nothing). -/
abbrev Key := Nat × String

/-- Number of queries, `handler.go:532-573`. -/
def queries : Nat := 5

/-- What a message says about a key. -/
inductive Val
  /-- the value itself: unread counts, and that an invite is gone -/
  | carried (v : Nat)
  /-- that there is a new value in the database: account data and invites -/
  | reread
  deriving DecidableEq

structure Cache where
  data : List (Key × Nat) := []
  /-- how many queries were made -/
  got : Nat := 0
  /-- not in the code: keys with a message that did not get here, and came after the query -/
  missed : List Key := []
  deriving DecidableEq

inductive Stage
  | loading (c : Nat)
  /-- it has stored its cache and is about to register it -/
  | registering (c : Nat)
  /-- registering failed, about to unregister -/
  | failing (c : Nat)
  /-- about to delete the cache -/
  | deleting (c : Nat)
  /-- `userCache` has returned -/
  | have (c : Nat)
  deriving DecidableEq

structure Conn where
  cache : Nat
  /-- the number of events handed on before -/
  start : Nat
  /-- the events it got -/
  got : List Nat := []
  deriving DecidableEq

structure State where
  db : List (Key × Nat) := []
  msgs : List (Key × Val) := []
  caches : List Cache := []
  /-- `userCaches`: the position in `caches` -/
  stored : Option Nat := none
  /-- `userToReceiver` -/
  registered : Option Nat := none
  reqs : List (Nat × Stage) := []
  conns : List Conn := []
  /-- how many events were handed on -/
  events : Nat := 0
  /-- how far an invalidation is -/
  inval : Nat := 0
  deriving DecidableEq

def val (m : List (Key × Nat)) (k : Key) : Nat := (Assoc.get m k).getD 0

inductive Op
  /-- a poller stores a value and sends the message, `sync2/handler2/handler.go:450-562` -/
  | write (k : Key) (v : Nat)
  /-- the request handler takes a message -/
  | recv
  /-- or hands on an event -/
  | event
  /-- `handler.go:526-531` -/
  | enter (id : Nat)
  /-- one query, `handler.go:532-573` -/
  | read (id : Nat)
  /-- `LoadOrStore`, `handler.go:577-579` -/
  | store (id : Nat)
  /-- `Register`; whether `OnRegistered` succeeds, `handler.go:580`, `dispatcher.go:82-90` -/
  | register (id : Nat) (ok : Bool)
  /-- `handler.go:581` -/
  | unregister (id : Nat)
  /-- `handler.go:582` -/
  | delete (id : Nat)
  /-- the connection is made, `handler.go:454-456` -/
  | connect (id : Nat)
  /-- an invalidation of a room of the user, `handler.go:862`, -/
  | invUnregister
  /-- `handler.go:863-865`, -/
  | invDelete
  /-- and `handler.go:869` -/
  | invClose
  deriving DecidableEq

/-- The message sent for a value: unread counts are in the message; so is leaving a room, which ends an invite. -/
def msgFor (k : Key) (v : Nat) : Val := if k.1 = 0 || v = 0 then .carried v else .reread

/-- What a message does to the cache. A missing value is not read again: `OnInvite` without state does nothing
(`sync3/caches/user.go:621-625`). -/
def apply (db : List (Key × Nat)) (k : Key) (m : Val) (c : Cache) : Cache :=
  match m with
  | .carried v => { c with data := Assoc.set c.data k v }
  | .reread => if val db k = 0 then c else { c with data := Assoc.set c.data k (val db k) }

/-- A message passes a cache by. -/
def miss (k : Key) (c : Cache) : Cache := if k.1 < c.got then { c with missed := k :: c.missed } else c

/-- One query: the values of one kind. -/
def query (db : List (Key × Nat)) (c : Cache) : Cache :=
  { c with data := (c.data.filter fun e => decide (e.1.1 ≠ c.got)) ++ (db.filter fun e => decide (e.1.1 = c.got)), got := c.got + 1 }

/-- All the caches when a message for a key comes. -/
def feed (db : List (Key × Nat)) (k : Key) (m : Val) (stored : Option Nat) (l : List Cache) : List Cache :=
  l.mapIdx fun i c => if stored = some i then apply db k m c else miss k c

def step (s : State) : Op → State
  | .write k v => { s with db := Assoc.set s.db k v, msgs := s.msgs ++ [(k, msgFor k v)] }
  | .recv =>
    if s.inval ≠ 0 then s else
    match s.msgs with
    | [] => s
    | (k, m) :: rest => { s with msgs := rest, caches := feed s.db k m s.stored s.caches }
  | .event =>
    if s.inval ≠ 0 then s else
    { s with events := s.events + 1
             conns := s.conns.map fun c => if s.registered = some c.cache then { c with got := c.got ++ [s.events] } else c }
  | .enter id =>
    match s.stored with
    | some c => { s with reqs := Assoc.set s.reqs id (.have c) }
    | none => { s with caches := s.caches ++ [{}], reqs := Assoc.set s.reqs id (.loading s.caches.length) }
  | .read id =>
    match Assoc.get s.reqs id with
    | some (.loading c) => { s with caches := s.caches.modify c (query s.db) }
    | _ => s
  | .store id =>
    match Assoc.get s.reqs id with
    | some (.loading c) =>
      if (s.caches[c]?.map (·.got)).getD 0 < queries then s else
      match s.stored with
      | some c' => { s with reqs := Assoc.set s.reqs id (.have c') }
      | none => { s with stored := some c, reqs := Assoc.set s.reqs id (.registering c) }
    | _ => s
  | .register id ok =>
    match Assoc.get s.reqs id with
    | some (.registering c) => { s with registered := some c, reqs := Assoc.set s.reqs id (if ok then .have c else .failing c) }
    | _ => s
  | .unregister id =>
    match Assoc.get s.reqs id with
    | some (.failing c) => { s with registered := none, reqs := Assoc.set s.reqs id (.deleting c) }
    | _ => s
  | .delete id =>
    match Assoc.get s.reqs id with
    | some (.deleting _) => { s with stored := none, reqs := Assoc.del s.reqs id }
    | _ => s
  | .connect id =>
    match Assoc.get s.reqs id with
    | some (.have c) => { s with conns := s.conns ++ [{ cache := c, start := s.events }], reqs := Assoc.del s.reqs id }
    | _ => s
  | .invUnregister =>
    if s.inval = 0 ∧ s.registered.isSome then { s with registered := none, inval := 1 } else s
  | .invDelete => if s.inval = 1 then { s with stored := none, inval := 2 } else s
  | .invClose => if s.inval = 2 then { s with conns := [], inval := 0 } else s

def run (ops : List Op) : State := ops.foldl step {}

end Verif.UserCaches
