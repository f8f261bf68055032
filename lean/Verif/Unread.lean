import Verif.Assoc
/-!
Unread counts: sync2/handler2/handler.go 450-485 `UpdateUnreadCounts`, state/unread_table.go 26-76, and their
readers: sync3/handler/handler.go 533-537 (when a user cache is made) and sync3/caches/user.go 546-560 `OnUnreadCounts`.

The room and user of a count are a pair; all users are kept in one table and one cache.
-/
namespace Verif.Unread
open Verif

/-- Highlight and notification counts. -/
abbrev Counts := Int × Int

/-- state/unread_table.go 54-76 `UpdateUnreadCounters`: the row is created with zero counts; a count that is nil is left. -/
def updateRow (db : List ((String × String) × Counts)) (k : String × String) : Option Int → Option Int →
    List ((String × String) × Counts)
  | some h, some n => Assoc.set db k (h, n)
  | some h, none =>
    match Assoc.get db k with
    | none => Assoc.set db k (h, 0)
    | some c => Assoc.set db k (h, c.2)
  | none, some n =>
    match Assoc.get db k with
    | none => Assoc.set db k (0, n)
    | some c => Assoc.set db k (c.1, n)
  | none, none => db

/-- sync3/caches/user.go 546-560 `OnUnreadCounts`: room data that does not exist has zero counts. -/
def onUnread (cache : List ((String × String) × Counts)) (k : String × String) (h n : Option Int) :
    List ((String × String) × Counts) :=
  let c := match Assoc.get cache k with
    | none => (0, 0)
    | some c => c
  let c := match h with
    | none => c
    | some h => (h, c.2)
  let c := match n with
    | none => c
    | some n => (c.1, n)
  Assoc.set cache k c

structure State where
  /-- `unreadMap`, keyed by room id followed by user id -/
  mem : List (String × Counts) := []
  /-- the table, keyed by room and user -/
  db : List ((String × String) × Counts) := []
  /-- the counts in the user caches, keyed by room and user -/
  cache : List ((String × String) × Counts) := []
deriving DecidableEq, Repr

inductive Op
  /-- a delivery from upstream; `ok` tells if the database accepts the write -/
  | update (room user : String) (h n : Option Int) (ok : Bool)
  /-- the process restarts: the caches are loaded from the table when users register (state/unread_table.go 26-44: rows with
  a count that is not zero) -/
  | restart
deriving DecidableEq, Repr

/-- A count as the duplicate check sees it (sync2/handler2/handler.go 455-462). -/
def orZero : Option Int → Int
  | none => 0
  | some x => x

/-- sync2/handler2/handler.go 450-485 and the delivery of its notification. -/
def step (s : State) : Op → State
  | .restart => { s with mem := [], cache := s.db.filter fun e => decide (0 < e.2.2) || decide (0 < e.2.1) }
  | .update room user h n ok =>
    let key := room ++ user
    if Assoc.get s.mem key = some (orZero h, orZero n) then s
    else
      { mem := Assoc.set s.mem key (orZero h, orZero n)
        db := if ok then updateRow s.db (room, user) h n else s.db
        cache := onUnread s.cache (room, user) h n }

def run (ops : List Op) : State := ops.foldl step {}

end Verif.Unread
