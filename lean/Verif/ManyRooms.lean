import Verif.Store
/-!
# The state of many rooms in one query

`RoomStateAfterEventPosition` (`state/storage.go:516-706`) with a filter loads the state of all rooms of a request with one query.
`Store.stateAfterFiltered` is the part of it that concerns one room; here is the query as it is, over all snapshots at once, whose rows
are then sorted into rooms. The events and snapshots are those of `Store`.
-/
namespace Verif.ManyRooms
open Verif.Store

/-- The latest events of the rooms, each with the snapshot to read, `state/storage.go:529-571`; an error for one room is one for all. The
rooms table is read into a map, so the order is arbitrary: the functions below take the list in any order. -/
def latest (db : DB) (rooms : List String) (pos : Nat) : Option (List (Row × Nat)) :=
  (rooms.mapM fun r => latestEvent db r pos).map (·.filterMap id)

/-- `latestEvents[roomIndex[room]]`, `state/storage.go:561`, `676-677`: the last of the room, and the first of all if the room is not in
the map; `none` is the panic if there is none. -/
def ofRoom (ls : List (Row × Nat)) (room : String) : Option (Row × Nat) :=
  match ls.reverse.find? fun l => l.1.room = room with
  | some l => some l
  | none => ls.head?

/-- The query, `state/storage.go:653-663`: the events joined with the snapshots of all rooms. -/
def found (db : DB) (ls : List (Row × Nat)) (f : Filter) : List Row :=
  db.rows.flatMap fun r => (db.snaps.filter fun s => decide (s.id ∈ ls.map (·.2))).flatMap fun s =>
    if matchesF f r.ev && decide (r.nid ∈ columns f s) then [r] else []

/-- `state/storage.go:676-680`. -/
def replaced (ls : List (Row × Nat)) (r : Row) : Option Row :=
  (ofRoom ls r.room).map fun l => if l.1.replaces = r.nid then l.1 else r

/-- `state/storage.go:685-703`. -/
def added (f : Filter) (l : Row) : List Row :=
  if l.replaces = 0 then (f.filter fun t => t.1 = l.ev.type && (t.2.isEmpty || decide (l.ev.stateKey ∈ t.2))).map fun _ => l else []

/-- `roomToEvents[room]`, `state/storage.go:670-703`. -/
def state (db : DB) (ls : List (Row × Nat)) (f : Filter) (room : String) : Option (List Row) :=
  ((found db ls f).mapM (replaced ls)).map fun rs =>
    rs.filter (fun r => r.room = room) ++ (ls.filter fun l => l.1.room = room).flatMap fun l => added f l.1

end Verif.ManyRooms
