import Verif.Store
import Verif.Assoc
/-!
# Model of the positions a new connection starts from

`LoadJoinedRooms` (`sync3/caches/global.go:142-172`) reads the highest NID (`SelectHighestNID`, `state/event_table.go:148-157`) and then, with
further queries, the newest NID of each room up to it (`LatestEventNIDInRooms`, `state/storage.go:1103-1138`, `state/event_table.go:357-380`,
`state/rooms_table.go:93-109`). Each query sees the database of its own time. The database is that of the module `Store`.
-/
namespace Verif.Store

/-- `SelectHighestNID`, `event_table.go:148-157`. -/
def highest (db : DB) : Nat := (db.rows.map (·.nid)).foldl max 0

/-- `max(event_nid)` up to a position in a room, `event_table.go:366-369`; no row if there is none. -/
def slowNID (db : DB) (hi : Nat) (room : String) : Option Nat :=
  match (db.rows.filter fun r => decide (r.room = room) && decide (r.nid ≤ hi)).map (·.nid) with
  | [] => none
  | n :: ns => some (ns.foldl max n)

/-- `LatestEventNIDInRooms`, `storage.go:1103-1138`: the column `latest_nid` if it is not after the position, else the slow query. A room
without a row in the rooms table has 0 there. -/
def latestNIDs (db : DB) (hi : Nat) (rooms : List String) : List (String × Nat) :=
  let fast := rooms.filter fun r => decide (0 < db.latest r) && decide (db.latest r ≤ hi)
  let slow := rooms.filter fun r => !(decide (0 < db.latest r) && decide (db.latest r ≤ hi))
  let m := fast.foldl (fun m r => Assoc.set m r (db.latest r)) []
  (slow.filterMap fun r => (slowNID db hi r).map fun n => (r, n)).foldl (fun m x => Assoc.set m x.1 x.2) m

end Verif.Store
