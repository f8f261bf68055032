import Verif.Util
/-!
Which part of a room's timeline a user may see (state/storage.go 712-967, 1150-1189 and
state/event_table.go 420-440, 497-512).

Simplifications: the events table is the list of its rows in ascending `event_nid`; membership rows
are those of one user (the queries all fix `event_type = 'm.room.member' AND state_key = userID`).
-/
namespace Verif.Visibility

/-- One `m.room.member` row of the user (state/storage.go 38-42 `membershipEvent`). -/
structure MEv where
  room : String
  nid : Int
  membership : String
deriving DecidableEq, Repr

/-- state/event_table.go 497-512 `SelectEventsWithTypeStateKeyInRooms`:
`event_nid > lo AND event_nid <= hi AND room_id IN (…) ORDER BY event_nid ASC`. -/
def selectIn (rows : List MEv) (rooms : List String) (lo hi : Int) : List MEv :=
  rows.filter fun e => decide (lo < e.nid) && decide (e.nid ≤ hi) && rooms.contains e.room

/-- state/storage.go 1161-1189 `determineJoinedRoomsFromMemberships`. The map holds the NID of the
join; the timestamp that is stored next to it is left out. -/
def determineJoined (evs : List MEv) : String → Option Int :=
  evs.foldl (fun m ev =>
    if ev.membership = "join" then
      match m ev.room with
      | some _ => m
      | none => fun r => if r = ev.room then some ev.nid else m r
    else if ev.membership = "ban" ∨ ev.membership = "leave" then
      fun r => if r = ev.room then none else m r
    else m) (fun _ => none)

/-- Loop state of `calculateVisibleEventNIDs`: `isJoined`, `startIndex`, `result`. -/
structure Acc where
  joined : Bool
  start : Int
  result : List (Int × Int)
deriving DecidableEq, Repr

/-- state/storage.go 915-941: one iteration. -/
def calcStep (s : Acc) (e : MEv) : Acc :=
  if !s.joined && decide (e.membership = "invite") then
    { s with result := s.result ++ [(e.nid, e.nid)] }
  else if (s.joined && (decide (e.membership = "leave") || decide (e.membership = "ban"))) ||
      (!s.joined && decide (e.membership = "join")) then
    if s.joined then { s with result := s.result ++ [(s.start, e.nid)], joined := false }
    else { s with start := e.nid, joined := true }
  else s

/-- state/storage.go 902-952 `calculateVisibleEventNIDs`. `result[len(result)-1]` is only evaluated
when `result` is not empty. -/
def calcRange (isJoined : Bool) (fromIncl toIncl : Int) (logs : List MEv) : Int × Int :=
  if logs = [] then (fromIncl, toIncl)
  else
    let s := logs.foldl calcStep ⟨isJoined, if isJoined then fromIncl else -1, []⟩
    let result := if s.joined then s.result ++ [(s.start, toIncl)] else s.result
    match result.getLast? with
    | none => (0, 0)
    | some r => r

/-- state/storage.go 888-967 `visibleEventNIDsWithData`, read at one room. -/
def withData (joined : String → Option Int) (membershipEvents : List MEv) (lo hi : Int)
    (room : String) : Option (Int × Int) :=
  let logs := membershipEvents.filter fun e => decide (e.room = room)
  match joined room with
  | some _ => some (calcRange true lo hi logs)
  | none => if logs = [] then none else some (calcRange false lo hi logs)

/-- state/storage.go 822-846 `visibleEventNIDsBetweenForRooms`, read at one room. -/
def betweenForRooms (rows : List MEv) (rooms : List String) (lo hi : Int) (room : String) :
    Option (Int × Int) :=
  let before := if lo ≠ 0 then selectIn rows rooms 0 lo else []
  withData (determineJoined before) (selectIn rows rooms lo hi) lo hi room

/-- A timeline row (`syncv3_events`); `isState` rows come from a v2 state block. -/
structure TEv where
  room : String
  nid : Int
  isState : Bool
  missingPrevious : Bool
deriving DecidableEq, Repr

/-- state/event_table.go 430-437: cut after the first (newest) event that misses its predecessor. -/
def cutAtGap : List TEv → List TEv
  | [] => []
  | e :: l => if e.missingPrevious then [e] else e :: cutAtGap l

/-- state/event_table.go 420-440 `SelectLatestEventsBetween`, newest first. -/
def selectLatestBetween (tl : List TEv) (room : String) (lo hi : Int) (limit : Nat) : List TEv :=
  cutAtGap ((tl.reverse.filter fun e =>
    decide (lo < e.nid) && decide (e.nid ≤ hi) && decide (e.room = room) && !e.isState).take limit)

/-- state/storage.go 733-742: the loop that collects up to `limit` of them. -/
def collect (limit : Nat) : List TEv → List TEv → List TEv
  | acc, [] => acc
  | acc, e :: l =>
    let acc := acc ++ [e]
    if acc.length ≥ limit then acc else collect limit acc l

/-- state/storage.go 712-763 `LatestEventsInRooms` for one room: the timeline (oldest first).
`none`: no entry for the room. `maxLimit` is `MaxTimelineLimit`. -/
def latestEvents (rows : List MEv) (tl : List TEv) (rooms : List String) (hi : Int) (maxLimit limit : Nat)
    (room : String) : Option (List TEv) :=
  let limit := if maxLimit ≠ 0 ∧ limit > maxLimit then maxLimit else limit
  (betweenForRooms rows rooms 0 hi room).map fun r =>
    (collect limit [] (selectLatestBetween tl room (r.1 - 1) r.2 limit)).reverse

end Verif.Visibility
