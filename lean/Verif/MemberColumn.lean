import Verif.Invites
/-!
# Model of the membership column and its readers (`state/event_table.go`, `state/storage.go`)

`ensureFieldsSetOnEvent` (`Invites.ensure`) stores `content.membership` in a column of its own, with `_` before it if the
event only changes a profile.  The queries at start-up (`AllJoinedMembers`), when a room is reset (`ResetMetadataState`)
and when its state is redelivered (`FetchMemberships`) read that column instead of the event.  Heroes are in `Heroes`.
Simplified: the rows are those the SQL joins with the snapshots give, in the order of `event_nid`; `nid` and
`event` are not kept.
-/
namespace Verif.MemberColumn

open Verif

/-- A row of `syncv3_events` that is in the current snapshot of its room. -/
structure Row where
  room : String
  ev : Invites.Ev
  deriving DecidableEq

/-- The rows of the events of some rooms, without those that `filterAndEnsureFieldsSet` leaves out, `event_table.go:564-578`. -/
def table (l : List (String × Invites.Raw)) : List Row := l.filterMap fun p => (Invites.ensure p.2).map (Row.mk p.1)

/-- The condition on rows `storage.go:1003`. -/
def selected (m : String) : Bool := m = "join" || m = "_join" || m = "invite" || m = "_invite"

/-- The maps filled by `AllJoinedMembers`. -/
structure Loaded where
  joined : List (String × List String) := []
  invites : List (String × Nat) := []
  deriving DecidableEq

/-- The loop of `AllJoinedMembers`, `storage.go:1018-1040`. -/
def load (l : Loaded) (r : Row) : Loaded :=
  if r.ev.membership = "join" ∨ r.ev.membership = "_join" then
    { l with joined := Assoc.set l.joined r.room ((Assoc.get l.joined r.room).getD [] ++ [r.ev.stateKey]) }
  else if r.ev.membership = "invite" ∨ r.ev.membership = "_invite" then
    { l with invites := Assoc.set l.invites r.room ((Assoc.get l.invites r.room).getD 0 + 1) }
  else l

/-- `AllJoinedMembers`, `storage.go:996-1040`. The table it reads has the member events of the snapshots only,
`storage.go:163-170`. -/
def allJoined (rs : List Row) : Loaded :=
  ((rs.filter fun r => decide (r.ev.type = "m.room.member")).filter fun r => selected r.ev.membership).foldl load {}

/-- The counts of the metadata made at start-up, `storage.go:1064-1071`: rooms without joined members have none. -/
def startCounts (l : Loaded) (room : String) : Option (Nat × Nat) :=
  (Assoc.get l.joined room).map fun us => (us.length, (Assoc.get l.invites room).getD 0)

/-- The counts made by `ResetMetadataState`, `storage.go:312-360`. -/
def resetCounts (room : String) (rs : List Row) : Nat × Nat :=
  ((rs.filter fun r => decide (r.room = room)).filter fun r =>
    decide (r.ev.type = "m.room.member") && selected r.ev.membership).foldl (fun c r =>
      if r.ev.membership = "join" ∨ r.ev.membership = "_join" then (c.1 + 1, c.2)
      else if r.ev.membership = "invite" ∨ r.ev.membership = "_invite" then (c.1, c.2 + 1) else c) (0, 0)

/-- `FetchMemberships`, `storage.go:395-432`: the joined, the invited, and the others. -/
def fetch (room : String) (rs : List Row) : List String × List String × List String :=
  ((rs.filter fun r => decide (r.room = room)).filter fun r => decide (r.ev.type = "m.room.member")).foldl (fun a r =>
    if r.ev.membership = "_join" ∨ r.ev.membership = "join" then (a.1 ++ [r.ev.stateKey], a.2.1, a.2.2)
    else if r.ev.membership = "_invite" ∨ r.ev.membership = "invite" then (a.1, a.2.1 ++ [r.ev.stateKey], a.2.2)
    else (a.1, a.2.1, a.2.2 ++ [r.ev.stateKey])) ([], [], [])

end Verif.MemberColumn
