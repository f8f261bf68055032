import Verif.Assoc
/-!
# Model of `state/invites_table.go`

The invites table, a map from user and room to the stripped state of the invite (uninterpreted), with its
upsert, removal and `RemoveSupersededInvites`, which `Initialise` and `Accumulate` call in their transaction
with the events of a room.  A database error is not modelled: it leaves the table unchanged.
-/
namespace Verif.Invites

open Verif

/-- The parts of an event read here, as in its JSON: the type, the state key (`none` if there is no string
there), `content.membership` and `unsigned.prev_content.membership` ("" if missing or not a string). -/
structure Raw where
  type : String
  stateKey : Option String := none
  membership : String := ""
  prev : String := ""
  deriving DecidableEq

/-- The columns of `state.Event` used, `event_table.go:25-45`. -/
structure Ev where
  type : String
  stateKey : String
  membership : String
  deriving DecidableEq

/-- `IsMembershipChange`, `internal/event.go:5-19`. -/
def isChange (r : Raw) : Bool :=
  (if r.prev ≠ "" then r.prev else "leave") ≠ (if r.membership ≠ "" then r.membership else "leave")

/-- `ensureFieldsSetOnEvent`, `event_table.go:46-87`, for an event with an id, a room and a type; `none` is the
error for a membership event without a membership, and the event is then left out. -/
def ensure (r : Raw) : Option Ev :=
  let key := r.stateKey.getD ""
  if key ≠ "" ∧ r.type = "m.room.member" then
    if r.membership = "" then none
    else some ⟨r.type, key, if isChange r then r.membership else "_" ++ r.membership⟩
  else some ⟨r.type, key, ""⟩

/-- The table: `UNIQUE(user_id, room_id)`, `invites_table.go:35-46`. -/
abbrev Table := List ((String × String) × List String)

/-- `InsertInvite`, `invites_table.go:93-104`. -/
def insert (t : Table) (user room : String) (blob : List String) : Table := Assoc.set t (user, room) blob

/-- `RemoveInvite`, `invites_table.go:50-53`. -/
def remove (t : Table) (user room : String) : Table := Assoc.del t (user, room)

/-- The map of final memberships, `invites_table.go:66-72`. -/
def memberships (evs : List Ev) : List (String × String) :=
  evs.foldl (fun m ev => if ev.type ≠ "m.room.member" then m else Assoc.set m ev.stateKey ev.membership) []

/-- The users whose invite goes, `invites_table.go:74-79`. -/
def toRemove (evs : List Ev) : List String :=
  ((memberships evs).filter fun p => p.2 ≠ "invite" && p.2 ≠ "_invite").map (·.1)

/-- `RemoveSupersededInvites`, `invites_table.go:65-91`. -/
def removeSuperseded (t : Table) (room : String) (evs : List Ev) : Table :=
  if (toRemove evs).length = 0 then t
  else t.filter fun row => !(decide (row.1.1 ∈ toRemove evs) && decide (row.1.2 = room))

/-- `SelectInviteState`, `invites_table.go:105-118`. -/
def selectState (t : Table) (user room : String) : Option (List String) := Assoc.get t (user, room)

/-- `SelectAllInvitesForUser`, `invites_table.go:120-140`: the rooms with their invites. -/
def selectAll (t : Table) (user : String) : List (String × List String) :=
  (t.filter fun row => decide (row.1.1 = user)).map fun row => (row.1.2, row.2)

inductive Op
  /-- `handler2.OnInvite`, `handler.go:527-539` -/
  | invite (user room : String) (blob : List String)
  /-- `handler2.OnLeftRoom`, `handler.go:541-562` -/
  | left (user room : String)
  /-- the events of a room in `Initialise` and `Accumulate`, `accumulator.go:293,552` -/
  | events (room : String) (evs : List Raw)

def step (t : Table) : Op → Table
  | .invite u r b => insert t u r b
  | .left u r => remove t u r
  | .events r evs => removeSuperseded t r (evs.filterMap ensure)

def run (ops : List Op) : Table := ops.foldl step []

end Verif.Invites
