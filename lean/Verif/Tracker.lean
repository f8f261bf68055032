/-!
# Model of `sync3/tracker.go` (`JoinedRoomsTracker`)

Go maps from string to set are total functions to duplicate-free lists: an
absent key, a nil set and an empty set behave alike in every method (reads and
deletes on nil are no-ops and each method allocates before writing).  The order
of the list stands for Go's unspecified map order; no theorem depends on it.
The mutex makes each method atomic.
-/
namespace Verif.Tracker

/-- `set`, `sync3/tracker.go:7`. -/
abbrev SSet := List String

/-- `s[x] = struct{}{}`. -/
def sadd (s : SSet) (x : String) : SSet := if x ∈ s then s else s ++ [x]

/-- `delete(s, x)`. -/
def sdel (s : SSet) (x : String) : SSet := s.filter (· ≠ x)

abbrev SMap := String → SSet

/-- `m[k] = v`. -/
def upd (m : SMap) (k : String) (v : SSet) : SMap := fun x => if x = k then v else m x

/-- `JoinedRoomsTracker`, `sync3/tracker.go:14-22`. -/
structure State where
  joinedUsers : SMap   -- roomIDToJoinedUsers
  joinedRooms : SMap   -- userIDToJoinedRooms
  invited : SMap       -- roomIDToInvitedUsers

/-- `NewJoinedRoomsTracker`, `sync3/tracker.go:24-31`. -/
def empty : State := ⟨fun _ => [], fun _ => [], fun _ => []⟩

/-- `Startup`, `sync3/tracker.go:35-54`, on a new tracker (it panics on any
other).  The argument lists the entries of the Go map in iteration order. -/
def startup (m : List (String × List String)) : State :=
  m.foldl (fun t (room, users) =>
    { t with
      joinedRooms := users.foldl (fun jr u => upd jr u (sadd (jr u) room)) t.joinedRooms
      joinedUsers := upd t.joinedUsers room (users.foldl sadd []) }) empty

/-- `IsUserJoined`, `sync3/tracker.go:56-66`. -/
def isUserJoined (t : State) (user room : String) : Bool := (t.joinedUsers room).any (· = user)

/-- `UsersJoinedRoom`, `sync3/tracker.go:79-115`. -/
def usersJoinedRoom (t : State) (users : List String) (room : String) : State × Bool :=
  let wasJoined := users.all fun u => u ∈ t.joinedUsers room
  let t' := users.foldl (fun t u =>
    { invited := upd t.invited room (sdel (t.invited room) u)
      joinedRooms := upd t.joinedRooms u (sadd (t.joinedRooms u) room)
      joinedUsers := upd t.joinedUsers room (sadd (t.joinedUsers room) u) }) t
  (t', !wasJoined)

/-- `UserJoinedRoom`, `sync3/tracker.go:70-74`. -/
def userJoinedRoom (t : State) (user room : String) : State × Bool := usersJoinedRoom t [user] room

/-- `UserLeftRoom`, `sync3/tracker.go:120-138`. -/
def userLeftRoom (t : State) (user room : String) : State × Bool :=
  let wasJoined := decide (user ∈ t.joinedUsers room)
  let wasInvited := decide (user ∈ t.invited room)
  ({ joinedRooms := upd t.joinedRooms user (sdel (t.joinedRooms user) room)
     joinedUsers := upd t.joinedUsers room (sdel (t.joinedUsers room) user)
     invited := upd t.invited room (sdel (t.invited room) user) },
   wasJoined || wasInvited)

/-- `JoinedRoomsForUser`, `sync3/tracker.go:140-155`. -/
def joinedRoomsForUser (t : State) (user : String) : List String := t.joinedRooms user

/-- `JoinedUsersForRoom`, `sync3/tracker.go:159-176`. -/
def joinedUsersForRoom (t : State) (room : String) (filter : String → Bool) : List String × Nat :=
  ((t.joinedUsers room).filter filter, (t.joinedUsers room).length)

/-- `UsersInvitedToRoom`, `sync3/tracker.go:178-189`. -/
def usersInvitedToRoom (t : State) (users : List String) (room : String) : State :=
  { t with invited := upd t.invited room (users.foldl sadd (t.invited room)) }

/-- `NumInvitedUsersForRoom`, `sync3/tracker.go:191-195`. -/
def numInvited (t : State) (room : String) : Nat := (t.invited room).length

/-- `ReloadMembershipsForRoom`, `sync3/tracker.go:199-232`. -/
def reload (t : State) (room : String) (joined invited : List String) : State :=
  let newJoined := joined.foldl sadd []
  let newInvited := invited.foldl sadd []
  let oldJoined := t.joinedUsers room
  let jr := newJoined.foldl (fun jr u => upd jr u (sadd (jr u) room)) t.joinedRooms
  let jr := oldJoined.foldl (fun jr u => if u ∈ newJoined then jr else upd jr u (sdel (jr u) room)) jr
  { joinedUsers := upd t.joinedUsers room newJoined
    invited := upd t.invited room newInvited
    joinedRooms := jr }

/-- The mutating methods. -/
inductive Op
  | join (users : List String) (room : String)
  | leave (user room : String)
  | invite (users : List String) (room : String)
  | reload (room : String) (joined invited : List String)
  deriving Repr

def step (t : State) : Op → State
  | .join us r => (usersJoinedRoom t us r).1
  | .leave u r => (userLeftRoom t u r).1
  | .invite us r => usersInvitedToRoom t us r
  | .reload r j i => reload t r j i

/-- A tracker started with memberships `m` after the operations `ops`. -/
def run (m : List (String × List String)) (ops : List Op) : State := ops.foldl step (startup m)

end Verif.Tracker
