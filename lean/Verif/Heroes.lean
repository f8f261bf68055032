import Verif.Tracker
import Verif.Circular
import Verif.RoomName
/-!
# Model of the member counts and heroes of `sync3/caches/global.go`

One room: its member events in the store, the tracker (`Tracker`) as the dispatcher drives it
(`sync3/dispatcher.go:120-204`), the cached counts and heroes, their reload after an invalidation
(`state/storage.go:312-381`) and at start-up (`storage.go:994-1073`).  Simplified: what is stored is delivered before
the next section is stored (see `Metadata` for the queue), and member events have a state key that is not empty.
-/
namespace Verif.Heroes

open Verif

/-- A member event: its state key, `content.membership`, `unsigned.prev_content.membership` ("" if missing),
`content.displayname` and `content.avatar_url`. -/
structure Ev where
  user : String
  membership : String
  prev : String := ""
  name : String := ""
  avatar : String := ""
  deriving DecidableEq

/-- `IsMembershipChange`, `internal/event.go:5-19`. -/
def change (e : Ev) : Bool :=
  (if e.prev ≠ "" then e.prev else "leave") ≠ (if e.membership ≠ "" then e.membership else "leave")

/-- The part of `RoomMetadata` used here, `internal/roomname.go:30-53`. -/
structure Meta where
  joinCount : Nat := 0
  inviteCount : Nat := 0
  heroes : List RoomName.Hero := []
  deriving DecidableEq

def toHero (e : Ev) : RoomName.Hero := ⟨e.user, e.name, e.avatar⟩

/-- The loop `global.go:350-368`: a hero with this id gets the new name and avatar, else one is added. -/
def addHero (e : Ev) : List RoomName.Hero → List RoomName.Hero
  | [] => [toHero e]
  | h :: l => if h.id = e.user then { h with name := e.name, avatar := e.avatar } :: l else h :: addHero e l

/-- `GlobalCache.OnNewEvent` for member events, `global.go:336-369`, given the counts of the tracker. -/
def onMember (joinCount inviteCount : Nat) (m : Meta) (e : Ev) : Meta :=
  let m := if change e then
      { joinCount := joinCount, inviteCount := inviteCount
        heroes := if e.membership = "leave" ∨ e.membership = "ban" then RoomName.removeHero m.heroes e.user else m.heroes : Meta }
    else m
  if m.heroes.length < 6 ∧ (e.membership = "join" ∨ e.membership = "invite") then { m with heroes := addHero e m.heroes } else m

structure S where
  /-- the room has a snapshot -/
  known : Bool := false
  /-- the member events of the current state, oldest first -/
  mem : List (String × Ev) := []
  tracker : Tracker.State := Tracker.empty
  cache : Meta := {}

/-- The change of the tracker, `dispatcher.go:177-192`. -/
def track (t : Tracker.State) (room : String) (e : Ev) : Tracker.State :=
  if e.membership = "invite" then Tracker.usersInvitedToRoom t [e.user] room
  else if e.membership = "join" then (Tracker.userJoinedRoom t e.user room).1
  else if e.membership = "ban" ∨ e.membership = "leave" then (Tracker.userLeftRoom t e.user room).1
  else t

/-- `Dispatcher.OnNewEvent`, `dispatcher.go:167-204`, up to the global cache. -/
def live (room : String) (s : S) (e : Ev) : S :=
  let t := track s.tracker room e
  { known := true
    mem := Assoc.set s.mem e.user e
    tracker := t
    cache := onMember (Tracker.joinedUsersForRoom t room fun _ => true).2 (Tracker.numInvited t room) s.cache e }

/-- `Dispatcher.OnNewInitialRoomState`, `dispatcher.go:120-165`, up to the global cache. -/
def initial (room : String) (s : S) (block : List Ev) : S :=
  if (Tracker.joinedUsersForRoom s.tracker room fun _ => true).2 > 0 then { block.foldl (live room) s with known := true }
  else
    let t := (Tracker.usersJoinedRoom s.tracker ((block.filter fun e => e.membership = "join").map (·.user)) room).1
    let t := Tracker.usersInvitedToRoom t ((block.filter fun e => e.membership = "invite").map (·.user)) room
    { known := true
      mem := block.foldl (fun m e => Assoc.set m e.user e) s.mem
      tracker := t
      cache := block.foldl (onMember (Tracker.joinedUsersForRoom t room fun _ => true).2 (Tracker.numInvited t room)) s.cache }

/-- The joined, or the invited, members of the current state, oldest first; the column `membership` is the membership of
the event, with an underscore if it is no change (`event_table.go:46-87`), and both forms are accepted. -/
def withMembership (mem : List (String × Ev)) (ms : List String) : List Ev :=
  (mem.map (·.2)).filter fun e => decide (e.membership ∈ ms)

/-- The values of the ring of the last six, `storage.go:333,1022,1203-1225`; see `Circular`. -/
def lastSix (l : List Ev) : List Ev :=
  match Circular.run 6 l with
  | some b => b.vals
  | none => []

/-- `OnInvalidateRoom`, `sync3/handler/handler.go:829-857`: `ResetMetadataState` and the reload of the tracker from
`FetchMemberships`, `storage.go:395-432`. -/
def reload (room : String) (s : S) : S :=
  { s with
    cache :=
      { joinCount := (withMembership s.mem ["join"]).length
        inviteCount := (withMembership s.mem ["invite"]).length
        heroes := (lastSix (withMembership s.mem ["join", "invite"])).map toHero }
    tracker := Tracker.reload s.tracker room ((withMembership s.mem ["join"]).map (·.user))
      ((withMembership s.mem ["invite"]).map (·.user)) }

/-- The stored numbers of the heroes are looked up and the result, in ascending order, is read backwards,
`storage.go:1045-1063`. -/
def newestFirst (mem : List (String × Ev)) (l : List Ev) : List Ev :=
  ((mem.map (·.2)).filter fun e => decide (e ∈ l)).reverse

/-- Start-up: `AllJoinedMembers`, `storage.go:994-1073`, and `JoinedRoomsTracker.Startup`, which has no invites.  A room
without joined members gets no counts and heroes. -/
def restart (room : String) (s : S) : S :=
  { s with
    cache := if (withMembership s.mem ["join"]).length = 0 then {}
      else
        { joinCount := (withMembership s.mem ["join"]).length
          inviteCount := (withMembership s.mem ["invite"]).length
          heroes := (newestFirst s.mem (lastSix (withMembership s.mem ["join", "invite"]))).map toHero }
    tracker := Tracker.startup [(room, (withMembership s.mem ["join"]).map (·.user))] }

inductive Op
  /-- a new member event of a timeline -/
  | event (e : Ev)
  /-- the new member events of a state block -/
  | block (es : List Ev)
  | restart
  deriving DecidableEq

/-- A state block for a known room invalidates it, `sync2/handler2/handler.go:383-392`. -/
def step (room : String) (s : S) : Op → S
  | .event e => live room s e
  | .block es =>
    if s.known then reload room { s with mem := es.foldl (fun m e => Assoc.set m e.user e) s.mem } else initial room s es
  | .restart => restart room s

def run (room : String) (ops : List Op) : S := ops.foldl (step room) {}

end Verif.Heroes
