import Verif.RoomName
import Verif.Leaving
/-!
# Model of `getInitialRoomData`: what a client is sent about a room that comes into view

`sync3/handler/connstate.go:554-700`, for one room (the rooms of a call do not influence each other), and the part of the user
cache it depends on: the invite data kept with the flag `IsInvite` (`sync3/caches/user.go`).

Simplified: `CalculateRoomName(_, 5)` is a function `nm` of the metadata (`RoomName` has its definition, a relation because
of map iteration); events are opaque strings. What the timeline is, is the subject of C42.
-/
namespace Verif.InitialRoom
open Verif
open Verif.RoomName (Meta Hero removeHero)

/-- `InviteData`, `sync3/caches/user.go:78-91`. -/
structure Invite where
  roomID : String
  inviteState : List String
  heroes : List Hero := []
  nameEvent : String := ""
  avatarEvent : String := ""
  alias : String := ""
  deriving DecidableEq

/-- `InviteData.RoomMetadata`, `sync3/caches/user.go:155-171`. -/
def Invite.meta (i : Invite) : Meta :=
  { roomID := i.roomID, heroes := i.heroes, nameEvent := i.nameEvent, avatarEvent := i.avatarEvent, alias := i.alias,
    joinCount := 1, inviteCount := 1 }

/-- `UserRoomData`, `sync3/caches/user.go:41-68`, the fields used. -/
structure Urd where
  isInvite : Bool := false
  isDM : Bool := false
  notif : Int := 0
  highlight : Int := 0
  invite : Option Invite := none
  deriving DecidableEq

/-- What the global cache and the store say about the room now. -/
structure World where
  /-- `GlobalCache.LoadRooms`: the current metadata (a stub if the room is not known) -/
  room : Meta
  /-- `GlobalCache.LoadRoomState` at the anchor position -/
  state : List String
  deriving DecidableEq

/-- The part of the timeline the user may see, `LazyLoadTimelines`. -/
structure Visible where
  timeline : List String
  prevBatch : String
  deriving DecidableEq

/-- `s.lists.ReadOnlyRoom(roomID)`: the timestamps the lists of the connection have. -/
structure ListsMeta where
  latest : String → Nat
  joinTs : Nat
  lastMsg : Nat

/-- `sync3.Room`, `sync3/room.go:11-28`. -/
structure Room where
  name : String
  avatar : String
  notif : Int
  highlight : Int
  timeline : List String
  requiredState : Option (List String)
  inviteState : Option (List String)
  isDM : Bool
  joined : Int
  invited : Int
  prevBatch : String
  timestamp : Nat
  heroes : List Hero
  deriving DecidableEq

/-- The loop over the bump event types, `connstate.go:646-658`. -/
def maxBump (lm : Option ListsMeta) : List String → Nat → Nat
  | [], m => m
  | t :: ts, m =>
    match lm with
    | none => m
    | some l => maxBump lm ts (if l.latest t > m then l.latest t else m)

/-- The timestamp, `connstate.go:644-674`; dereferencing a missing entry of the lists panics. -/
def timestamp (lm : Option ListsMeta) (bump : List String) : Option Nat :=
  let m := maxBump lm bump 0
  match lm with
  | none => if m = 0 then some m else none
  | some l => if m = 0 ∨ m < l.joinTs then some (if bump = [] then l.lastMsg else l.joinTs) else some m

/-- `getInitialRoomData` for one room; a panic is `none`. -/
def getInitial (nm : Meta → String × Bool) (user : String) (urd : Urd) (lm : Option ListsMeta) (bump : List String) (heroes : Bool)
    (v : Visible) (w : World) : Option Room :=
  -- `connstate.go:631-635`
  let src : Option (Meta × Option (List String)) :=
    if urd.isInvite then urd.invite.map fun i => (i.meta, some i.inviteState) else some (w.room, none)
  match src, timestamp lm bump with
  | some (m0, inviteState), some ts =>
    let m := { m0 with heroes := removeHero m0.heroes user }
    some {
      name := (nm m).1
      avatar := RoomName.calculateAvatar m urd.isDM
      notif := urd.notif
      highlight := urd.highlight
      timeline := v.timeline
      requiredState := if urd.isInvite then none else some w.state
      inviteState := inviteState
      isDM := urd.isDM
      joined := m.joinCount
      invited := m.inviteCount
      prevBatch := v.prevBatch
      timestamp := ts
      heroes := if heroes && (nm m).2 then m.heroes else [] }
  | _, _ => none

/-! ## The user cache -/

inductive UOp
  /-- `OnNewEvent`, `sync3/caches/user.go:593-619`; the membership if it is a member event of the user -/
  | event (own : Option String)
  /-- `OnInvite`, `sync3/caches/user.go:621-648`; `none` if the invite state lacks the invite itself.  Also called for the stored
  invites when the cache is created, `sync3/handler/handler.go:567-573`. -/
  | invite (i : Option Invite) (dm : Bool)
  /-- `OnLeftRoom`, `sync3/caches/user.go:650-660` -/
  | left
  /-- unread counts and tags -/
  | counts (notif highlight : Int)

def ustep (u : Urd) : UOp → Urd
  | .event own =>
    match own with
    | none => u
    | some m => if u.isInvite then
        if m = "invite" then u else { u with isInvite := false, highlight := 0 }
      else u
  | .invite none _ => u
  | .invite (some i) dm => { u with isInvite := true, highlight := 1, isDM := dm, invite := some i }
  | .left => { u with isInvite := false, invite := none, highlight := 0 }
  | .counts n h => { u with notif := n, highlight := h }

/-! ## What a request shows -/

/-- What the client gets when its window on the list `k` includes the room: nothing if the list does not have it. -/
def shown (nm : Meta → String × Bool) (user : String) (s : Leaving.State) (k room : String) (urd : Urd) (lm : Option ListsMeta)
    (bump : List String) (heroes : Bool) (v : Visible) (w : World) : Option (Option Room) :=
  match Lists.getList s.lists k with
  | none => none
  | some l =>
    if room ∈ l.sr.ids then
      some (getInitial nm user { urd with isInvite := (s.urd room).isInvite } lm bump heroes v w)
    else none

end Verif.InitialRoom
