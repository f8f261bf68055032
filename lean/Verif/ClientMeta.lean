import Verif.RoomName
/-!
# Model of how the name, avatar and counts of a room reach a connection

One room and one connection which follows it: the global cache, the updates on their way to the connection, the copy of
the metadata in the lists of the connection (`sync3/lists.go:59-153`), the load position and what the client has been
told (`sync3/handler/connstate_live.go:133-313`, `connstate.go:109-170,560-700`).

Simplified: metadata is that after `RemoveHero` of the syncing user, and only the fields of `RoomName.Meta`; the client
takes a field of a response if it is there and starts anew with `initial: true`; a response arrives; the subscription or list has
`include_heroes` (`shouldIncludeHeroes`, `connstate_live.go:461-476`).  `nm` is the name given by
`CalculateRoomName(_, 5)`, which depends on the order of a map only in principle (C56).
-/
namespace Verif.ClientMeta

open Verif

/-- The metadata of an update: that of the room and `UserRoomData.IsDM`. -/
structure M where
  room : RoomName.Meta
  dm : Bool := false
  deriving DecidableEq

/-- `sameHeroAvatars`, `sync3/room.go:75-88`. -/
def sameHeroAvatars : List RoomName.Hero → List RoomName.Hero → Bool
  | [], [] => true
  | a :: l, b :: l' => decide (a.id = b.id) && decide (a.avatar = b.avatar) && sameHeroAvatars l l'
  | _, _ => false

/-- `SameRoomAvatar`, `sync3/room.go:60-73`. -/
def sameRoomAvatar (r next : M) : Bool :=
  if next.dm then
    decide (r.room.avatarEvent = next.room.avatarEvent) && sameHeroAvatars r.room.heroes next.room.heroes &&
      decide (next.room.heroes.length = 1)
  else decide (r.room.avatarEvent = next.room.avatarEvent)

/-- `NewAvatarChange`, `sync3/avatar.go:20-25`. -/
def newAvatarChange (a : String) : String := if a = "" then "<no-avatar>" else a

/-- `MarshalJSON`, `sync3/avatar.go:27-33`: `none` is `null`. -/
def marshalAvatar (a : String) : Option String := if a = "<no-avatar>" then none else some a

/-- What the client has; a missing name is "". -/
structure View where
  name : String
  avatar : Option String
  joined : Int
  invited : Int
  heroes : List RoomName.Hero
  deriving DecidableEq

/-- The second result of `CalculateRoomName`, `internal/roomname.go:156-216`. -/
def calculated (m : RoomName.Meta) : Bool :=
  decide (m.nameEvent = "") && decide (m.alias = "") && !(decide (m.heroes = []) && decide (m.joinCount + m.inviteCount - 1 ≤ 0))

/-- A room sent with `initial: true`, `connstate.go:676-693`. -/
def viewOf (nm : RoomName.Meta → String) (m : M) : View :=
  { name := nm m.room
    avatar := marshalAvatar (newAvatarChange (RoomName.calculateAvatar m.room m.dm))
    joined := m.room.joinCount
    invited := m.room.inviteCount
    heroes := if calculated m.room then m.room.heroes else [] }

/-- The changes found by `SetRoom`, `lists.go:68-91`, and added to the response, `connstate_live.go:272-295`.  An empty
name, a join count of 0 and an empty list of heroes are left out of the JSON (`room.go:12-22`). -/
def update (nm : RoomName.Meta → String) (existing m : M) (v : View) : View :=
  { name := if !RoomName.sameRoomName existing.room m.room && decide (nm m.room ≠ "") then nm m.room else v.name
    avatar := if !sameRoomAvatar existing m then marshalAvatar (newAvatarChange (RoomName.calculateAvatar m.room m.dm)) else v.avatar
    joined := if decide (existing.room.joinCount ≠ m.room.joinCount) && decide (m.room.joinCount ≠ 0) then m.room.joinCount else v.joined
    invited := if decide (existing.room.inviteCount ≠ m.room.inviteCount) then m.room.inviteCount else v.invited
    heroes := if !RoomName.sameRoomName existing.room m.room && calculated m.room && decide (m.room.heroes ≠ []) then m.room.heroes
      else v.heroes }

/-- An update for a connection: an event, or a typing, receipt, unread count or account data update.  It has the metadata
in the global cache when it was made, `caches/user.go:397-415`. -/
inductive Entry
  | event (nid : Nat) (m : M)
  | other (m : M)
  deriving DecidableEq

structure S where
  /-- the number of the last event in the global cache -/
  nid : Nat
  cache : M
  /-- the events held back until a transaction id is known, `handler/txn_id_waiter.go` -/
  held : List (Nat × M) := []
  /-- the channel of the connection -/
  queue : List Entry := []
  /-- `allRooms` of the lists; none before `load` -/
  existing : Option M := none
  /-- `loadPositions` -/
  lp : Nat := 0
  /-- none if the client does not follow the room -/
  client : Option View := none
  deriving DecidableEq

inductive Op
  /-- an event reaches the caches; `own`: it is a message of the user without a transaction id, which the waiter holds back -/
  | dispatch (nid : Nat) (m : RoomName.Meta) (own : Bool)
  /-- another update of the room -/
  | other
  /-- `m.direct` changes the room, `caches/user.go:700-735`; no update is made -/
  | direct (dm : Bool)
  /-- the waiter releases the first event it holds (a time limit for each event, or a transaction id, releases a prefix) -/
  | release
  /-- `load`, with the load position read from the store -/
  | load (p : Nat)
  /-- the room is sent with `initial: true`; the timeline read goes up to `p` -/
  | build (p : Nat)
  /-- an update is processed; `visible`: the room is in a window or a subscription; `inResponse`: the response has the room -/
  | process (visible inResponse : Bool)
  deriving DecidableEq

/-- `processLiveUpdate` for the first update of the channel, `connstate_live.go:133-313`.  Not modelled: messages of ignored users,
which are skipped. -/
def process (nm : RoomName.Meta → String) (s : S) (x : M) (visible inResponse : Bool) : S :=
  match s.queue with
  | [] => s
  | .event n m :: q =>
    if s.lp > 0 ∧ n < s.lp then { s with queue := q }
    else if visible then { s with queue := q, existing := some m, lp := n, client := s.client.map (update nm x m) }
    else { s with queue := q, existing := some m, client := none }
  | .other m :: q =>
    { s with queue := q, existing := some m, client := if inResponse then s.client.map (update nm x m) else s.client }

def step (nm : RoomName.Meta → String) (s : S) : Op → S
  | .dispatch n m own =>
    let s := { s with nid := n, cache := { s.cache with room := m } }
    -- an event is also held back behind another one, `txn_id_waiter.go:41-63`; other updates are not
    if own ∨ s.held ≠ [] then { s with held := s.held ++ [(n, s.cache)] } else { s with queue := s.queue ++ [.event n s.cache] }
  | .other => { s with queue := s.queue ++ [.other s.cache] }
  | .direct dm => { s with cache := { s.cache with dm := dm } }
  | .release =>
    match s.held with
    | [] => s
    | (n, m) :: h => { s with held := h, queue := s.queue ++ [.event n m] }
  | .load p => if s.existing = none then { s with existing := some s.cache, lp := p } else s
  | .build p => if s.existing = none then s else { s with client := some (viewOf nm s.cache), lp := p }
  | .process visible inResponse =>
    match s.existing with
    | none => s
    | some x => process nm s x visible inResponse

def run (nm : RoomName.Meta → String) (start : S) (ops : List Op) : S := ops.foldl (step nm) start

end Verif.ClientMeta
