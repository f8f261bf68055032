import Verif.ListOps
/-!
# Model of which rooms the responses of a connection have data for

`processLiveUpdate`, `processUpdatesForSubscriptions`, `processLiveUpdateForList` and `resort`
(`sync3/handler/connstate_live.go:133-459`) for a connection with any number of lists and room subscriptions: which rooms an
update puts into the response, with full data (`initial: true`) or with the news only.

Simplified:
* The lists of a connection are a list; Go's map order does not matter as the rooms to build are a set and `hasUpdates` is a
  disjunction.
* What `SetRoom` finds for each list (`sync3/lists.go:59-153`), the order of the list after the update, and whether the unread
  counts changed are input. So is whether the user is joined. Updates that are not of a room change nothing here.
* The lists, orders and windows after a request and the rooms it builds are input (`ConnLists` has them).
* A room entry is only whether it has full data.
-/
namespace Verif.LiveRooms
open Verif.Ranges Verif.ListOps

variable {α : Type} [DecidableEq α]

/-- A list of the connection: in the merged request (`s.muxedReq.Lists`), in `s.lists`, and whether it has operations in the
response that is being made (`response.Lists[key].Ops`). -/
structure RoomList (α : Type) where
  ranges : Ranges
  getAll : Bool
  order : List α
  hasOps : Bool
  deriving DecidableEq

structure St (α : Type) where
  lists : List (RoomList α) := []
  /-- `s.muxedReq.RoomSubscriptions` -/
  wanted : List α := []
  /-- `s.roomSubscriptions` -/
  subs : List α := []
  /-- `response.Rooms`: the rooms with full data, and those with news only -/
  full : List α := []
  news : List α := []
  deriving DecidableEq

/-- What an update means for a list: the operation, the new order and whether `Add` takes the room; `none` if `SetRoom` has no
delta for the list. -/
structure Delta (α : Type) where
  op : LOp
  sort : List α → List α
  accept : Bool

/-- An update of a room. -/
structure Update (α : Type) where
  room : α
  /-- it is a `RoomEventUpdate` -/
  isEvent : Bool
  /-- `EventData.ForceInitial` -/
  force : Bool
  /-- dropped by the checks of lines 140-161 (already loaded, or sent by an ignored user) -/
  skip : Bool
  /-- `IsUserJoined` -/
  joined : Bool
  /-- the unread counts changed -/
  counts : Bool
  /-- one for each list -/
  deltas : List (Option (Delta α))
  /-- old rooms that `buildRooms` adds, `sync3/handler/connstate.go:478-511` -/
  old : List α

/-- What an update does to a list: the list, the rooms to build and whether there are updates. -/
structure ListRes (α : Type) where
  list : RoomList α
  built : List α
  updates : Bool

/-- The room is in the list at an index in a window, `sync3/handler/connstate_live.go:451-457`. -/
def inView (rs : Ranges) (l : List α) (room : α) : Bool :=
  match indexOf l room with
  | some i => (inside rs i).isSome
  | none => false

/-- `sync3/handler/connstate_live.go:423-459` `resort`; `none` is a panic. -/
def resort (l : RoomList α) (room : α) (d : Delta α) : Option (ListRes α × Bool) :=
  if l.getAll then
    match d.op with
    | .add => some (⟨{ l with order := if d.accept ∧ room ∉ l.order then l.order ++ [room] else l.order }, [room], true⟩, false)
    | .del => some (⟨{ l with order := l.order.erase room }, [], true⟩, false)
    | .change => some (⟨l, [], true⟩, false)
  else
    match calculateListOps l.ranges d.sort d.accept l.order room d.op with
    | none => none
    | some r =>
      some (⟨{ l with order := r.after }, r.subs, (!r.ops.isEmpty || !r.subs.isEmpty) || inView l.ranges r.after room⟩, !r.ops.isEmpty)

/-- `sync3/handler/connstate_live.go:383-420` `processLiveUpdateForList`, for each list with a delta. -/
def forList (u : Update α) (l : RoomList α) : Option (Delta α) → Option (ListRes α)
  | none => some ⟨l, [], false⟩
  | some d =>
    match resort l u.room d with
    | none => none
    | some (r, ops) =>
      let hasOps := l.hasOps || ops
      some ⟨{ r.list with hasOps := hasOps }, (if u.isEvent && u.force then [u.room] else []) ++ r.built,
        r.updates || hasOps⟩

/-- The loop over the lists, `sync3/handler/connstate_live.go:171-181`. -/
def forLists (u : Update α) : List (RoomList α) → List (Option (Delta α)) → Option (List (ListRes α))
  | [], _ => some []
  | l :: ls, [] => (forLists u ls []).map (⟨l, [], false⟩ :: ·)
  | l :: ls, d :: ds =>
    match forList u l d with
    | none => none
    | some r => (forLists u ls ds).map (r :: ·)

/-- `sync3/handler/connstate_live.go:311-332` `processUpdatesForSubscriptions`: whether there are updates, and whether a new
subscription is made (`sync3/handler/connstate.go:446-462`). -/
def forSubs (s : St α) (u : Update α) : Bool × Bool :=
  if u.room ∈ s.subs then (true, false)
  else if u.room ∈ s.wanted then (u.joined, u.joined)
  else (false, false)

/-- News of a room: it joins the entry of the room if there is one. -/
def addNews (s : St α) (room : α) (b : Bool) : St α :=
  if b then (if room ∈ s.full ∨ room ∈ s.news then s else { s with news := room :: s.news }) else s

/-- `sync3/handler/connstate_live.go:133-308` `processLiveUpdate`. -/
def update (s : St α) (u : Update α) : Option (St α) :=
  if u.isEvent && u.skip then some s
  else
    match forLists u s.lists u.deltas with
    | none => none
    | some rs =>
      let sub := forSubs s u
      let hasUpdates := sub.1 || rs.any (·.updates)
      let built := u.old ++ (if sub.2 then [u.room] else []) ++ rs.flatMap (·.built)
      let s1 : St α :=
        { s with
          lists := rs.map (·.list)
          subs := if sub.2 then u.room :: s.subs else s.subs
          full := built ++ s.full
          news := s.news.filter fun r => decide (r ∉ built) }
      some (addNews (addNews s1 u.room (hasUpdates && u.isEvent)) u.room u.counts)

/-- A request: the new lists and subscriptions, and the rooms with full data of the new response
(`sync3/handler/connstate.go:194-267`). -/
structure Req (α : Type) where
  lists : List (RoomList α)
  wanted : List α
  subs : List α
  full : List α

def request (q : Req α) : St α := { lists := q.lists, wanted := q.wanted, subs := q.subs, full := q.full, news := [] }

end Verif.LiveRooms
