import Verif.Assoc
/-!
# Model of the spaces a user's cache has for each room

`UserRoomData.Spaces` (`sync3/caches/user.go:61-62`): `OnRegistered` (`user.go:246-318`), `OnSpaceUpdate` (`user.go:571-591`) and
`OnNewEvent` (`user.go:593-619`), with the children and the type of a room in the global cache (`OnNewEvent`,
`sync3/caches/global.go:281-378`) and the dispatcher (`OnNewInitialRoomState` and `OnNewEvent`, `sync3/dispatcher.go:120-214`).

Simplified: one user; the joined rooms read from the store at registration are those of the tracker (C95), and the global cache was made
from the same events (C74). Go maps are association lists; the order in which `OnRegistered` goes through maps has no effect on what is
in them.
-/
namespace Verif.UserSpaces

/-- An event of a room: its parts that matter. `via` is whether `content.via` is an array. -/
inductive Ev
  | child (room : String) (via : Bool)
  /-- a member event of the user -/
  | join
  | leave
  /-- `m.room.create` with the type of the room -/
  | create (type : String)
  | other
  deriving DecidableEq

structure State where
  /-- `ChildSpaceRooms` of the rooms in the global cache: parent and child -/
  children : List (String × String) := []
  /-- `RoomType` of the rooms in the global cache -/
  types : List (String × String) := []
  /-- the rooms the user is joined to, in the tracker -/
  joined : List String := []
  /-- `roomToData` of the user's cache: the spaces of each room that has an entry; `none` if there is no cache -/
  cache : Option (List (String × List String)) := none
  deriving DecidableEq

inductive Op
  /-- `Dispatcher.OnNewEvent` -/
  | event (room : String) (ev : Ev)
  /-- `Dispatcher.OnNewInitialRoomState` -/
  | block (room : String) (evs : List Ev)
  /-- counts, an invite or account data make an entry for a room -/
  | touch (room : String)
  /-- a new cache is registered -/
  | register
  /-- the cache is dropped -/
  | drop
  deriving DecidableEq

/-- A set as a list. -/
def add {α : Type} [DecidableEq α] (l : List α) (x : α) : List α := if x ∈ l then l else l ++ [x]

def del {α : Type} [DecidableEq α] (l : List α) (x : α) : List α := l.filter (· ≠ x)

abbrev Cache := List (String × List String)

/-- `LoadRoomData`, `user.go:348-356`: the spaces of a room. -/
def spacesOf (c : Cache) (room : String) : List String :=
  match Assoc.get c room with
  | some l => l
  | none => []

/-- `OnSpaceUpdate`, `user.go:571-591`, without telling the connections. -/
def spaceUpdate (c : Cache) (parent child : String) (via : Bool) : Cache :=
  Assoc.set c child (if via then add (spacesOf c child) parent else del (spacesOf c child) parent)

/-- An entry for a room that has none. -/
def ensure (c : Cache) (room : String) : Cache :=
  match Assoc.get c room with
  | some _ => c
  | none => Assoc.set c room []

/-- `user.go:603-608`: the event is about a child. -/
def childPart (c : Cache) (room : String) : Ev → Cache
  | .child ch via => spaceUpdate c room ch via
  | _ => c

/-- `UserCache.OnNewEvent`, `user.go:593-619`: the data of the room is read first and written back last. The map of spaces in it is
shared with the cache if the room has an entry, so what `OnSpaceUpdate` does to it stays; if the room has none, a new entry is made. -/
def onNewEvent (c : Cache) (room : String) (ev : Ev) : Cache :=
  match Assoc.get c room with
  | some _ => childPart c room ev
  | none => Assoc.set (childPart c room ev) room []

/-- `GlobalCache.OnNewEvent`, `global.go:281-378`. -/
def global (s : State) (room : String) : Ev → State
  | .child ch true => { s with children := add s.children (room, ch) }
  | .child ch false => { s with children := del s.children (room, ch) }
  | .create t => { s with types := Assoc.set s.types room t }
  | _ => s

/-- `notifyListeners`, `dispatcher.go:265-292`, for the user if `told`. -/
def notify (s : State) (room : String) (ev : Ev) (told : Bool) : State :=
  let s := global s room ev
  if told then { s with cache := s.cache.map fun c => onNewEvent c room ev } else s

/-- `Dispatcher.OnNewEvent`, `dispatcher.go:170-214`: the joined users are told, and the user of a leave event if the user was in the
room. -/
def onEvent (s : State) (room : String) (ev : Ev) : State :=
  match ev with
  | .join => notify { s with joined := add s.joined room } room ev true
  | .leave => notify { s with joined := del s.joined room } room ev (decide (room ∈ s.joined))
  | _ => notify s room ev (decide (room ∈ s.joined))

/-- `OnNewInitialRoomState`, `dispatcher.go:120-168`: if somebody is in the room then the events are handled one by one (also a call
where it is somebody else is a number of `event`); otherwise the joins come first. -/
def onBlock (s : State) (room : String) (evs : List Ev) : State :=
  if room ∈ s.joined then evs.foldl (fun s ev => onEvent s room ev) s
  else
    let told := decide (Ev.join ∈ evs)
    let s := if told then { s with joined := add s.joined room } else s
    evs.foldl (fun s ev => notify s room ev told) s

/-- `IsSpace`, `internal/roomname.go:144-146`. -/
def isSpace (s : State) (room : String) : Bool := Assoc.get s.types room = some "m.space"

/-- `OnRegistered`, `user.go:246-318`, for one room: its children if it is a space, and an entry for the room. -/
def seedRoom (s : State) (c : Cache) (room : String) : Cache :=
  ensure (if isSpace s room then
      (s.children.filter fun e => decide (e.1 = room)).foldl (fun c e => spaceUpdate c room e.2 true) c
    else c) room

def step (s : State) : Op → State
  | .event r ev => onEvent s r ev
  | .block r evs => onBlock s r evs
  | .touch r => { s with cache := s.cache.map fun c => ensure c r }
  | .register => { s with cache := some (s.joined.foldl (seedRoom s) []) }
  | .drop => { s with cache := none }

def run (s : State) (ops : List Op) : State := ops.foldl step s

end Verif.UserSpaces
