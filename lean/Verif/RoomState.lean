import Verif.StoreState
import Verif.Request
/-!
# Model of the loading of required state (`sync3/caches/global.go:191-223`, `sync3/handler/connstate.go:566-640`)

The request side is `RSM` (`Verif.Request`), the storage side `stateAfter` and `stateAfterFiltered`
(`Verif.Store`).  The events are rows of the events table.  The senders of the loaded timelines are a parameter,
as the set of senders is a Go map whose keys come in any order.
-/
namespace Verif.RoomState
open Verif.Request Verif.Store

/-- `Empty`, `internal/required_state_map.go:65-70`. -/
def isEmpty (m : RSM) : Bool :=
  !m.allState && !m.lazy && m.exact.length == 0 && m.keysWild.length == 0 && m.typesWild.length == 0

/-- The Go map made by `QueryStateMap` as a list with one entry per type: `RSM.query` may repeat a type, and the
first entry is the one in the map. -/
def mapOf : List (String × List String) → Filter
  | [] => []
  | e :: l => e :: (mapOf l).filter fun x => !decide (x.1 = e.1)

/-- `RoomStateAfterEventPosition` for one room, `state/storage.go:516-704`: without types all state is loaded. -/
def stateFor (db : DB) (room : String) (pos : Nat) (q : List (String × List String)) : Option (List Row) :=
  if q.length = 0 then stateAfter db room pos else stateAfterFiltered db room pos (mapOf q)

/-- The choice made for one loaded event, `global.go:207-218`: how often it is in the result. -/
def choose (m : RSM) (users : List String) (x : Row) : List Row :=
  if m.include x.ev.type x.ev.stateKey then [x]
  else if m.lazy then (users.filter (· = x.ev.stateKey)).map fun _ => x
  else []

/-- `LoadRoomState`, `global.go:191-223`, for the rooms of one call.  An error for any room gives no state for all of
them (`global.go:199-204`); a room without an entry gets an empty list (`connstate.go:637-640`).
`users` are the senders in the timeline of each room. -/
def loadRoomState (db : DB) (rooms : List String) (pos : Nat) (m : RSM) (users : String → List String) (room : String) : List Row :=
  if isEmpty m then []
  else if rooms.any fun r => (stateFor db r pos m.query).isNone then []
  else if room ∈ rooms then ((stateFor db room pos m.query).getD []).flatMap (choose m (users room))
  else []

/-- The rooms the state is loaded for, `connstate.go:603-609`: not those the user is only invited to. -/
def loadRooms (invited : String → Bool) (rooms : List String) : List String := rooms.filter fun r => !invited r

/-- The `required_state` of a room in the initial data for a subscription, `connstate.go:590-641`; `none` is the nil
slice of an invite. -/
def requiredState (db : DB) (invited : String → Bool) (rooms : List String) (pos : Nat) (rs : List (String × String)) (user : String)
    (users : String → List String) (room : String) : Option (List Row) :=
  if invited room then none
  else some (loadRoomState db (loadRooms invited rooms) pos (rsm rs user) users room)

end Verif.RoomState
