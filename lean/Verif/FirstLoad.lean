import Verif.Assoc
/-!
# Model of the first load of a connection and what happens if it fails

`OnIncomingRequest` (`sync3/handler/connstate.go:174-189`), `load` (`connstate.go:109-171`), the creation of lists (`AssignList`,
`sync3/lists.go:229-253`, called without overwriting, `connstate.go:272`) and live updates (`processGlobalUpdates`,
`sync3/handler/connstate_live.go:335-381`; `resort` adds a room that is not on the list, `connstate_live.go:423-459`).

Simplified: the lists have no filters and their order does not matter; the user joins rooms but does not leave them; every event of a
joined room is queued for the connection once, in order. The position of an event is its number, from 1. How many updates a request
processes is arbitrary (C82).
-/
namespace Verif.FirstLoad

structure State where
  /-- the events stored, by room; the first one of a room is the join -/
  log : List String := []
  /-- the number of events from before the connection and of those taken from the queue -/
  taken : Nat := 0
  /-- `anchorLoadPosition`; `none` is -1 -/
  anchor : Option Nat := none
  /-- `allRooms` of the lists, `sync3/lists.go:46-49` -/
  known : List String := []
  /-- the lists and their rooms -/
  lists : List (String × List String) := []
  deriving DecidableEq

inductive Op
  /-- an event of a room is stored and queued -/
  | event (room : String)
  /-- a request with lists; whether the database answers, and how many updates it takes -/
  | request (ok : Bool) (keys : List String) (n : Nat)
  deriving DecidableEq

/-- A set as a list. -/
def add (l : List String) (r : String) : List String := if r ∈ l then l else l ++ [r]

/-- `load`: the joined rooms are set, and the position is that of the database. `SetRoom` does not touch the lists
(`sync3/lists.go:59-153`: it only returns what to do to them, which is not looked at here). -/
def load (s : State) : State :=
  { s with known := s.log.foldl add s.known, anchor := some s.log.length }

/-- `AssignList` for a list of the request, `sync3/lists.go:229-253`. -/
def assign (s : State) (key : String) : State :=
  match Assoc.get s.lists key with
  | some _ => s
  | none => { s with lists := Assoc.set s.lists key s.known }

/-- The next update: the room is set, it is added to the lists where it is missing, and the position is moved,
`connstate_live.go:335-381`. -/
def take (s : State) : State :=
  match s.log[s.taken]? with
  | none => s
  | some r =>
    { s with taken := s.taken + 1, known := add s.known r, lists := s.lists.map fun p => (p.1, add p.2 r)
             anchor := match s.anchor with
               | none => some (s.taken + 1)
               | some a => some (max a (s.taken + 1)) }

def takes : Nat → State → State
  | 0, s => s
  | n + 1, s => takes n (take s)

/-- `if s.anchorLoadPosition <= 0`, `connstate.go:175`. -/
def unset : Option Nat → Bool
  | none => true
  | some a => a = 0

def step (s : State) : Op → State
  | .event r => { s with log := s.log ++ [r] }
  | .request ok keys n =>
    let s := if unset s.anchor && ok then load s else s
    takes n (keys.foldl assign s)

/-- A new connection: it gets the updates from now on (`NewConnState`, `connstate.go:60-95`), so those of before are not in its queue. -/
def init (before : List String) : State := { log := before, taken := before.length }

def run (s : State) (ops : List Op) : State := ops.foldl step s

end Verif.FirstLoad
