/-!
# Model of how the data of a user's rooms is changed by several goroutines

The functions of `UserCache` that change `roomToData` (`sync3/caches/user.go:246-318,546-770`). Most of them load the data of a room with the
lock for reading, change their copy, and store it with the lock for writing: in between, other goroutines may do the same. A cache is
stored for others to find before it is registered (`sync3/handler/handler.go:575-585`), so that the request that registers it runs
`OnRegistered` while the listener may handle messages for the user.

Modelled: any number of goroutines; each load and each store is one step, steps come in any order. The map of the spaces of a room is
shared by all copies of its data, so it is behind an address. Simplified: a copy is changed in the same step in which it is loaded, as only
the map of spaces is visible to others; invites, tags and join timings are numbers, 0 for none; what is sent to connections is not
modelled (C53, C95, C98).
-/
namespace Verif.LostUpdates

/-- `UserRoomData`, `sync3/caches/user.go:41-68`. -/
structure Data where
  dm : Bool := false
  isInvite : Bool := false
  left : Bool := false
  highlights : Int := 0
  notifs : Int := 0
  invite : Nat := 0
  tags : Nat := 0
  join : Nat := 0
  /-- the address of the map of spaces -/
  spaces : Nat
  deriving DecidableEq, Repr

/-- What the functions do to the copy of the data of a room. -/
inductive Op
  /-- `OnUnreadCounts`, `sync3/caches/user.go:546-561` -/
  | counts (highlights notifs : Option Int)
  /-- `OnNewEvent`, `sync3/caches/user.go:593-611`: whether the event is the user's own membership, and then whether it is `invite` -/
  | event (membership : Option Bool)
  /-- `OnSpaceUpdate`, `sync3/caches/user.go:571-580` -/
  | space (parent : String) (deleted : Bool)
  /-- `OnInvite`, `sync3/caches/user.go:627-635` -/
  | invite (data : Nat) (dm : Bool)
  /-- `OnLeftRoom`, `sync3/caches/user.go:650-659` -/
  | left
  deriving DecidableEq, Repr

/-- The fields that an operation changes in its copy. -/
def change (op : Op) (d : Data) : Data :=
  match op with
  | .counts h n => { d with highlights := h.getD d.highlights, notifs := n.getD d.notifs }
  | .event none => d
  | .event (some invited) =>
    if d.isInvite then { d with isInvite := invited, highlights := if invited then d.highlights else 0 } else d
  | .space _ _ => d
  | .invite i dm => { d with isInvite := true, left := false, highlights := 1, dm := dm, invite := i }
  | .left => { d with isInvite := false, left := true, invite := 0, highlights := 0 }

/-- What it does to the map of spaces, `sync3/caches/user.go:573-577`. -/
def changeSpaces (op : Op) (m : List String) : List String :=
  match op with
  | .space p true => m.filter (· != p)
  | .space p false => p :: m
  | _ => m

/-- An operation that has loaded and not stored yet. -/
structure Frame where
  who : Nat
  room : String
  copy : Data
  deriving DecidableEq, Repr

structure State where
  data : String → Option Data
  heap : Nat → List String
  /-- the next address -/
  next : Nat
  frames : List Frame

def init : State := ⟨fun _ => none, fun _ => [], 0, []⟩

inductive Step
  /-- `LoadRoomData`, and the change of the copy, `sync3/caches/user.go:348-356` -/
  | load (who : Nat) (room : String) (op : Op)
  /-- `roomToData[roomID] = urd` of what the goroutine loaded last -/
  | store (who : Nat)
  /-- `m.tag`, `sync3/caches/user.go:758-770`, in one critical section -/
  | tags (room : String) (t : Nat)
  /-- the join timing, `sync3/caches/user.go:308-315`, in one critical section -/
  | join (room : String) (t : Nat)
  /-- `m.direct`, `sync3/caches/user.go:706-730`, in one critical section -/
  | direct (rooms : List String)
  deriving DecidableEq, Repr

/-- The data of a room, or new data with a new map, `sync3/caches/user.go:70-75,348-356`. -/
def fetch (s : State) (r : String) : Data × (Nat → List String) × Nat :=
  match s.data r with
  | some d => (d, s.heap, s.next)
  | none => ({ spaces := s.next }, fun a => if a = s.next then [] else s.heap a, s.next + 1)

def put (f : String → Option Data) (r : String) (d : Data) : String → Option Data := fun r' => if r' = r then some d else f r'

def step (s : State) : Step → State
  | .load who r op =>
    let (d, heap, next) := fetch s r
    { s with
      heap := fun a => if a = d.spaces then changeSpaces op (heap a) else heap a
      next := next
      frames := ⟨who, r, change op d⟩ :: s.frames }
  | .store who =>
    match s.frames.find? (·.who == who) with
    | none => s
    | some f => { s with data := put s.data f.room f.copy, frames := s.frames.eraseP (·.who == who) }
  | .tags r t =>
    let (d, heap, next) := fetch s r
    { s with data := put s.data r { d with tags := t }, heap := heap, next := next }
  | .join r t =>
    let (d, heap, next) := fetch s r
    { s with data := put s.data r { d with join := t }, heap := heap, next := next }
  | .direct rooms =>
    { s with
      data := fun r =>
        match s.data r with
        | some d => some { d with dm := rooms.contains r }
        | none => if rooms.contains r then some { dm := true, spaces := s.next + rooms.idxOf r } else none
      heap := fun a => if s.next ≤ a then [] else s.heap a
      next := s.next + rooms.length }

def run (s : State) (steps : List Step) : State := steps.foldl step s

/-! ### Calls -/

/-- Calls of the functions. -/
inductive Call
  | counts (room : String) (highlights notifs : Option Int)
  /-- an event, and if it is a space child, the child and whether it is removed -/
  | event (room : String) (membership : Option Bool) (child : Option (String × Bool))
  | invite (room : String) (data : Nat) (dm : Bool)
  | left (room : String)
  | tags (room : String) (t : Nat)
  | direct (rooms : List String)
  /-- what `OnRegistered` does for a joined room, `sync3/caches/user.go:292-315` -/
  | registered (room : String) (children : List String) (join : Nat)
  deriving DecidableEq, Repr

/-- The steps of a call by goroutine `who`. -/
def steps (who : Nat) : Call → List Step
  | .counts r h n => [.load who r (.counts h n), .store who]
  | .event r m none => [.load who r (.event m), .store who]
  | .event r m (some (c, del)) => [.load who r (.event m), .load who c (.space r del), .store who, .store who]
  | .invite r i dm => [.load who r (.invite i dm), .store who]
  | .left r => [.load who r .left, .store who]
  | .tags r t => [.tags r t]
  | .direct rooms => [.direct rooms]
  | .registered r children t => (children.flatMap fun c => [.load who c (.space r false), .store who]) ++ [.join r t]

end Verif.LostUpdates
