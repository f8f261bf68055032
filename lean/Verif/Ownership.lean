import Verif.Assoc
/-!
# Model of the maps shared between the caches and the connections

Updates and loads hand copies of `internal.RoomMetadata` and `caches.UserRoomData` to the connections, whose goroutines read
them without a lock while the goroutine of the dispatcher goes on writing to the caches.  In Go the copy of a struct shares
its maps and slices.  Modelled as memory: `heap` has the maps (and the array of the heroes) by address, the structs have
addresses.  Values are uninterpreted.  Every step gives the addresses the goroutine of the dispatcher writes to.
Simplified: fields that are copied by value are left out; what connections write to (the heroes in the update they share) is in
`SharedHeroes`; one user.
-/
namespace Verif.Ownership

open Verif

/-- The contents of a map, or of the array behind a slice of heroes. -/
abbrev Obj := List (String × Nat)

/-- `internal.RoomMetadata`, `internal/roomname.go:30-53`: `Heroes`, `LatestEventsByType`, `ChildSpaceRooms`. -/
structure Meta where
  heroes : Nat
  latest : Nat
  children : Nat
  deriving DecidableEq

/-- `UserRoomData`, `sync3/caches/user.go:41-68`: `Spaces`, `Tags`. -/
structure Urd where
  spaces : Nat
  tags : Nat
  deriving DecidableEq

/-- What a connection was given, in an update or on a load. -/
structure Given where
  room : String
  md : Meta
  urd : Urd
  deriving DecidableEq

structure State where
  heap : List Obj := []
  global : List (String × Meta) := []
  user : List (String × Urd) := []
  given : List Given := []
  deriving DecidableEq

/-- What `GlobalCache.OnNewEvent` does to the heroes. -/
inductive HeroOp
  | none
  /-- `RemoveHero`, `internal/roomname.go:135-142`, in place -/
  | remove (user : String)
  /-- a new name, in place, or `append`: into the spare part of the array, or (`grow`) into a new one -/
  | put (user : String) (v : Nat) (grow : Bool)
  deriving DecidableEq

inductive Op
  /-- the metadata of a room loaded when the proxy starts -/
  | startup (room : String) (heroes latest children : Obj)
  /-- an event: its type with the time, the child of a space it sets or removes, and the hero -/
  | event (room type : String) (v : Nat) (child : Option (String × Bool)) (hero : HeroOp)
  /-- the room is invalidated -/
  | invalidate (room : String) (heroes : Obj)
  /-- an `m.space.child` event for the user's cache -/
  | space (parent child : String) (deleted joined : Bool)
  /-- the tags of a room -/
  | tags (room : String) (o : Obj)
  /-- an event, new counts, an invite, a leave: the user's data are loaded, changed, stored and handed on -/
  | change (room : String)
  /-- typing, a receipt: handed on without a change -/
  | tell (room : String)
  /-- a connection loads a room -/
  | load (room : String)
  deriving DecidableEq

/-- A new object. -/
def alloc (h : List Obj) (o : Obj) : List Obj × Nat := (h ++ [o], h.length)

def write (h : List Obj) (a : Nat) (f : Obj → Obj) : List Obj := h.modify a f

/-- `NewRoomMetadata`, `internal/roomname.go:55-61`. The slice of heroes is nil. -/
def newMeta (h : List Obj) : List Obj × Meta := (h ++ [[], [], []], ⟨h.length, h.length + 1, h.length + 2⟩)

/-- `NewUserRoomData`, `sync3/caches/user.go:70-75`. -/
def newUrd (h : List Obj) : List Obj × Urd := (h ++ [[], []], ⟨h.length, h.length + 1⟩)

/-- `DeepCopy`, `internal/roomname.go:67-101`. -/
def deepCopy (h : List Obj) (m : Meta) : List Obj × Meta :=
  (h ++ [h[m.heroes]?.getD [], h[m.latest]?.getD [], h[m.children]?.getD []], ⟨h.length, h.length + 1, h.length + 2⟩)

/-- `copyRoom`, `sync3/caches/global.go:124-131`. -/
def copyRoom (s : State) (room : String) : List Obj × Meta :=
  match Assoc.get s.global room with
  | none => newMeta s.heap
  | some m => deepCopy s.heap m

/-- `LoadRoomData`, `sync3/caches/user.go:348-356`: the struct is copied, the maps are shared. -/
def loadUrd (s : State) (room : String) : State × Urd :=
  match Assoc.get s.user room with
  | none => let r := newUrd s.heap; ({ s with heap := r.1 }, r.2)
  | some u => (s, u)

/-- `newRoomUpdate`, `sync3/caches/user.go:397-415`, and `emitOnRoomUpdate` (`user.go:522-532`); also a load by a connection, with
`LoadRooms` or `LoadJoinedRooms` of the global cache and `LoadRoomData` of the user's (`sync3/handler/connstate.go:109-131`, `566-567`). -/
def give (s : State) (room : String) : State :=
  let r := loadUrd s room
  let c := copyRoom r.1 room
  { r.1 with heap := c.1, given := r.1.given ++ [⟨room, c.2, r.2⟩] }

/-- `LoadRoomData`, and the entry stored again: the first lines of `OnNewEvent`, `OnUnreadCounts`, `OnInvite` and `OnLeftRoom`,
`sync3/caches/user.go:546-695`. -/
def touch (s : State) (room : String) : State :=
  let r := loadUrd s room
  { r.1 with user := Assoc.set r.1.user room r.2 }

/-- The metadata `GlobalCache.OnNewEvent` works on, `global.go:287-290`, stored at `global.go:377`. -/
def metaOf (s : State) (room : String) : State × Meta :=
  match Assoc.get s.global room with
  | none => let r := newMeta s.heap; ({ s with heap := r.1, global := Assoc.set s.global room r.2 }, r.2)
  | some m => (s, m)

def setKey (k : String) (v : Nat) (o : Obj) : Obj := Assoc.set o k v

def delKey (k : String) (o : Obj) : Obj := Assoc.del o k

/-- The heroes, `global.go:336-369`. -/
def heroStep (s : State) (room : String) (m : Meta) : HeroOp → State × List Nat
  | .none => (s, [])
  | .remove u => ({ s with heap := write s.heap m.heroes (delKey u) }, [m.heroes])
  | .put u v grow =>
    if grow then
      let r := alloc s.heap (setKey u v (s.heap[m.heroes]?.getD []))
      ({ s with heap := r.1, global := Assoc.set s.global room { m with heroes := r.2 } }, [])
    else ({ s with heap := write s.heap m.heroes (setKey u v) }, [m.heroes])

/-- The children of a space, `global.go:326-334`. -/
def childStep (h : List Obj) (m : Meta) : Option (String × Bool) → List Obj × List Nat
  | none => (h, [])
  | some (k, deleted) => (write h m.children (if deleted then delKey k else setKey k 0), [m.children])

/-- One step, and the addresses written to. -/
def step (s : State) : Op → State × List Nat
  /- `GlobalCache.Startup`, `global.go:232-255` -/
  | .startup room h l c =>
    ({ s with heap := s.heap ++ [h, l, c]
              global := Assoc.set s.global room ⟨s.heap.length, s.heap.length + 1, s.heap.length + 2⟩ }, [])
  /- `GlobalCache.OnNewEvent`, `global.go:281-378` -/
  | .event room type v child hero =>
    let r := metaOf s room
    let c := childStep r.1.heap r.2 child
    let l := write c.1 r.2.latest (setKey type v)
    let x := heroStep { r.1 with heap := l } room r.2 hero
    (x.1, c.2 ++ [r.2.latest] ++ x.2)
  /- `GlobalCache.OnInvalidateRoom`, `global.go:380-395`, with `ResetMetadataState`, `state/storage.go:332-372` -/
  | .invalidate room heroes =>
    match Assoc.get s.global room with
    | none => (s, [])
    | some m => ({ s with heap := s.heap ++ [heroes, []]
                          global := Assoc.set s.global room { m with heroes := s.heap.length, children := s.heap.length + 1 } }, [])
  /- `OnSpaceUpdate`, `sync3/caches/user.go:571-591` -/
  | .space parent child deleted joined =>
    let r := loadUrd s child
    let t := { r.1 with heap := write r.1.heap r.2.spaces (if deleted then delKey parent else setKey parent 0)
                        user := Assoc.set r.1.user child r.2 }
    (if joined then give t child else t, [r.2.spaces])
  /- `OnAccountData`, `user.go:697-787`, for `m.tag`: the map is a new one -/
  | .tags room o =>
    let r := loadUrd s room
    let t := alloc r.1.heap o
    (give { r.1 with heap := t.1, user := Assoc.set r.1.user room { r.2 with tags := t.2 } } room, [])
  | .change room => (give (touch s room) room, [])
  | .tell room => (give s room, [])
  | .load room => (give s room, [])

def run (ops : List Op) : State := ops.foldl (fun s o => (step s o).1) {}

end Verif.Ownership
