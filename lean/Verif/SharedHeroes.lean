import Verif.RoomName
/-!
# Model of one room update shared by the connections of a user

`emitOnRoomUpdate` (`sync3/caches/user.go`) hands the same update to every connection of a user, and each connection
processes it in its own goroutine. The metadata in it is one `*internal.RoomMetadata`. This is modelled as memory: `arr` is the
array behind the slice `m.Heroes` and `len` its length. Every goroutine runs, one atomic step at a time,
* `DeepCopy` (`internal/roomname.go:67-101`), called at `sync3/handler/connstate_live.go:360`, and `RemoveHero` on the copy;
* then, for every of the name and the avatar that has changed, `RemoveHero` (`internal/roomname.go:135-142`) on the shared
  metadata and a read of its heroes (`sync3/handler/connstate_live.go:272-288`).

Simplified: the search of `RemoveHero`, its `append` and the copying of the elements are atomic each. A panic is `none`.
-/
namespace Verif.SharedHeroes
open Verif
open Verif.RoomName (Hero removeHero)

inductive Pc
  | start
  /-- between `make([]Hero, len(m.Heroes))` and `copy`, `internal/roomname.go:80-81` -/
  | copying (n : Nat)
  /-- `k` times the heroes are still to be read -/
  | ready (k : Nat)
  /-- in `RemoveHero`, the user was found at `i` -/
  | cutting (i k : Nat)
  /-- `RemoveHero` has returned -/
  | reading (k : Nat)
  deriving DecidableEq

structure Thread where
  pc : Pc := .start
  /-- the heroes stored in the lists of the connection -/
  copy : Option (List Hero) := none
  /-- the heroes used for the name, the avatar and the response -/
  outs : List (List Hero) := []
  deriving DecidableEq

structure State where
  arr : List Hero
  len : Nat
  threads : Nat → Thread := fun _ => {}

/-- `m.Heroes` -/
def State.heroes (s : State) : List Hero := s.arr.take s.len

def State.put (s : State) (t : Nat) (th : Thread) : State := { s with threads := fun x => if x = t then th else s.threads x }

/-- The search of `RemoveHero`, `internal/roomname.go:136-137`. -/
def find (user : String) (hs : List Hero) : Option Nat := hs.findIdx? fun h => h.id = user

/-- `m.Heroes = append(m.Heroes[0:i], m.Heroes[i+1:]...)`, `internal/roomname.go:138`: moves elements within the array.
Panics if `i+1` is greater than the length. -/
def cut (s : State) (i : Nat) : Option State :=
  if i + 1 ≤ s.len then
    some { s with arr := s.heroes.take i ++ s.heroes.drop (i + 1) ++ s.arr.drop (s.len - 1), len := s.len - 1 }
  else none

/-- One step of the goroutine `t`. `rounds t` is the number of times it reads the shared heroes. -/
def step (user : String) (rounds : Nat → Nat) (s : State) (t : Nat) : Option State :=
  let th := s.threads t
  match th.pc with
  | .start => some (s.put t { th with pc := .copying s.len })
  | .copying n =>
    -- the rest of the new slice are zero values
    let mine := s.heroes.take n ++ List.replicate (n - s.len) { id := "" }
    some (s.put t { th with pc := .ready (rounds t), copy := some (removeHero mine user) })
  | .ready 0 => some s
  | .ready (k + 1) =>
    match find user s.heroes with
    | none => some (s.put t { th with pc := .reading k })
    | some i => some (s.put t { th with pc := .cutting i k })
  | .cutting i k => (cut s i).map fun s' => s'.put t { th with pc := .reading k }
  | .reading k => some (s.put t { th with pc := .ready k, outs := th.outs ++ [s.heroes] })

/-- A schedule of the goroutines. -/
def run (user : String) (rounds : Nat → Nat) (s : State) : List Nat → Option State
  | [] => some s
  | t :: ts => (step user rounds s t).bind (run user rounds · ts)

/-- The update as emitted. -/
def init (heroes : List Hero) : State := { arr := heroes, len := heroes.length }

end Verif.SharedHeroes
