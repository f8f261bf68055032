import Verif.Util
/-!
# Model of `sync3/handler/lazy_member.go` and its two uses

Strings are lists of characters (only concatenation and equality matter).  The two
Go maps used as sets are lists, of which only membership is read.
-/
namespace Verif.LazyMember

abbrev Str := List Char

/-- `LazyCache`, `lazy_member.go:3-6`. -/
structure State where
  cache : List Str := []
  rooms : List Str := []

/-- The separator in `lazy_member.go:16,37`. -/
def sep : Str := [' ', '|', ' ']

/-- The map key, `lazy_member.go:16,37`. -/
def key (room user : Str) : Str := room ++ sep ++ user

/-- `IsSet`, `lazy_member.go:15-19`. -/
def isSet (s : State) (room user : Str) : Bool := decide (key room user ∈ s.cache)

/-- `IsLazyLoading`, `lazy_member.go:22-25`. -/
def isLazyLoading (s : State) (room : Str) : Bool := decide (room ∈ s.rooms)

/-- `AddUser`, `lazy_member.go:35-44`. -/
def addUser (s : State) (room user : Str) : State × Bool :=
  let s := { s with rooms := room :: s.rooms }
  if key room user ∈ s.cache then (s, false)
  else ({ s with cache := key room user :: s.cache }, true)

/-- `Add`, `lazy_member.go:27-31`. -/
def add (s : State) (room : Str) : List Str → State
  | [] => s
  | u :: us => add (addUser s room u).1 room us

/-- What a connection does with the cache. -/
inductive Op
  /-- Initial data of a room: the senders in its timeline are added if members
  are lazy loaded, `sync3/handler/connstate.go:592-597`; their member events are part
  of the room state loaded then. -/
  | initial (room : Str) (lazyLoading : Bool) (senders : List Str)
  /-- A user is seen in a live event or typing notification,
  `connstate_live.go:250-262` and `connstate.go:526-546`; `found` says whether
  the member event could be loaded. -/
  | seen (room user : Str) (found : Bool)
  deriving DecidableEq

/-- The step; the result says whether a member event is sent for a user seen live. -/
def step (s : State) : Op → State × Bool
  | .initial room lazyLoading senders => (if lazyLoading then add s room senders else s, false)
  | .seen room user found =>
    if isLazyLoading s room && !isSet s room user then
      if found then ((addUser s room user).1, true) else (s, false)
    else (s, false)

def run (s : State) : List Op → State
  | [] => s
  | o :: os => run (step s o).1 os

end Verif.LazyMember
