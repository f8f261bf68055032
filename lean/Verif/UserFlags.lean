import Verif.Assoc
/-!
# Model of direct chats, tags and ignored users in a user's cache

`OnAccountData` (`sync3/caches/user.go:697-760`), `OnInvite` (`user.go:621-634`) and the making of a cache from the tables
(`sync3/handler/handler.go:525-573`), for one user.

Simplified: what a poller stores is handled at once (C94 is about the time between); account data is stored and handled one event at
a time (events of one message have different types, which touch different fields).  The map `roomToData` is a function, as a missing
entry reads as one without flags.  Of the content there is what `gjson` reads.
-/
namespace Verif.UserFlags

/-- The readings of the content of account data. -/
structure Content where
  /-- all room ids in the arrays of `content`, `user.go:707-714` -/
  direct : List String := []
  /-- the entries of `content.tags`, `user.go:737-744` -/
  tags : List (String × Int) := []
  /-- the keys of `content.ignored_users`; `none` if that is not an object, `user.go:750-758` -/
  ignored : Option (List String) := none
  deriving DecidableEq

/-- The flags in a `UserCache`. -/
structure Cache where
  dm : String → Bool := fun _ => false
  tags : String → List (String × Int) := fun _ => []
  ignored : List String := []

structure State where
  /-- `syncv3_account_data` of the user: room (`""` is global) and type -/
  db : List ((String × String) × Content) := []
  /-- `syncv3_invites` of the user: whether the invite is direct -/
  invites : List (String × Bool) := []
  cache : Cache := {}

/-- `OnAccountData` for one event, `user.go:697-775`. -/
def onAccountData (c : Cache) (room type : String) (x : Content) : Cache :=
  if type = "m.direct" then { c with dm := fun r => decide (r ∈ x.direct) }
  else if type = "m.tag" then { c with tags := fun r => if r = room then x.tags else c.tags r }
  else if type = "m.ignored_user_list" then
    if room ≠ "" then c
    else match x.ignored with
      | none => c
      | some l => { c with ignored := l }
  else c

/-- `OnInvite`, `user.go:621-634`, of the flags. -/
def onInvite (c : Cache) (room : String) (direct : Bool) : Cache :=
  { c with dm := fun r => if r = room then direct else c.dm r }

/-- Account data of a type, if it is stored (`handler.go:538-553`). -/
def load (db : List ((String × String) × Content)) (c : Cache) (room type : String) : Cache :=
  match Assoc.get db (room, type) with
  | none => c
  | some x => onAccountData c room type x

/-- The rows of `RoomAccountDatasWithType(userID, "m.tag")`, `state/account_data.go:74-78`. -/
def tagRows (db : List ((String × String) × Content)) : List ((String × String) × Content) :=
  db.filter fun e => decide (e.1.2 = "m.tag" ∧ e.1.1 ≠ "")

/-- `userCache`, `handler.go:531-573`: direct rooms, ignored users, tags, invites. -/
def loadCache (s : State) : Cache :=
  let c := load s.db (load s.db {} "" "m.direct") "" "m.ignored_user_list"
  let c := (tagRows s.db).foldl (fun c e => onAccountData c e.1.1 e.1.2 e.2) c
  s.invites.foldl (fun c e => onInvite c e.1 e.2) c

inductive Op
  /-- account data comes from upstream -/
  | data (room type : String) (x : Content)
  /-- an invite comes -/
  | invite (room : String) (direct : Bool)
  /-- the invite is retired: the user joins, or it is withdrawn (`state/invites_table.go:50-91`) -/
  | retire (room : String)
  /-- the cache is made anew -/
  | restart

def step (s : State) : Op → State
  | .data r t x => { s with db := Assoc.set s.db (r, t) x, cache := onAccountData s.cache r t x }
  | .invite r d => { s with invites := Assoc.set s.invites r d, cache := onInvite s.cache r d }
  | .retire r => { s with invites := Assoc.del s.invites r }
  | .restart => { s with cache := loadCache s }

def run (ops : List Op) : State := ops.foldl step {}

end Verif.UserFlags
