import Verif.RoomName
/-!
# Model of `NewInviteData` and what is shown of an invite (`sync3/caches/user.go:78-171`)

A stripped event has the strings `gjson` reads (missing or not a string is `""`).  Timestamps are natural numbers.  The error log
is left out.
-/
namespace Verif.InviteData
open Verif.RoomName (Meta Hero removeHero)

/-- The parts of a stripped state event that are read, `user.go:99-135`. -/
structure SEv where
  type : String
  stateKey : String := ""
  sender : String := ""
  ts : Nat := 0
  /-- `content.is_direct` -/
  direct : Bool := false
  displayname : String := ""
  avatarURL : String := ""
  /-- `content.name`, `content.url`, `content.alias` or `content.type` -/
  value : String := ""
  deriving DecidableEq

/-- `InviteData`, `user.go:78-91`. -/
structure Data where
  roomID : String
  inviteState : List SEv
  heroes : List Hero := []
  inviteEvent : Option SEv := none
  name : String := ""
  avatar : String := ""
  alias : String := ""
  ts : Nat := 0
  encrypted : Bool := false
  isDM : Bool := false
  roomType : String := ""
  deriving DecidableEq

/-- One iteration of the loop, `user.go:99-135`. -/
def scan (user : String) (d : Data) (e : SEv) : Data :=
  if e.type = "m.room.member" then
    if user = e.stateKey then { d with ts := e.ts, inviteEvent := some e, isDM := e.direct }
    else if e.stateKey = e.sender then { d with heroes := d.heroes ++ [⟨e.stateKey, e.displayname, e.avatarURL⟩] }
    else d
  else if e.type = "m.room.name" then { d with name := e.value }
  else if e.type = "m.room.avatar" then { d with avatar := e.value }
  else if e.type = "m.room.canonical_alias" then { d with alias := e.value }
  else if e.type = "m.room.encryption" then { d with encrypted := true }
  else if e.type = "m.room.create" then { d with roomType := e.value }
  else d

/-- `NewInviteData`, `user.go:93-153`; `none` is nil. -/
def newInviteData (user room : String) (evs : List SEv) : Option Data :=
  let d := evs.foldl (scan user) { roomID := room, inviteState := evs }
  if d.inviteEvent = none then none else some d

/-- `RoomMetadata`, `user.go:155-171`, the fields used for name and avatar. -/
def Data.meta (d : Data) : Meta :=
  { roomID := d.roomID, heroes := d.heroes, nameEvent := d.name, avatarEvent := d.avatar, alias := d.alias, joinCount := 1, inviteCount := 1 }

/-- The metadata the name and avatar are calculated from, `sync3/handler/connstate.go:631-635`. -/
def Data.shown (d : Data) (user : String) : Meta := { d.meta with heroes := removeHero d.meta.heroes user }

end Verif.InviteData
