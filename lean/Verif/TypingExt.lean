/-!
# Model of the typing extension of a connection

`sync3/extensions/typing.go:31-94`, with what feeds it: `OnTyping` (`sync3/handler/handler.go:788-798`), the typing event in the
global metadata (`sync3/caches/global.go:261-275`) and the updates of the user cache (`sync3/caches/user.go:499-513,397-415`).
One room and one connection that has the extension.

Simplified: that the room is in scope (`RoomInScope`, C31) and that it is in the response are inputs. An update arrives at a
connection through a queue and carries the typing event as it was then. A response arrives.
-/
namespace Verif.TypingExt

inductive Member
  | joined | invited | out
  deriving DecidableEq

inductive Up
  /-- `TypingUpdate` -/
  | typing (e : String)
  /-- any other `RoomUpdate`, with `GlobalRoomMetadata().TypingEvent` -/
  | room (e : Option String)
  deriving DecidableEq

structure State where
  member : Member := .joined
  /-- `TypingEvent` in the global metadata -/
  cur : Option String := none
  queue : List Up := []
  /-- the room is in scope of the extension -/
  scope : Bool := false
  /-- what the client was last told -/
  client : Option String := none
  deriving DecidableEq

inductive Op
  | member (m : Member)
  /-- a typing event from upstream -/
  | typing (e : String)
  /-- an event, a receipt or something else happens in the room -/
  | update
  /-- the connection processes the next update; `inResp` if the room is in the response -/
  | process (inResp : Bool)
  /-- a request: the room is in scope afterwards or not, and in the response or not -/
  | request (scope inResp : Bool)
  /-- an update of another room moves this room into or out of the windows -/
  | shift (scope : Bool)
  deriving DecidableEq

/-- `AppendLive`, `typing.go:31-68`: the event sent, if any. -/
def appendLive (scope inResp : Bool) : Up → Option String
  | .typing e => if scope then some e else none
  | .room e => if inResp && scope then e else none

/-- `ProcessInitial`, `typing.go:70-94`. -/
def processInitial (cur : Option String) (scope inResp : Bool) : Option String :=
  if inResp && scope then cur else none

/-- The client replaces what it has. -/
def tell (client sent : Option String) : Option String :=
  match sent with
  | none => client
  | some e => some e

def step (s : State) : Op → State
  | .member m => { s with member := m }
  | .typing e =>
    -- duplicates are dropped, `handler.go:792-796`; only joined users get it, `sync3/dispatcher.go:216-240`
    if s.cur = some e then s
    else { s with cur := some e, queue := if s.member = .joined then s.queue ++ [.typing e] else s.queue }
  | .update =>
    match s.member with
    | .joined => { s with queue := s.queue ++ [.room s.cur] }
    -- the metadata of an invite has no typing event, `sync3/caches/user.go:155-171`
    | .invited => { s with queue := s.queue ++ [.room none] }
    | .out => s
  | .process inResp =>
    match s.queue with
    | [] => s
    | u :: q => { s with queue := q, client := tell s.client (appendLive s.scope inResp u) }
  | .request scope inResp => { s with scope := scope, client := tell s.client (processInitial s.cur scope inResp) }
  | .shift scope => { s with scope := scope }

def run (s : State) (os : List Op) : State := os.foldl step s

end Verif.TypingExt
