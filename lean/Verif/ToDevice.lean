import Verif.Util
/-!
# Model of `state/to_device_table.go` and `sync3/extensions/todevice.go`

The inbox of one (user, device).  A to-device message is its `type`, `sender` and the three fields of its
content the code reads; the rest is `body`.  Positions come from a sequence shared by all devices, so an
insertion may skip numbers.  Each transaction is one step: insertions for one device come from its poller and
are not concurrent with each other.  Database errors are not modelled.
-/
namespace Verif.ToDevice

structure Msg where
  type : String
  sender : String := ""
  action : String := ""
  reqDevice : String := ""
  reqId : String := ""
  body : String := ""
  deriving DecidableEq

/-- The unique key, `to_device_table.go:148-159`. -/
def key (m : Msg) : Option String :=
  if m.type = "m.room_key_request" then
    some (m.type ++ "-" ++ m.sender ++ "-" ++ m.reqDevice ++ "-" ++ m.reqId)
  else none

/-- `rows[i].Action == ActionRequest`, `to_device_table.go:150-152`. -/
def isRequest (m : Msg) : Bool := m.type = "m.room_key_request" && m.action = "request"

/-- `rows[i].Action == ActionCancel`, `to_device_table.go:153-155`. -/
def isCancel (m : Msg) : Bool := m.type = "m.room_key_request" && m.action = "request_cancellation"

structure Row where
  pos : Nat
  msg : Msg
  deriving DecidableEq

/-- The tables for one device, and whether the device is in `deviceIDToSinceDebugOnly`. -/
structure State where
  rows : List Row := []
  /-- the last position handed out -/
  seq : Nat := 0
  /-- `unack_pos`, 0 if there is no row -/
  unack : Nat := 0
  known : Bool := false
  deriving DecidableEq

/-- Keys of the cancellations (resp. requests) of a batch, `to_device_table.go:160-165`. -/
def cancels (msgs : List Msg) : List String := (msgs.filter isCancel).filterMap key
def requests (msgs : List Msg) : List String := (msgs.filter isRequest).filterMap key

/-- The `DELETE` of `to_device_table.go:167-174`. -/
def isCancelled (s : State) (cs : List String) (r : Row) : Bool :=
  match key r.msg with
  | some k => decide (k ∈ cs) && decide (r.pos > s.unack)
  | none => false

/-- The rows kept for insertion, `to_device_table.go:175-198`; `inDB` are the deleted keys. -/
def keep (inDB reqs cs : List String) (m : Msg) : Bool :=
  match key m with
  | none => true
  | some k => !decide (k ∈ inDB) && !(decide (k ∈ reqs) && decide (k ∈ cs))

/-- Give positions to the messages. -/
def number : Nat → List Msg → List Row
  | _, [] => []
  | n, m :: ms => ⟨n + 1, m⟩ :: number (n + 1) ms

/-- `InsertMessages`, `to_device_table.go:119-222`; `skip` numbers are taken by other devices first.  The key of
every cancellation is set, so the nil checks of the code never matter. -/
def insert (s : State) (skip : Nat) (msgs : List Msg) : State :=
  let cs := cancels msgs
  let gone := s.rows.filter (isCancelled s cs)
  let rows := s.rows.filter fun r => !isCancelled s cs r
  let new := if cs.length > 0 then msgs.filter (keep (gone.filterMap fun r => key r.msg) (requests msgs) cs) else msgs
  { s with rows := rows ++ number (s.seq + skip) new, seq := s.seq + skip + new.length }

/-- `Messages`, `to_device_table.go:96-117`. -/
def messages (s : State) (pos limit : Nat) : List Row × Nat :=
  let rows := (s.rows.filter fun r => r.pos > pos).take limit
  (rows, match rows.getLast? with | some r => r.pos | none => pos)

/-- A request with a `since` that parses, or none; `ProcessInitial`, `todevice.go:63-139`.  A `since` that
does not parse gives no response and changes nothing. -/
def request (s : State) (since : Option Nat) (limit : Nat) : State × (List Row × Nat) :=
  let limit := if limit = 0 then 100 else limit
  let since := if s.known then since else none
  let pos := since.getD 0
  let s := match since with
    | some p => { s with rows := s.rows.filter fun r => !decide (r.pos ≤ p) }
    | none => s
  let res := messages s pos limit
  ({ s with unack := res.2, known := true }, res)

/-- The table, with any requests. -/
inductive Op
  | insert (skip : Nat) (msgs : List Msg)
  | request (since : Option Nat) (limit : Nat)
  /-- the proxy restarts (`false`), or another user's device of the same id asks first (`true`) -/
  | known (b : Bool)

def step (s : State) : Op → State
  | .insert k ms => insert s k ms
  | .request p l => (request s p l).1
  | .known b => { s with known := b }

def run (ops : List Op) : State := ops.foldl step {}

/-! ## With a client that passes back the last `next_batch` it received -/

structure Sys where
  srv : State := {}
  /-- the last `next_batch` received -/
  cursor : Option Nat := none
  /-- the messages received, in order -/
  got : List Row := []
  /-- ghost: all rows ever inserted -/
  log : List Row := []
  /-- ghost: rows removed by a cancellation -/
  gone : List Row := []
  /-- ghost: largest `since` sent -/
  acked : Nat := 0

inductive Ev
  | insert (skip : Nat) (msgs : List Msg)
  /-- the client asks; the response may be lost -/
  | poll (limit : Nat) (received : Bool)
  | known (b : Bool)
  /-- the client starts again without a token -/
  | forget

def sysStep (s : Sys) : Ev → Sys
  | .insert k ms =>
    let srv := insert s.srv k ms
    { s with srv := srv
             log := s.log ++ srv.rows.filter fun r => s.srv.seq < r.pos
             gone := s.gone ++ s.srv.rows.filter (isCancelled s.srv (cancels ms)) }
  | .poll limit received =>
    let r := request s.srv s.cursor limit
    if received then
      { s with srv := r.1, cursor := some r.2.2, got := s.got ++ r.2.1, acked := max s.acked (s.cursor.getD 0) }
    else { s with srv := r.1, acked := max s.acked (s.cursor.getD 0) }
  | .known b => { s with srv := { s.srv with known := b } }
  | .forget => { s with cursor := none }

def sysRun (s : Sys) (evs : List Ev) : Sys := evs.foldl sysStep s

end Verif.ToDevice
