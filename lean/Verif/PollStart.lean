import Verif.EnsurePoller
/-!
# Model of getting a device polled, from the request to the poller and back

`EnsurePoller` (`sync3/handler/ensure_polling.go`), the two pub/sub channels, `Handler.EnsurePolling` and `OnExpiredToken`
(`sync2/handler2/handler.go:198-209,564-596`) and the poller of the device in the `PollerMap` (`sync2/poller.go:225-310`,
`sync2/poller.go:549-600`), for one device.

Every access to shared state is one step. The counters at the end of the state are not in the code; they count what went
wrong. Simplified: the channels are unbounded, and a notification that times out is a step in which it is not sent (C87 has the
channels); that a sync ends is a step that may happen (a poller that panics in its first sync never gets there, C69); the
pollers of the user's other devices decide only whether to wait, so that waiting is not modelled.
-/
namespace Verif.PollStart

/-- What is sent to the request handler. -/
inductive Msg
  | complete (success : Bool)
  | expired
  deriving DecidableEq

structure State where
  ep : EnsurePoller.State := {}
  /-- `V3EnsurePolling` payloads in the channel: the token to poll with -/
  v3 : List String := []
  /-- goroutines before `PollerMap.EnsurePolling`, with the token -/
  gor1 : List String := []
  /-- goroutines past it: whether there was a poller already -/
  gor2 : List Bool := []
  v2 : List Msg := []
  /-- the tokens with a row -/
  rows : List String := []
  /-- the poller in the map if it is not terminated: its token -/
  poller : Option String := none
  /-- this poller has called `OnExpiredToken` and is about to terminate -/
  dying : Bool := false
  /-- pollers terminated by `ExpirePollers` before `OnExpiredToken` -/
  ended : List String := []
  /-- notifications that timed out -/
  unsent : Nat := 0
  /-- `V3EnsurePolling` payloads whose token had no row -/
  norow : Nat := 0
  /-- times a poller about to terminate was taken as the device's poller -/
  raced : Nat := 0
  /-- expiries that came before there was an entry -/
  ignored : Nat := 0
  deriving DecidableEq

inductive Op
  /-- a request stores its token -/
  | row (tok : String)
  /-- a request calls `EnsurePolling`; whether a notification can be sent, `ensure_polling.go:63-128` -/
  | call (id : Nat) (tok : String) (sent : Bool)
  | wake (id : Nat)
  /-- `Handler.EnsurePolling` takes a payload, `sync2/handler2/handler.go:564-577` -/
  | ask
  /-- `StartV2Pollers` does the same with a token from the table, `sync2/handler2/handler.go:149-158` -/
  | startup (tok : String)
  /-- `PollerMap.EnsurePolling`, `sync2/poller.go:256-300` -/
  | start (tok : String)
  /-- its end, and the notification; `ok` is whether a new poller is not terminated, `sync2/poller.go:301-310`,
  `sync2/handler2/handler.go:587-595` -/
  | finish (existing : Bool) (ok : Bool) (sent : Bool)
  /-- the poller calls `OnExpiredToken`, `sync2/poller.go:559,598` -/
  | notice (sent : Bool)
  /-- and terminates, `sync2/poller.go:560,599` -/
  | term
  /-- `ExpirePollers` terminates the poller, `sync2/poller.go:239` -/
  | kill
  /-- and calls `OnExpiredToken`, `sync2/poller.go:242` -/
  | late (tok : String) (sent : Bool)
  /-- the request handler takes a message -/
  | recv
  deriving DecidableEq

/-- `v2Pub.Notify`. -/
def notify (s : State) (m : Msg) (sent : Bool) : State :=
  if sent then { s with v2 := s.v2 ++ [m] } else { s with unsent := s.unsent + 1 }

/-- `none` is a panic. -/
def step (s : State) : Op → Option State
  | .row tok => some { s with rows := tok :: s.rows }
  | .call id tok sent =>
    (EnsurePoller.call s.ep id).map fun e =>
      if e.notified = s.ep.notified then { s with ep := e }
      else if sent then { s with ep := e, v3 := s.v3 ++ [tok] }
      else { s with ep := e, unsent := s.unsent + 1 }
  | .wake id => some { s with ep := EnsurePoller.wake s.ep id }
  | .ask =>
    match s.v3 with
    | [] => some s
    | tok :: rest =>
      if tok ∈ s.rows then some { s with v3 := rest, gor1 := tok :: s.gor1 }
      else some { s with v3 := rest, norow := s.norow + 1 }
  | .startup tok => if tok ∈ s.rows then some { s with gor1 := tok :: s.gor1 } else some s
  | .start tok =>
    if tok ∈ s.gor1 then
      if s.poller.isSome then
        some { s with gor1 := s.gor1.erase tok, gor2 := true :: s.gor2, raced := if s.dying then s.raced + 1 else s.raced }
      else some { s with gor1 := s.gor1.erase tok, gor2 := false :: s.gor2, poller := some tok, dying := false }
    else some s
  | .finish existing ok sent =>
    if existing ∈ s.gor2 then
      some (notify { s with gor2 := s.gor2.erase existing } (.complete (existing || ok)) sent)
    else some s
  | .notice sent =>
    match s.poller with
    | none => some s
    | some tok =>
      if s.dying then some s
      else some (notify { s with dying := true, rows := s.rows.filter (· ≠ tok) } .expired sent)
  | .term => if s.dying then some { s with poller := none, dying := false } else some s
  | .kill =>
    match s.poller with
    | none => some s
    | some tok => some { s with poller := none, dying := false, ended := tok :: s.ended }
  | .late tok sent =>
    if tok ∈ s.ended then
      some (notify { s with ended := s.ended.erase tok, rows := s.rows.filter (· ≠ tok) } .expired sent)
    else some s
  | .recv =>
    match s.v2 with
    | [] => some s
    | .complete b :: rest => (EnsurePoller.complete s.ep b).map fun e => { s with ep := e, v2 := rest }
    | .expired :: rest =>
      some { s with ep := EnsurePoller.expire s.ep, v2 := rest, ignored := if s.ep.entry.isSome then s.ignored else s.ignored + 1 }

/-- Run; `none` after a panic. -/
def run (s : State) : List Op → Option State
  | [] => some s
  | o :: os => (step s o).bind fun s' => run s' os

end Verif.PollStart
