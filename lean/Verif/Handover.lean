import Verif.Assoc
/-!
# Which pollers of a user fetch a room's events

A user with several devices has a poller for each (`sync2/poller.go:248-310`). A poller started while the poller of another device runs
first asks for everything but rooms (`sync2/client.go:174-177`), relying on the other one for what happened in the rooms up to the token it
is given. One room which the user is in all the time is looked at; its upstream timeline is a sequence of events numbered from 0, and a
sync token stands for the number of events before it. The homeserver answers a sync with the events after the token, or with the last ones
only (and `limited`) if they are more than the limit asked for. Asking and processing the answer are steps of their own. The state of the
room and other users are left out.
-/
namespace Verif.Handover
open Verif

/-- A timeline given to the accumulator: the events `start … start + count - 1`. -/
structure Seg where
  start : Nat
  count : Nat
  limited : Bool
  deriving DecidableEq, Repr

/-- A poller (`sync2/poller.go:425-462`) with its loop state (`sync2/poller.go:491-496`): of the request in flight the answer's token. -/
structure P where
  since : Option Nat
  toDeviceOnly : Bool
  terminated : Bool := false
  asked : Option Nat := none
  deriving DecidableEq, Repr

structure S where
  /-- how many events the room has upstream -/
  now : Nat := 0
  /-- `PollerMap.Pollers`, of one user, by device -/
  pollers : List (String × P) := []
  /-- the since tokens in the database, by device -/
  saved : List (String × Nat) := []
  /-- the timelines given to the accumulator, oldest first -/
  got : List Seg := []
  deriving DecidableEq, Repr

inductive Act
  /-- an event is sent to the room -/
  | send
  /-- `EnsurePolling` for a device -/
  | ensure (dev : String) (startup : Bool)
  /-- the poller of the device asks the homeserver -/
  | ask (dev : String)
  /-- the request fails, but not for good -/
  | fault (dev : String)
  /-- the answer is processed: whether all sections succeed, if not whether the rooms were done, and whether the token is saved -/
  | answer (dev : String) (ok rooms save : Bool)
  /-- the poller is terminated, say because its token was revoked -/
  | stop (dev : String)
  /-- the process ends and starts again -/
  | crash
  deriving DecidableEq, Repr

/-- `sync2/client.go:161-170`: the timeline limit asked for. -/
def limit (since : Option Nat) : Nat :=
  match since with
  | none => 1
  | some _ => 50

/-- What the homeserver answers for the room to a sync since `since` when there are `upto` events (see above; not code of the proxy). -/
def page (since : Option Nat) (upto : Nat) : Seg :=
  let s := since.getD 0
  if upto - s > limit since then ⟨upto - limit since, limit since, true⟩ else ⟨s, upto - s, false⟩

/-- `sync2/poller.go:269-283`: is a poller of another device of the user running? -/
def another (s : S) (dev : String) : Bool := s.pollers.any fun x => decide (x.1 ≠ dev) && !x.2.terminated

/-- `sync2/poller.go:285-287`: a new poller; its since token is read in `sync2/handler2/handler.go:564-596`. -/
def fresh (s : S) (dev : String) (startup : Bool) : P :=
  { since := Assoc.get s.saved dev, toDeviceOnly := another s dev && !startup }

/-- `sync2/poller.go:256-310`. Waiting is left out. -/
def ensure (s : S) (dev : String) (startup : Bool) : S :=
  match Assoc.get s.pollers dev with
  | some p => if p.terminated then { s with pollers := Assoc.set s.pollers dev (fresh s dev startup) } else s
  | none => { s with pollers := Assoc.set s.pollers dev (fresh s dev startup) }

/-- `sync2/poller.go:871-880`: a timeline is given to the accumulator unless it is empty; with the filter for no rooms there is none. -/
def deliver (got : List Seg) (p : P) (upto : Nat) : List Seg :=
  if p.toDeviceOnly then got
  else if (page p.since upto).count = 0 then got else got ++ [page p.since upto]

/-- `sync2/poller.go:549-659`, from the answer on. When to save the token depends on the clock and on the to-device messages: it is a
parameter. -/
def answer (s : S) (dev : String) (ok rooms save : Bool) : S :=
  match Assoc.get s.pollers dev with
  | none => s
  | some p =>
    if p.terminated then s
    else
      match p.asked with
      | none => s
      | some upto =>
        if ok then
          { s with
            pollers := Assoc.set s.pollers dev { p with since := some upto, toDeviceOnly := false, asked := none }
            saved := if save then Assoc.set s.saved dev upto else s.saved
            got := deliver s.got p upto }
        else
          { s with
            pollers := Assoc.set s.pollers dev { p with toDeviceOnly := false, asked := none }
            got := if rooms then deliver s.got p upto else s.got }

/-- Changes the poller of a device, if it runs. -/
def change (s : S) (dev : String) (f : P → P) : S :=
  match Assoc.get s.pollers dev with
  | none => s
  | some p => if p.terminated then s else { s with pollers := Assoc.set s.pollers dev (f p) }

/-- One step. `ask` is `sync2/poller.go:577`, `fault` 585-591, `stop` 485-487. A poller asks once at a time. -/
def step (s : S) : Act → S
  | .send => { s with now := s.now + 1 }
  | .ensure d b => ensure s d b
  | .ask d => change s d fun p => if p.asked.isSome then p else { p with asked := some s.now }
  | .fault d => change s d fun p => { p with asked := none }
  | .answer d ok rooms save => answer s d ok rooms save
  | .stop d => change s d fun p => { p with terminated := true }
  | .crash => { s with pollers := [] }

def run (acts : List Act) : S := acts.foldl step {}

end Verif.Handover
