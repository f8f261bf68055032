import Verif.Assoc
/-!
Which poller's typing notifications are used: sync2/handler2/handler.go 186-196 `OnTerminated`, 396-416 `SetTyping` and the last
part of `OnLeftRoom` (541-562). All three hold `typingMu`, so each is one step.
-/
namespace Verif.Typing
open Verif

/-- User and device of a poller. A device id can be empty: upstream's answer may lack it (sync2/client.go 113). -/
abbrev Pid := String × String

inductive Op
  | setTyping (pid : Pid) (room : String) (event : String)
  | terminated (pid : Pid)
  /-- a user leaves a room or rejects an invite; `ok` tells if the invite could be removed from the database -/
  | left (user room : String) (ok : Bool)
deriving DecidableEq, Repr

/-- sync2/handler2/handler.go 400-402: a missing entry is a poller id with empty parts. -/
def assigned (m : List (String × Pid)) (room : String) : Option Pid :=
  (Assoc.get m room).filter fun p => decide (p.2 ≠ "") && decide (p.1 ≠ "")

/-- If an update from a poller is passed on. -/
def accepts (m : List (String × Pid)) (pid : Pid) (room : String) : Bool :=
  match assigned m room with
  | none => true
  | some p => decide (p = pid)

/-- The map `typingHandler`. -/
def step (m : List (String × Pid)) : Op → List (String × Pid)
  | .setTyping pid room _ =>
    match assigned m room with
    | none => Assoc.set m room pid
    | some _ => m
  | .terminated pid => m.filter fun e => decide (e.2 ≠ pid)
  | .left _ room ok => if ok then Assoc.del m room else m

def run (ops : List Op) : List (String × Pid) := ops.foldl step []

/-- The notifications sent out (room and event), by a step. -/
def emit (m : List (String × Pid)) : Op → List (String × String)
  | .setTyping pid room e => if accepts m pid room then [(room, e)] else []
  | _ => []

end Verif.Typing
