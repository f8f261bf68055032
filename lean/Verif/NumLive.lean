import Verif.ConnLoad
/-!
# Model of `num_live`

The rooms of a response on top of the load positions of a connection (`ConnLoad`): the timeline of each room in the response that is
being made and its `num_live` (`sync3/handler/connstate_live.go:187-262`, `sync3/room.go:25`). `num_live` is the number of events at the
end of the timeline that have just happened; clients notify of those only.

Simplified as in `ConnLoad`. `live` and `again` are not in the code: the events of the room sent as live updates for this response, and
whether the room was built again after one.
-/
namespace Verif.NumLive

open ConnLoad

structure R where
  c : State
  /-- `response.Rooms`: the timeline and `num_live` -/
  resp : Nat → Option (List Nat × Nat) := fun _ => none
  live : Nat → List Nat := fun _ => []
  again : Nat → Bool := fun _ => false

def connectR (log : List Nat) : R := { c := connect log }

/-- A room is built; it replaces what the response has of it, `connstate_live.go:187-192`. A new `Room` has `NumLive` 0
(`connstate.go:676-690`). -/
def load1R (s : R) (x : Nat × Nat) : R :=
  { s with
    c := load1 s.c x
    resp := set s.resp x.1 (some (latest s.c.log s.c.anchor x.2 x.1, 0))
    again := set s.again x.1 (s.again x.1 || !(s.live x.1).isEmpty) }

def loadsR (s : R) (xs : List (Nat × Nat)) : R := xs.foldl load1R s

/-- The live update, `connstate_live.go:195-262`: `r.NumLive++` comes before it is known whether the event is added. -/
def appendR (s : R) (r n : Nat) : R :=
  let old := (s.resp r).getD ([], 0)
  { s with
    c := appendLive s.c r n
    resp := set s.resp r (some (if n ≤ s.c.lp r then old.1 else old.1 ++ [n], old.2 + 1))
    live := set s.live r (s.live r ++ [n]) }

/-- `processLiveUpdate`, `connstate_live.go:133-262`. -/
def deliverR (s : R) (r n : Nat) (vis : Bool) (xs : List (Nat × Nat)) : R :=
  if 0 < s.c.lp r ∧ n < s.c.lp r then s
  else
    let s1 := loadsR { s with c := { s.c with anchor := max s.c.anchor n } } xs
    if vis then appendR s1 r n
    else if xs.any (·.1 = r) then s1
    else { s1 with c := { s1.c with view := set s1.c.view r none } }

inductive Op
  | append (r : Nat)
  | request (xs : List (Nat × Nat))
  | deliver (i : Nat) (vis : Bool) (xs : List (Nat × Nat))
  /-- the response is sent, and the next one begun -/
  | respond

def stepR (s : R) : Op → R
  | .append r => { s with c := { s.c with log := s.c.log ++ [r] } }
  | .request xs => loadsR s xs
  | .deliver i vis xs =>
    match s.c.log[i]? with
    | none => s
    | some r => deliverR s r (i + 1) vis xs
  | .respond => { s with resp := fun _ => none, live := fun _ => [], again := fun _ => false }

def runR (s : R) (ops : List Op) : R := ops.foldl stepR s

end Verif.NumLive
