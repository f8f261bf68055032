import Verif.Util
/-!
`DeviceDataTicker` (sync2/device_data_ticker.go 14-88). `sync.Map.Range` is modelled as its documentation says: it visits no key
twice, visits every key that is present throughout, and may or may not see keys stored or deleted meanwhile.
Visiting a key and deleting it are separate steps, between which anything may happen. Any number of `emitUpdate` calls may be
active at once (with a period, `Run` makes one at a time; without, every `Remember` makes one).
-/
namespace Verif.Ticker

abbrev Pid := String × String

/-- A call of `emitUpdate` in progress. -/
structure Emission where
  id : Nat
  /-- keys present since the start and not visited yet -/
  must : List Pid
  /-- keys that were present at some time since the start -/
  seen : List Pid
  /-- keys visited: the payload -/
  visited : List Pid := []
  /-- the key visited but not yet deleted -/
  pend : Option Pid := none
deriving DecidableEq, Repr

structure State where
  map : List Pid := []
  act : List Emission := []
deriving DecidableEq, Repr

inductive Op
  /-- `Remember`: `notifyMap.Store` -/
  | remember (k : Pid)
  | start (id : Nat)
  /-- the callback of `Range`, up to the deletion -/
  | visit (id : Nat) (k : Pid)
  /-- `notifyMap.Delete(key)` -/
  | delete (id : Nat)
  /-- the end of `Range`, and the call of `fn` -/
  | finish (id : Nat)
deriving DecidableEq, Repr

/-- sync2/device_data_ticker.go 61-65: the payload, user by user. -/
def group (l : List Pid) : List (String × List String) :=
  l.foldl (fun m p =>
    if m.any (fun e => decide (e.1 = p.1)) then m.map fun e => if e.1 = p.1 then (e.1, e.2 ++ [p.2]) else e
    else m ++ [(p.1, [p.2])]) []

def find (s : State) (id : Nat) : Option Emission := s.act.find? fun e => decide (e.id = id)

def replace (s : State) (e : Emission) : List Emission := s.act.map fun x => if x.id = e.id then e else x

/-- One step and the payload passed to `fn`, if any. Steps that cannot happen do nothing. -/
def step (s : State) : Op → State × Option (List (String × List String))
  | .remember k =>
    ({ map := if k ∈ s.map then s.map else s.map ++ [k]
       act := s.act.map fun e => { e with seen := e.seen ++ [k] } }, none)
  | .start id =>
    match find s id with
    | some _ => (s, none)
    | none => ({ s with act := s.act ++ [{ id := id, must := s.map, seen := s.map }] }, none)
  | .visit id k =>
    match find s id with
    | none => (s, none)
    | some e =>
      if k ∈ e.seen ∧ k ∉ e.visited ∧ e.pend = none then
        ({ s with act := replace s { e with must := e.must.filter (fun x => decide (x ≠ k)), visited := e.visited ++ [k], pend := some k } }, none)
      else (s, none)
  | .delete id =>
    match find s id with
    | none => (s, none)
    | some e =>
      match e.pend with
      | none => (s, none)
      | some k =>
        ({ map := s.map.filter fun x => decide (x ≠ k)
           act := (replace s { e with pend := none }).map fun x => { x with must := x.must.filter fun y => decide (y ≠ k) } }, none)
  | .finish id =>
    match find s id with
    | none => (s, none)
    | some e =>
      if e.must = [] ∧ e.pend = none then
        ({ s with act := s.act.filter fun x => decide (x.id ≠ id) },
          if e.visited = [] then none else some (group e.visited))
      else (s, none)

/-- The state and the payloads of a history. -/
def run (ops : List Op) : State × List (List (String × List String)) :=
  ops.foldl (fun s o => ((step s.1 o).1, s.2 ++ (step s.1 o).2.toList)) ({}, [])

end Verif.Ticker
