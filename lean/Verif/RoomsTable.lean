import Verif.Assoc
/-!
# Model of `state/rooms_table.go` and `roomInfoDelta` of `state/accumulator.go`

The rooms table and its upsert, whose SQL text and arguments are put together at run time: here the text is
the list of columns with the numbers of their parameters, and executing it looks the arguments up.
-/
namespace Verif.RoomsTable

open Verif

/-- The parts of an event read: the state key is `none` if there is none; `replacement` and `ctype` are
`content.replacement_room` and `content.type` if they are strings, `pred` is `content.predecessor.room_id`
("" if it is not a string). -/
structure Ev where
  type : String
  stateKey : Option String := none
  replacement : Option String := none
  ctype : Option String := none
  pred : String := ""
  deriving DecidableEq

/-- The `StateKey` field: "" for a message, `event_table.go:68-71`. -/
def Ev.key (e : Ev) : String := e.stateKey.getD ""

/-- `RoomInfo`, `rooms_table.go:10-16`. -/
structure Info where
  enc : Bool := false
  upgraded : Option String := none
  type : Option String := none
  pred : Option String := none
  deriving DecidableEq

/-- One turn of the loop of `roomInfoDelta`, `accumulator.go:109-129`. -/
def deltaStep (i : Info) (e : Ev) : Info :=
  let i := if e.type = "m.room.encryption" ∧ e.key = "" then { i with enc := true } else i
  let i := if e.type = "m.room.tombstone" ∧ e.key = "" then
      match e.replacement with | some r => { i with upgraded := some r } | none => i
    else i
  if e.type = "m.room.create" ∧ e.key = "" then
    let i := match e.ctype with | some t => { i with type := some t } | none => i
    if e.pred ≠ "" then { i with pred := some e.pred } else i
  else i

/-- `roomInfoDelta`, `accumulator.go:104-137`. -/
def delta (evs : List Ev) : Info := evs.foldl deltaStep {}

/-- A row of `syncv3_rooms`, `rooms_table.go:23-36`. -/
structure Row where
  snapshot : Nat
  latest : Nat
  enc : Bool := false
  upgraded : Option String := none
  type : Option String := none
  pred : Option String := none
  deriving DecidableEq

inductive Arg | str (s : String) | num (n : Nat)
  deriving DecidableEq

/-- The columns which are set; an encrypted column is set to true without a parameter. -/
inductive Col | snapshot | latest | enc | upgraded | type | pred
  deriving DecidableEq

/-- The columns of the statement with their parameter numbers, `rooms_table.go:44-74`; the inserted and the
updated columns are the same. -/
def cols (i : Info) : List (Col × Nat) :=
  let c : List (Col × Nat) := [(.snapshot, 2), (.latest, 3)]
  let n := 4
  let c := if i.enc then c ++ [(.enc, 0)] else c
  let (c, n) := if i.upgraded.isSome then (c ++ [(.upgraded, n)], n + 1) else (c, n)
  let (c, n) := if i.type.isSome then (c ++ [(.type, n)], n + 1) else (c, n)
  let (c, _) := if i.pred.isSome then (c ++ [(.pred, n)], n + 1) else (c, n)
  c

/-- The arguments, `rooms_table.go:76-87`. -/
def args (room : String) (i : Info) (snapshot latest : Nat) : List Arg :=
  let a := [.str room, .num snapshot, .num latest]
  let a := match i.upgraded with | some u => a ++ [.str u] | none => a
  let a := match i.type with | some t => a ++ [.str t] | none => a
  match i.pred with | some p => a ++ [.str p] | none => a

/-- Setting one column; `none` is an error: no such argument or one of another type. -/
def setCol (as : List Arg) (r : Row) (c : Col × Nat) : Option Row :=
  match c.1, as[c.2 - 1]? with
  | .enc, _ => some { r with enc := true }
  | .snapshot, some (.num n) => some { r with snapshot := n }
  | .latest, some (.num n) => some { r with latest := n }
  | .upgraded, some (.str s) => some { r with upgraded := some s }
  | .type, some (.str s) => some { r with type := some s }
  | .pred, some (.str s) => some { r with pred := some s }
  | _, _ => none

def setCols (as : List Arg) : Row → List (Col × Nat) → Option Row
  | r, [] => some r
  | r, c :: cs => (setCol as r c).bind fun r' => setCols as r' cs

/-- `Upsert`, `rooms_table.go:43-90`: a new row starts from the defaults, `rooms_table.go:27-34`. -/
def upsert (t : List (String × Row)) (room : String) (i : Info) (snapshot latest : Nat) : Option (List (String × Row)) :=
  let old := (Assoc.get t room).getD { snapshot := 0, latest := 0 }
  (setCols (args room i snapshot latest) old (cols i)).map fun r => Assoc.set t room r

/-- One call of `Initialise` or `Accumulate` that gets to the upsert, `accumulator.go:302-306,560-564`. -/
structure Call where
  room : String
  evs : List Ev
  snapshot : Nat
  latest : Nat

def step (t : List (String × Row)) (c : Call) : List (String × Row) :=
  (upsert t c.room (delta c.evs) c.snapshot c.latest).getD t

def run (cs : List Call) : List (String × Row) := cs.foldl step []

end Verif.RoomsTable
