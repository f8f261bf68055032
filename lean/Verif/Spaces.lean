import Verif.Assoc
/-!
# Model of `state/spaces_table.go`

The table of space relations and `HandleSpaceUpdates`.  `Initialise` and `Accumulate` call it with events of
one room (`accumulator.go:201-207,573-577` set the room id).  The iteration over the Go map is in any order.
The chunks of `BulkInsert` are one statement after another (`sqlutil.Chunkify` is in `SqlUtil`); that a
statement may not touch a row twice is checked, `none` is that error.
-/
namespace Verif.Spaces

open Verif

/-- The parts of an event read: `none` for the state key is that it does not exist; `via` is whether
`content.via` is an array. -/
structure Ev where
  room : String
  type : String
  stateKey : Option String := none
  via : Bool := false
  ordering : String := ""
  suggested : Bool := false
  deriving DecidableEq

/-- Parent, child and relation: the unique key of the table, `spaces_table.go:60-70`. -/
abbrev Triple := String × String × Nat

/-- `SpaceRelation`, `spaces_table.go:17-24`. -/
structure Rel where
  parent : String
  child : String
  relation : Nat
  ordering : String := ""
  suggested : Bool := false
  deriving DecidableEq

def Rel.triple (r : Rel) : Triple := (r.parent, r.child, r.relation)

/-- `Key`, `spaces_table.go:26-28`. -/
def Rel.key (r : Rel) : String := r.parent ++ "-" ++ r.child ++ "-" ++ toString r.relation

/-- `NewSpaceRelationFromEvent`, `spaces_table.go:31-57`, with `RelationMSpaceParent = 1` and
`RelationMSpaceChild = 2`, `spaces_table.go:12-15`. -/
def fromEvent (e : Ev) : Option (Rel × Bool) :=
  match e.stateKey with
  | none => none
  | some key =>
    if e.type = "m.space.child" then some (⟨e.room, key, 2, e.ordering, e.suggested⟩, !e.via)
    else if e.type = "m.space.parent" then some (⟨key, e.room, 1, "", false⟩, !e.via)
    else none

/-- The rows: the ordering and the suggested flag by the unique key. -/
abbrev Table := List (Triple × (String × Bool))

/-- One statement of `BulkInsert`, `spaces_table.go:78-92`: an upsert of distinct keys. -/
def insertChunk (t : Table) (rs : List Rel) : Option Table :=
  if (rs.map Rel.triple).Nodup then some (rs.foldl (fun t r => Assoc.set t r.triple (r.ordering, r.suggested)) t) else none

def bulkInsert (t : Table) : List (List Rel) → Option Table
  | [] => some t
  | c :: cs => (insertChunk t c).bind fun t' => bulkInsert t' cs

/-- `BulkDelete`, `spaces_table.go:95-108`. -/
def bulkDelete (t : Table) (rs : List Rel) : Table := rs.foldl (fun t r => Assoc.del t r.triple) t

/-- The map of relations, `spaces_table.go:128-145`. -/
def relations (evs : List Ev) : List (String × (Rel × Bool)) :=
  evs.foldl (fun m e => match fromEvent e with | none => m | some r => Assoc.set m r.1.key r) []

/-- `HandleSpaceUpdates`, `spaces_table.go:125-166`: with the entries of the map in some order and the added
relations in some chunks. -/
def Handle (t : Table) (evs : List Ev) (res : Option Table) : Prop :=
  ∃ order : List (String × (Rel × Bool)), order.Perm (relations evs) ∧
    ∃ chunks : List (List Rel), chunks.flatten = (order.filter fun r => !r.2.2).map (·.2.1) ∧
      res = (bulkInsert t chunks).map fun t' => bulkDelete t' ((order.filter fun r => r.2.2).map (·.2.1))

/-- `SelectChildren`, `spaces_table.go:111-123`: the relations of one parent. -/
def children (t : Table) (parent : String) : List Rel :=
  (t.filter fun row => decide (row.1.1 = parent)).map fun row => ⟨row.1.1, row.1.2.1, row.1.2.2, row.2.1, row.2.2⟩

/-- The table after any number of calls, each with events of one room. -/
inductive Run : List (List Ev) → Table → Prop
  | nil : Run [] []
  | step {bs t evs t'} : Run bs t → Handle t evs (some t') → Run (bs ++ [evs]) t'

end Verif.Spaces
