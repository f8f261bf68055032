import Verif.StoreProps
import Verif.SpacesProps
/-!
# The space relations next to the event store

`Initialise` and `Accumulate` (`state/accumulator.go:182-321,346-566`) change the events, snapshots and rooms
tables and, in the same transaction, the spaces table.  The parts of an event read by `HandleSpaceUpdates` are
given by its id.  Redactions are not modelled here (see `Redact`).
-/
namespace Verif.SideTables

open Verif Verif.Store

/-- `content.via` is an array, `content.order`, `content.suggested`, `spaces_table.go:31-57`. -/
structure Content where
  via : Bool := false
  ordering : String := ""
  suggested : Bool := false
  deriving DecidableEq

/-- The event as `HandleSpaceUpdates` sees it; the room id was set at `accumulator.go:201-207,573-577`. -/
def toEv (c : String → Content) (room : String) (e : Ev) : Spaces.Ev :=
  ⟨room, e.type, if e.hasKey then some e.stateKey else none, (c e.id).via, (c e.id).ordering, (c e.id).suggested⟩

structure State where
  db : DB := {}
  spaces : Spaces.Table := []

/-- The end of the transaction: an error in the spaces table rolls everything back. -/
def commit (s : State) (db : DB) : Option Spaces.Table → State
  | none => s
  | some t => ⟨db, t⟩

/-- One section.  `Accumulate` hands on the events it inserted (`accumulator.go:552-554`); `Initialise` hands on
every event of the block, provided that some event was new (`accumulator.go:293-299`). -/
def Next (c : String → Content) (s : State) (op : Op) (s' : State) : Prop :=
  match op with
  | .acc room k l timeline =>
    match accumulate s.db room k l timeline with
    | none => s' = s
    | some (db', post) => ∃ res, Spaces.Handle s.spaces (post.map fun r => toEv c room r.ev) res ∧ s' = commit s db' res
  | .init room k block =>
    match initialise s.db room k block with
    | none => s' = s
    | some db' =>
      if db'.rows.length = s.db.rows.length then s' = ⟨db', s.spaces⟩
      else ∃ res, Spaces.Handle s.spaces ((block.filterMap id).map (toEv c room)) res ∧ s' = commit s db' res

/-- Any number of sections. -/
inductive Run (c : String → Content) : List Op → State → Prop
  | nil : Run c [] {}
  | step {ops s op s'} : Run c ops s → Next c s op s' → Run c (ops ++ [op]) s'

/-! One of the possible executions, used for concrete cases only. -/

/-- `HandleSpaceUpdates` with the map entries in insertion order and one chunk. -/
def handle1 (t : Spaces.Table) (evs : List Spaces.Ev) : Option Spaces.Table :=
  (Spaces.bulkInsert t [((Spaces.relations evs).filter fun r => !r.2.2).map (·.2.1)]).map fun t' =>
    Spaces.bulkDelete t' (((Spaces.relations evs).filter fun r => r.2.2).map (·.2.1))

theorem handle1_ok (t : Spaces.Table) (evs : List Spaces.Ev) : Spaces.Handle t evs (handle1 t evs) :=
  ⟨Spaces.relations evs, List.Perm.refl _, [((Spaces.relations evs).filter fun r => !r.2.2).map (·.2.1)], by simp, rfl⟩

def next1 (c : String → Content) (s : State) (op : Op) : State :=
  match op with
  | .acc room k l timeline =>
    match accumulate s.db room k l timeline with
    | none => s
    | some (db', post) => commit s db' (handle1 s.spaces (post.map fun r => toEv c room r.ev))
  | .init room k block =>
    match initialise s.db room k block with
    | none => s
    | some db' =>
      if db'.rows.length = s.db.rows.length then ⟨db', s.spaces⟩
      else commit s db' (handle1 s.spaces ((block.filterMap id).map (toEv c room)))

theorem next1_ok (c : String → Content) (s : State) (op : Op) : Next c s op (next1 c s op) := by
  cases op with
  | acc room k l timeline =>
    simp only [Next, next1]
    cases accumulate s.db room k l timeline with
    | none => rfl
    | some p => exact ⟨_, handle1_ok _ _, rfl⟩
  | init room k block =>
    simp only [Next, next1]
    cases initialise s.db room k block with
    | none => rfl
    | some db' =>
      dsimp only
      split
      · rfl
      · exact ⟨_, handle1_ok _ _, rfl⟩

def run1 (c : String → Content) (ops : List Op) : State := ops.foldl (next1 c) {}

theorem run1_ok (c : String → Content) (ops : List Op) : Run c ops (run1 c ops) := by
  induction ops using Verif.Util.snocRec with
  | nil => exact Run.nil
  | append_singleton l op ih =>
    have : run1 c (l ++ [op]) = next1 c (run1 c l) op := by unfold run1; rw [List.foldl_append]; rfl
    rw [this]
    exact Run.step ih (next1_ok _ _ _)

end Verif.SideTables
