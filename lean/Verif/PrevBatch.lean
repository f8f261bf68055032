/-!
# Model of the `prev_batch` tokens

A token is stored with the first event of the sync v2 timeline it came with (`state/accumulator.go:570-601`), and given to the client
with a timeline by looking for a stored token at or after its first event (`state/event_table.go:538-546`,
`state/storage.go:712-763,809-817`).

One room. Events are their places in the upstream timeline, which also are their ids. A token is a place too: paging back from it
gives all events before that place. Simplified: the room has a snapshot, so timelines are not skipped (`accumulator.go:389-425`).
-/
namespace Verif.PrevBatch

/-- A row of `syncv3_events`. -/
structure Row where
  nid : Nat
  pos : Nat
  /-- `prev_batch` -/
  tag : Option Nat
  isState : Bool
  /-- `missing_previous` -/
  missing : Bool
  deriving DecidableEq

/-- An event before it is stored. -/
structure Ev where
  pos : Nat
  tag : Option Nat := none
  missing : Bool := false
  deriving DecidableEq

inductive Op
  /-- a state block, `Initialise` -/
  | state (block : List Nat)
  /-- a timeline, `Accumulate`; `none` are events that cannot be parsed, `token` is `none` if empty -/
  | timeline (limited : Bool) (token : Option Nat) (items : List (Option Nat))
  deriving DecidableEq

/-- The loop of `parseAndDeduplicateTimelineEvents`, `accumulator.go:573-599`; `first` if `i == 0`. -/
def parse (token : Option Nat) (first : Bool) (seen : List Nat) : List (Option Nat) → List Ev
  | [] => []
  | none :: l => parse token false seen l
  | some p :: l =>
    if p ∈ seen then parse token false seen l
    else { pos := p, tag := if first then token else none } :: parse token false (p :: seen) l

def known (rows : List Row) (p : Nat) : Bool := rows.any fun r => r.pos == p

/-- The events after the last one that is known, `accumulator.go:640-655`. -/
def afterKnown (rows : List Row) : List Ev → List Ev
  | [] => []
  | e :: l => if l.any (fun x => known rows x.pos) then afterKnown rows l else if known rows e.pos then l else e :: l

/-- `filterToNewTimelineEvents`, `accumulator.go:606-655`. -/
def filterToNew (rows : List Row) (l : List Ev) : List Ev :=
  if l.length ≤ 1 then l else afterKnown rows l

/-- `Insert`, `event_table.go:162-198`: on conflict do nothing. -/
def insertRow (isState : Bool) (rows : List Row) (e : Ev) : List Row :=
  if known rows e.pos then rows
  else rows ++ [{ nid := rows.length, pos := e.pos, tag := e.tag, isState := isState, missing := e.missing }]

/-- `MissingPrevious` of the first event, `accumulator.go:368-371`. -/
def markFirst (limited : Bool) (incoming : List Ev) : List Ev → List Ev
  | [] => []
  | e :: l => { e with missing := limited && decide (incoming.head?.map (·.pos) = some e.pos) } :: l

def step (rows : List Row) : Op → List Row
  | .state block => (block.map fun p => ({ pos := p } : Ev)).foldl (insertRow true) rows
  | .timeline limited token items =>
    let incoming := parse token true [] items
    (markFirst limited incoming (filterToNew rows incoming)).foldl (insertRow false) rows

def run (rows : List Row) (os : List Op) : List Row := os.foldl step rows

/-- Up to and including the first row without its predecessor, `event_table.go:430-437`. -/
def cutMissing : List Row → List Row
  | [] => []
  | r :: l => if r.missing then [r] else r :: cutMissing l

/-- `SelectLatestEventsBetween`, `event_table.go:420-440`: newest first, positions `lo` to `hi`. -/
def latest (rows : List Row) (lo hi limit : Nat) : List Row :=
  cutMissing (((rows.filter fun r => decide (lo ≤ r.nid) && decide (r.nid ≤ hi) && !r.isState).reverse).take limit)

/-- What `SelectClosestPrevBatch`, `event_table.go:538-546`, may return: there is a `LIMIT 1`, but no `ORDER BY`. -/
def Closest (rows : List Row) (nid : Nat) (t : Nat) : Prop := ∃ r ∈ rows, r.tag = some t ∧ nid ≤ r.nid

/-- It returns nothing. -/
def NoToken (rows : List Row) (nid : Nat) : Prop := ∀ t, ¬ Closest rows nid t

end Verif.PrevBatch
