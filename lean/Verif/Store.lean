import Verif.Util
/-!
# Model of `state/event_table.go`, `state/accumulator.go` and the state queries of `state/storage.go`

The events, snapshots and rooms tables.  A transaction is one step and is rolled back on error.  An event is
its id, type, state key and whether its JSON has a `state_key` (the column holds "" if not); the rest of the
JSON is not modelled, and neither are redactions, invites, spaces and room info (see `Invites`, `Spaces`,
`RoomsTable`).  Rows are kept in ascending order of their number, which is how the queries return them.
-/
namespace Verif.Store

structure Ev where
  id : String
  type : String
  stateKey : String := ""
  hasKey : Bool := false
  deriving DecidableEq

abbrev Key := String × String
def Ev.key (e : Ev) : Key := (e.type, e.stateKey)

/-- A row of `syncv3_events`, `event_table.go:106-124`. -/
structure Row where
  nid : Nat
  room : String
  ev : Ev
  /-- part of a v2 state block -/
  isState : Bool
  before : Nat := 0
  replaces : Nat := 0
  missing : Bool := false
  deriving DecidableEq

/-- A row of `syncv3_snapshots`. -/
structure Snap where
  id : Nat
  room : String
  members : List Nat
  others : List Nat
  deriving DecidableEq

def Snap.nids (s : Snap) : List Nat := s.members ++ s.others

/-- The database; 0 is "no snapshot" and "no event", as in the code. -/
structure DB where
  rows : List Row := []
  seq : Nat := 0
  snaps : List Snap := []
  sseq : Nat := 0
  cur : String → Nat := fun _ => 0
  latest : String → Nat := fun _ => 0

/-! ## Events table -/

/-- `INSERT … ON CONFLICT (event_id) DO NOTHING`, `event_table.go:181-187`: every row of the statement takes a
number, also one that conflicts. -/
def insertLoop (room : String) (isState : Bool) : List Row → Nat → List (Ev × Bool) → List Row × Nat
  | rows, n, [] => (rows, n)
  | rows, n, e :: es =>
    if rows.any (·.ev.id = e.1.id) then insertLoop room isState rows (n + 1) es
    else insertLoop room isState (rows ++ [{ nid := n + 1, room := room, ev := e.1, isState := isState, missing := e.2 }]) (n + 1) es

/-- `Insert`, `event_table.go:162-198`; the result also has the new rows.  `skip` numbers were taken by rolled
back transactions or other rooms before. -/
def insert (db : DB) (room : String) (isState : Bool) (skip : Nat) (evs : List (Ev × Bool)) : DB × List Row :=
  let r := insertLoop room isState db.rows (db.seq + skip) evs
  ({ db with rows := r.1, seq := r.2 }, r.1.drop db.rows.length)

/-- `UpdateBeforeSnapshotID`, `event_table.go:308-313`. -/
def updateBefore (db : DB) (nid snap replaces : Nat) : DB :=
  { db with rows := db.rows.map fun r => if r.nid = nid then { r with before := snap, replaces := replaces } else r }

/-- `SelectStrippedEventsByNIDs`/`SelectByNIDs` with `verifyAll`, `event_table.go:202-262`. -/
def selectByNIDs (db : DB) (nids : List Nat) : Option (List Row) :=
  let r := db.rows.filter fun r => decide (r.nid ∈ nids)
  if nids.length > 0 ∧ nids.length ≠ r.length then none else some r

/-! ## Snapshots -/

/-- `SnapshotTable.Select`, `snapshot_table.go:60-67`. -/
def selectSnap (db : DB) (id : Nat) : Option Snap :=
  if id = 0 then none else db.snaps.find? (·.id = id)

/-- `strippedEventsForSnapshot`, `accumulator.go:47-54`. -/
def stripped (db : DB) (id : Nat) : Option (List Row) :=
  match selectSnap db id with
  | none => none
  | some s => selectByNIDs db s.nids

/-- `SnapshotTable.Insert`, `snapshot_table.go:70-85`, with `NIDs`, `event_table.go:91-100`. -/
def insertSnap (db : DB) (room : String) (rows : List Row) : DB × Nat :=
  let id := db.sseq + 1
  ({ db with
      snaps := db.snaps ++ [⟨id, room, (rows.filter (·.ev.type = "m.room.member")).map (·.nid),
        (rows.filter (fun r => ¬ r.ev.type = "m.room.member")).map (·.nid)⟩]
      sseq := id }, id)

/-- `tupleKey`, `accumulator.go:61-64`. -/
def tupleKey (e : Ev) : String := e.type ++ "\x1f" ++ e.stateKey

/-- The loop of `calculateNewSnapshot`, `accumulator.go:70-96`: the new list, whether the event replaced one,
and the number replaced. -/
def rollLoop (new : Row) : List String → List Row → Option (List Row × Bool × Nat)
  | _, [] => some ([], false, 0)
  | seen, e :: es =>
    if tupleKey e.ev ∈ seen then none
    else if e.nid = new.nid ∧ tupleKey e.ev ≠ tupleKey new.ev then none
    else match rollLoop new (tupleKey e.ev :: seen) es with
      | none => none
      | some (r, added, n) =>
        if tupleKey e.ev = tupleKey new.ev then some (new :: r, true, if added then n else e.nid)
        else some (e :: r, added, n)

/-- `calculateNewSnapshot`, `accumulator.go:59-101`. -/
def roll (old : List Row) (new : Row) : Option (List Row × Nat) :=
  match rollLoop new [] old with
  | none => none
  | some (r, added, n) => some (if added then r else r ++ [new], n)

/-! ## Initialise -/

/-- `Ingest` of a list of events into a `stateMap`, `accumulator.go:691-701`.  The two maps (by state key for
memberships, by type and state key for the rest) are one list with distinct keys. -/
def ingest (m : List Row) (r : Row) : List Row := m.filter (fun e => e.ev.key ≠ r.ev.key) ++ [r]

/-- `Initialise`, `accumulator.go:182-321`; `none` is an error (rolled back).  The first component of the
state block is `none` for an event whose fields are missing. -/
def initialise (db : DB) (room : String) (skip : Nat) (block : List (Option Ev)) : Option DB :=
  if block.length = 0 then some db
  else
    let evs := block.filterMap id
    if evs.length = 0 then none
    else if db.cur room = 0 ∧ ¬ evs.any (fun e => e.type = "m.room.create" && e.stateKey = "") then none
    else
      let ins := insert db room true skip (evs.map fun e => (e, false))
      if ins.2.length = 0 then some ins.1
      else
        let new := evs.filterMap fun e => (ins.2.find? (·.ev.id = e.id)).map fun r => { r with ev := e }
        let start := if db.cur room > 0 then (stripped ins.1 (db.cur room)).map (·.foldl ingest []) else some []
        match start with
        | none => none
        | some cur =>
          let m := new.foldl ingest cur
          let s := insertSnap ins.1 room m
          some { s.1 with
            cur := fun r => if r = room then s.2 else db.cur r
            latest := fun r => if r = room then (m.map (·.nid)).foldl max 0 else db.latest r }

/-! ## Accumulate -/

/-- `parseAndDeduplicateTimelineEvents`, `accumulator.go:570-601`: the first event of each id. -/
def dedup : List String → List (Option Ev) → List Ev
  | _, [] => []
  | seen, none :: es => dedup seen es
  | seen, some e :: es => if e.id ∈ seen then dedup seen es else e :: dedup (e.id :: seen) es

/-- `filterToNewTimelineEvents`, `accumulator.go:606-655`. -/
def filterNew (db : DB) (evs : List Ev) : List Ev :=
  if evs.length ≤ 1 then evs
  else
    let unknown := evs.filter fun e => !db.rows.any (·.ev.id = e.id)
    if unknown.length = 0 then []
    else (evs.reverse.takeWhile fun e => !db.rows.any (·.ev.id = e.id)).reverse

/-- One turn of the loop `accumulator.go:497-530`. -/
def accStep (st : DB × Nat) (ev : Row) : Option (DB × Nat) :=
  if ev.ev.hasKey then
    match if st.2 ≠ 0 then stripped st.1 st.2 else some [] with
    | none => none
    | some old =>
      match roll old ev with
      | none => none
      | some (new, rep) =>
        let s := insertSnap st.1 ev.room new
        some (updateBefore s.1 ev.nid st.2 rep, s.2)
  else some (updateBefore st.1 ev.nid st.2 0, st.2)

def accLoop : DB × Nat → List Row → Option (DB × Nat)
  | st, [] => some st
  | st, ev :: evs => (accStep st ev).bind fun st' => accLoop st' evs

/-- The `MissingPrevious` flag, `accumulator.go:363-372`: set on the first incoming event of a limited timeline
if it is also the first new one. -/
def missingPrevious (limited : Bool) (incoming : List Ev) (first e : Ev) : Bool :=
  limited && match incoming with
    | i :: _ => decide (first.id = i.id) && decide (e.id = i.id)
    | [] => false

/-- `Accumulate`, `accumulator.go:346-566`: the new database and the accumulated events. -/
def accumulate (db : DB) (room : String) (skip : Nat) (limited : Bool) (timeline : List (Option Ev)) :
    Option (DB × List Row) :=
  let incoming := dedup [] timeline
  let new := filterNew db incoming
  match new with
  | [] => some (db, [])
  | first :: _ =>
    if db.cur room = 0 ∧ ¬ (first.type = "m.room.create" ∧ first.stateKey = "") then some (db, [])
    else
      let tagged := new.map fun e => (e, missingPrevious limited incoming first e)
      let ins := insert db room false skip tagged
      if ins.2.length = 0 then some (ins.1, [])
      else
        let post := new.filterMap fun e => ins.2.find? (·.ev.id = e.id)
        match accLoop (ins.1, db.cur room) post with
        | none => none
        | some (db', snap) =>
          some ({ db' with
            cur := fun r => if r = room then snap else db.cur r
            latest := fun r => if r = room then (post.map (·.nid)).foldl max 0 else db.latest r }, post)

inductive Op
  | init (room : String) (skip : Nat) (block : List (Option Ev))
  | acc (room : String) (skip : Nat) (limited : Bool) (timeline : List (Option Ev))

/-- One upstream section; an error leaves the database as it was. -/
def step (db : DB) : Op → DB
  | .init r k b => (initialise db r k b).getD db
  | .acc r k l t => ((accumulate db r k l t).map (·.1)).getD db

def run (ops : List Op) : DB := ops.foldl step {}

/-! ## Room state at a position -/

/-- The latest event used, `storage.go:534-571`: the one named by the rooms table if it is not after the
position, otherwise the last one of the room up to the position.  `none` is an error, `some none` that there
is no such room or event.  An event without a before-state gets the current snapshot. -/
def latestEvent (db : DB) (room : String) (pos : Nat) : Option (Option (Row × Nat)) :=
  if db.latest room = 0 then some none
  else
    let ev := if db.latest room > pos then (db.rows.filter fun r => r.room = room && decide (r.nid ≤ pos)).getLast?
      else db.rows.find? (·.nid = db.latest room)
    match ev with
    | none => if db.latest room > pos then some none else none
    | some r => some (some (r, if r.before = 0 then db.cur r.room else r.before))

/-- `RoomStateAfterEventPosition` for one room without a filter, `storage.go:573-611`. -/
def stateAfter (db : DB) (room : String) (pos : Nat) : Option (List Row) :=
  match latestEvent db room pos with
  | none => none
  | some none => some []
  | some (some (ev, snap)) =>
    match selectSnap db snap with
    | none => none
    | some s =>
      let nids :=
        if ev.ev.hasKey then
          if ev.replaces ≠ 0 then s.nids.map fun n => if n = ev.replaces then ev.nid else n
          else if ev.nid ∈ s.nids then s.nids else s.nids ++ [ev.nid]
        else s.nids
      selectByNIDs db nids

/-- `eventTypesToStateKeys` as a list: no state keys means any. -/
abbrev Filter := List (String × List String)

def matchesF (f : Filter) (e : Ev) : Bool :=
  f.any fun t => t.1 = e.type && (t.2.isEmpty || decide (e.stateKey ∈ t.2))

/-- The columns read, `storage.go:645-651`. -/
def columns (f : Filter) (s : Snap) : List Nat :=
  let mem := f.any (·.1 = "m.room.member")
  let oth := f.any (¬ ·.1 = "m.room.member")
  if mem && !oth then s.members else if !mem && oth then s.others else s.others ++ s.members

/-- `RoomStateAfterEventPosition` for one room with a filter, `storage.go:612-704`. -/
def stateAfterFiltered (db : DB) (room : String) (pos : Nat) (f : Filter) : Option (List Row) :=
  match latestEvent db room pos with
  | none => none
  | some none => some []
  | some (some (ev, snap)) =>
    let nids := match db.snaps.find? (·.id = snap) with | some s => columns f s | none => []
    let found := db.rows.filter fun r => matchesF f r.ev && decide (r.nid ∈ nids)
    some (found.map (fun r => if ev.replaces = r.nid then ev else r)
      ++ if ev.replaces = 0 then (f.filter fun t => t.1 = ev.ev.type && (t.2.isEmpty || decide (ev.ev.stateKey ∈ t.2))).map (fun _ => ev) else [])

end Verif.Store
