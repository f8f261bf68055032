import Verif.Store
/-!
# Model of redactions in the store

`Accumulate` with the JSON of the events (`state/accumulator.go:430-497,532-550`), `Redact` and `SelectCreateEvent`
(`state/event_table.go:382-418,548-553`).  The JSON is a parameter, with the functions the code applies to it.
-/
namespace Verif.Redact

open Verif Verif.Store

/-- What is done with JSON: `redacts` is the event id in `redacts` or else in `content.redacts` ("" if neither),
`version` is `content.room_version`, `knows` says whether `gomatrixserverlib` has the version, `redact` is its
`RedactEventJSON` and `because` sets `unsigned.redacted_because`; `none` is an error. -/
structure Json (J : Type) where
  redacts : J → String
  version : J → String
  knows : String → Bool
  redact : String → J → Option J
  because : J → J → Option J

/-- An event of a section: what `Store` has of it, and its JSON. -/
abbrev Item (J : Type) := Ev × J

structure State (J : Type) where
  db : DB := {}
  /-- the column `event`, by event id -/
  json : String → Option J := fun _ => none

variable {J : Type}

/-- The JSON of the first event with the id: the rows of an insert that conflict are dropped. -/
def jsonOf (items : List (Item J)) (id : String) : Option J := (items.find? fun x => x.1.id = id).map (·.2)

/-- The JSON column after an insert of rows. -/
def stored (old : String → Option J) (new : List Row) (items : List (Item J)) : String → Option J :=
  fun id => if new.any (·.ev.id = id) then jsonOf items id else old id

/-- The redactions of the new events, `accumulator.go:456-467`, in order: target and redaction. -/
def redactions (js : Json J) (json : String → Option J) (post : List Row) : List (String × J) :=
  post.filterMap fun r =>
    match json r.ev.id with
    | none => none
    | some j => if r.ev.hasKey = false ∧ r.ev.type = "m.room.redaction" ∧ js.redacts j ≠ "" then some (js.redacts j, j) else none

/-- The map `redactTheseEventIDs`: the last redaction of an event wins. -/
def lastFor (rs : List (String × J)) (id : String) : Option J := (rs.reverse.find? fun r => r.1 = id).map (·.2)

/-- `SelectCreateEvent`, `event_table.go:548-553`; `none` is `sql.ErrNoRows`. -/
def selectCreate (db : DB) (json : String → Option J) (room : String) : Option J :=
  match db.rows.find? fun r => decide (r.room = room) && decide (r.ev.type = "m.room.create") && decide (r.ev.stateKey = "") with
  | none => none
  | some r => json r.ev.id

/-- The version used, `accumulator.go:478-486` and `event_table.go:392-399`. -/
def versionOf (js : Json J) (create : J) : String :=
  let v := if js.version create = "" then "1" else js.version create
  if js.knows v then v else "1"

/-- One turn of the loop of `Redact`, `event_table.go:400-416`. -/
def redact1 (js : Json J) (v : String) (rs : List (String × J)) (json : String → Option J) (r : Row) : Option (String → Option J) :=
  match lastFor rs r.ev.id, json r.ev.id with
  | some because, some j =>
    match js.redact v j with
    | none => none
    | some j' =>
      match js.because j' because with
      | none => none
      | some j'' => some fun id => if id = r.ev.id then some j'' else json id
  | _, _ => some json

def redactLoop (js : Json J) (v : String) (rs : List (String × J)) : (String → Option J) → List Row → Option (String → Option J)
  | json, [] => some json
  | json, r :: l =>
    match redact1 js v rs json r with
    | none => none
    | some json' => redactLoop js v rs json' l

/-- `Redact`, `event_table.go:382-418`: the stored events with these ids, of any room. -/
def redact (js : Json J) (v : String) (db : DB) (rs : List (String × J)) (json : String → Option J) : Option (String → Option J) :=
  redactLoop js v rs json (db.rows.filter fun r => decide (r.ev.id ∈ rs.map (·.1)))

/-- The rows of the current state. -/
def currentRows (db : DB) (room : String) : List Row :=
  match selectSnap db (db.cur room) with
  | none => []
  | some s => db.rows.filter fun r => decide (r.nid ∈ s.nids)

/-- `Accumulate`, `accumulator.go:346-566`: the new state, the new events, and `IncludesStateRedaction`.  Simplified: the
events are redacted after the snapshots are made; these do not read the JSON. -/
def accumulate (js : Json J) (s : State J) (room : String) (skip : Nat) (limited : Bool) (timeline : List (Option (Item J))) :
    Option (State J × List Row × Bool) :=
  match Store.accumulate s.db room skip limited (timeline.map fun o => o.map (·.1)) with
  | none => none
  | some (db', post) =>
    let json := stored s.json post (timeline.filterMap id)
    let rs := redactions js json post
    if rs = [] then some (⟨db', json⟩, post, false)
    else
      match selectCreate db' json room with
      | none => none
      | some c =>
        match redact js (versionOf js c) db' rs json with
        | none => none
        | some json' => some (⟨db', json'⟩, post, (currentRows db' room).any fun r => decide (r.ev.id ∈ rs.map (·.1)))

/-- `Initialise`, `accumulator.go:182-321`: redactions in a state block are not looked at. -/
def initialise (s : State J) (room : String) (skip : Nat) (block : List (Option (Item J))) : Option (State J) :=
  match Store.initialise s.db room skip (block.map fun o => o.map (·.1)) with
  | none => none
  | some db' => some ⟨db', stored s.json (db'.rows.drop s.db.rows.length) (block.filterMap id)⟩

inductive Op (J : Type)
  | init (room : String) (skip : Nat) (block : List (Option (Item J)))
  | acc (room : String) (skip : Nat) (limited : Bool) (timeline : List (Option (Item J)))

/-- One section; an error leaves the tables as they were. -/
def step (js : Json J) (s : State J) : Op J → State J
  | .init room k b => (initialise s room k b).getD s
  | .acc room k l t => ((accumulate js s room k l t).map (·.1)).getD s

def run (js : Json J) (ops : List (Op J)) : State J := ops.foldl (step js) {}

end Verif.Redact
