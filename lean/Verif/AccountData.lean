import Verif.SqlUtil
/-!
The account data table (state/account_data.go 41-89, state/storage.go 118-159). The serial `id` of a row
is not modelled: no query orders or filters by it. -/
namespace Verif.AccountData

/-- A row of `syncv3_account_data`; `room = ""` is global account data. -/
structure Row where
  user : String
  room : String
  type : String
  data : String
deriving DecidableEq, Repr

def Row.triple (r : Row) : String × String × String := (r.user, r.room, r.type)

/-- state/account_data.go 47: `fmt.Sprintf("%s %s %s", …)`. -/
def key (r : Row) : String := r.user ++ " " ++ r.room ++ " " ++ r.type

/-- state/account_data.go 44-50: the map `keys` as its list of values; a later entry replaces an earlier one
with the same key. -/
def dedupe (l : List Row) : List Row :=
  l.foldl (fun m r => m.filter (fun x => decide (key x ≠ key r)) ++ [r]) []

/-- One row of `INSERT … ON CONFLICT (user_id, room_id, type) DO UPDATE SET data = EXCLUDED.data`. -/
def upsert (db : List Row) (r : Row) : List Row :=
  if db.any (fun x => decide (x.triple = r.triple)) then
    db.map fun x => if x.triple = r.triple then r else x
  else db ++ [r]

/-- state/account_data.go 58-60: one statement. PostgreSQL refuses a statement that names a
key twice ("cannot affect row a second time"). -/
def exec (db : List Row) (chunk : List Row) : Option (List Row) :=
  if (chunk.map Row.triple).Nodup then some (chunk.foldl upsert db) else none

/-- state/account_data.go 57-64: the statements in turn. -/
def execAll (db : List Row) (chunks : List (List Row)) : Option (List Row) :=
  chunks.foldl (fun d c => d.bind (exec · c)) (some db)

/-- state/account_data.go 41-66 `Insert`, as a relation: ranging over the Go map yields the rows in any order.
The result is `some (db', returned)`, or `none` on a database error. -/
def Insert (db : List Row) (accDatas : List Row) (res : Option (List Row × List Row)) : Prop :=
  ∃ deduped, deduped.Perm (dedupe accDatas) ∧
    res = ((SqlUtil.chunkify 4 SqlUtil.maxPostgresParameters deduped).bind (execAll db)).map (·, deduped)

/-- state/storage.go 144-159 `InsertAccountData`, the only caller of `Insert`. An event is its `type` field and
the whole JSON. On an error the transaction is rolled back. -/
def InsertAccountData (db : List Row) (user room : String) (events : List (String × String))
    (res : Option (List Row × List Row)) : Prop :=
  Insert db (events.map fun e => ⟨user, room, e.1, e.2⟩) res

/-- state/account_data.go 68-72 `Select`. -/
def select (db : List Row) (user : String) (types : List String) (room : String) : List Row :=
  db.filter fun r => decide (r.user = user) && types.contains r.type && decide (r.room = room)

/-- state/account_data.go 74-78 `SelectWithType`. -/
def selectWithType (db : List Row) (user type : String) : List Row :=
  db.filter fun r => decide (r.user = user) && decide (r.type = type) && decide (r.room ≠ "")

/-- state/account_data.go 80-89 `SelectMany`. -/
def selectMany (db : List Row) (user : String) (rooms : List String) : List Row :=
  if rooms.length = 0 then db.filter fun r => decide (r.user = user) && decide (r.room = "")
  else db.filter fun r => decide (r.user = user) && rooms.contains r.room

/-- One call of `InsertAccountData`. -/
structure Op where
  user : String
  room : String
  events : List (String × String)
deriving DecidableEq, Repr

/-- Databases reachable by the calls `ops` (with no outside failure). -/
inductive Run : List Op → List Row → Prop
  | nil : Run [] []
  | snoc {ops : List Op} {db db' out : List Row} {o : Op} : Run ops db →
      InsertAccountData db o.user o.room o.events (some (db', out)) → Run (ops ++ [o]) db'

end Verif.AccountData
