import Verif.Util
/-!
# The row locks of the transactions on a device's encryption data

`Upsert` (`state/device_data_table.go:110-153`) is run by the poller of a device, `Select` (lines 48-107) by its requests, each in a
transaction. PostgreSQL keeps the locks on the rows a transaction wrote or selected `FOR UPDATE` until the transaction ends; a statement
which needs a row locked by another transaction waits. Modelled is which rows a transaction locks, in which order. The rows are taken one
after the other also within a statement, in any order. Reading without `FOR UPDATE` waits for nothing. Locks on indexes and the
detection of deadlocks by PostgreSQL (which aborts one of the transactions) are not modelled, but for the step `abort`.
-/
namespace Verif.RowLocks

/-- A row: of `syncv3_device_data`, or of `syncv3_device_list_updates` in the bucket `sent` or `new`
(`state/device_data_table.go:28-39`, `state/device_list_table.go:29-41`). -/
inductive Row
  | data (dev : String)
  | list (dev target : String) (sent : Bool)
  deriving DecidableEq, Repr

/-- A transaction: `Upsert` for a device with the users whose device lists changed, in the order of the Go map; or `Select` with the users
it finds in the buckets, where `row` says whether there is a row for the device. -/
inductive Job
  | upsert (dev : String) (targets : List String)
  | select (dev : String) (row swap : Bool) (sent new : List String)
  deriving DecidableEq, Repr

def Job.dev : Job → String
  | .upsert d _ => d
  | .select d _ _ _ _ => d

/-- The rows a transaction locks, in order. `Upsert`: the device list rows (`state/device_list_table.go:60-90`, `INSERT … ON CONFLICT DO
UPDATE`), then the row of the device (`FOR UPDATE`, or inserted). `Select`: the row of the device, without which it ends
(`state/device_data_table.go:52-59`); if it swaps, the rows in `sent`, which it deletes, and those in `new`, which it moves
(`state/device_list_table.go:101-121`). -/
def rows : Job → List Row
  | .upsert d ts => ts.map (fun t => Row.list d t false) ++ [Row.data d]
  | .select d row swap old new =>
    if row then
      Row.data d :: (if swap then old.map (fun t => Row.list d t true) ++ new.map (fun t => Row.list d t false) else [])
    else []

/-- A running transaction: how many of its rows it has locked, and whether it has ended. -/
structure T where
  job : Job
  n : Nat := 0
  ended : Bool := false
  deriving DecidableEq, Repr

/-- The locks a transaction holds. -/
def T.held (t : T) : List Row := if t.ended then [] else (rows t.job).take t.n

/-- The row it needs next. -/
def T.next (t : T) : Option Row := if t.ended then none else (rows t.job)[t.n]?

/-- Is the row locked by a transaction other than the `i`th? -/
def taken (s : List T) (i : Nat) (r : Row) : Bool :=
  (List.range s.length).any fun j => decide (j ≠ i) && (s[j]?.any fun t => t.held.contains r)

inductive Act
  /-- the transaction goes on: it locks its next row if that is free, or commits -/
  | go (i : Nat)
  /-- it is rolled back -/
  | abort (i : Nat)
  deriving DecidableEq, Repr

/-- `WithTransaction` (`sqlutil/sql.go:22-50`) commits or rolls back; either way the locks are released. -/
def step (s : List T) : Act → List T
  | .go i =>
    match s[i]? with
    | none => s
    | some t =>
      if t.ended then s
      else
        match t.next with
        | none => s.set i { t with ended := true }
        | some r => if taken s i r then s else s.set i { t with n := t.n + 1 }
  | .abort i =>
    match s[i]? with
    | none => s
    | some t => s.set i { t with ended := true }

def start (js : List Job) : List T := js.map fun j => { job := j }

def run (js : List Job) (acts : List Act) : List T := acts.foldl step (start js)

end Verif.RowLocks
