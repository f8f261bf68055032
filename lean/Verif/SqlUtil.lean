import Verif.Util
/-!
`sqlutil/sql.go`: chunking of bulk writes and transactions. -/
namespace Verif.SqlUtil

/-- state/storage.go `MaxPostgresParameters`. -/
def maxPostgresParameters : Nat := 65535

/-- sqlutil/sql.go 72-79: the loop, started at index `i`. `fuel` bounds the number of iterations; `none` is
"still running". `entries.Subslice(i, j)` is the slice `[i, j)`. -/
def chunkLoop {α} (size : Nat) (entries : List α) : Nat → Nat → Option (List (List α))
  | 0, i => if i < entries.length then none else some []
  | fuel + 1, i =>
    if i < entries.length then
      let endIndex := if i + size > entries.length then entries.length else i + size
      (chunkLoop size entries fuel (i + size)).map (((entries.drop i).take (endIndex - i)) :: ·)
    else some []

/-- sqlutil/sql.go 63-82 `Chunkify` with at most `fuel` iterations. The division by
`numParamsPerStmt` cannot be by zero, as zero takes the early return. -/
def chunkifyFuel {α} (fuel numParamsPerStmt maxParamsPerCall : Nat) (entries : List α) :
    Option (List (List α)) :=
  if entries.length * numParamsPerStmt ≤ maxParamsPerCall then some [entries]
  else chunkLoop (maxParamsPerCall / numParamsPerStmt) entries fuel 0

/-- The result of `Chunkify`; `none` if it does not terminate (justified by `chunkify_iff`). -/
def chunkify {α} (numParamsPerStmt maxParamsPerCall : Nat) (entries : List α) : Option (List (List α)) :=
  chunkifyFuel entries.length numParamsPerStmt maxParamsPerCall entries

/-! ### Transactions -/

/-- How the function passed to `WithTransaction` ends. `panicNil` is `panic(nil)` — `recover` returns nil
for it with the `go 1.20` directive of go.mod — or `runtime.Goexit`, which `recover` does not report either. -/
inductive FnEnd
  | ok
  | err (msg : String)
  | panic (value : String)
  | panicNil
deriving DecidableEq, Repr

/-- What the database driver does: whether `Begin`, `Commit` and `Rollback` succeed. -/
structure Driver where
  beginOk : Bool
  commitOk : Bool
  rollbackOk : Bool
deriving DecidableEq, Repr

inductive Res
  | nil
  | beginErr
  | fnErr (msg : String)
  | panicErr (value : String)
  | txnErr
deriving DecidableEq, Repr

/-- Outcome: the committed database, the returned error and whether the function was called. -/
structure Out (S : Type) where
  db : S
  res : Res
  called : Bool
deriving DecidableEq, Repr

/-- sqlutil/sql.go 22-50 `WithTransaction`. `fn` maps the database as it is at `Begin` to what the
transaction would leave behind and how the function ended. A successful `Commit` installs that state, any
other end leaves the database as it was (PostgreSQL atomicity). -/
def withTransaction {S} (d : Driver) (fn : S → S × FnEnd) (db : S) : Out S :=
  if !d.beginOk then ⟨db, .beginErr, false⟩
  else
    let (work, fin) := fn db
    -- `err` when the deferred function runs, and what `recover()` returns
    let err : Option Res := match fin with
      | .err m => some (.fnErr m)
      | _ => none
    let panicErr : Option String := match fin with
      | .panic v => some v
      | _ => none
    let err : Option Res := match err, panicErr with
      | none, some v => some (.panicErr v)
      | e, _ => e
    match err with
    | some e => ⟨db, e, true⟩          -- Rollback; its own error is dropped as err is set
    | none => if d.commitOk then ⟨work, .nil, true⟩ else ⟨db, .txnErr, true⟩

end Verif.SqlUtil
