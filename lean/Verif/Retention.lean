/-!
# Model of how long transaction ids are kept

`Cleaner` (`state/storage.go:1075-1101`), `TransactionsTable.Insert`, `Clean` and `Select` (`state/txn_table.go:37-74`).

Times are in nanoseconds, as in Go; rows hold milliseconds.  The clock of the process does not go back.  A row's key is its user, device and event.
Simplified: the removal of snapshots that the cleaner also does is in the module on snapshots.
-/
namespace Verif.Retention

variable {κ τ : Type} [DecidableEq κ]

structure Row (κ τ : Type) where
  key : κ
  txn : τ
  /-- milliseconds -/
  ts : Nat

structure State (κ τ : Type) where
  now : Nat
  /-- when the timer of the cleaner fires, `storage.go:1079` -/
  due : Nat
  /-- `shutdownCh` is closed, `storage.go:1098` -/
  down : Bool := false
  rows : List (Row κ τ) := []

inductive Op (κ τ : Type)
  /-- time passes -/
  | pass (ns : Nat)
  /-- a poller stores the ids of a timeline -/
  | insert (ids : List (κ × τ))
  /-- the cleaner is scheduled; `ok` says whether the statement succeeds -/
  | clean (ok : Bool)
  | shutdown

/-- `UnixMilli`. -/
def milli (ns : Nat) : Nat := ns / 1000000

def hour : Nat := 3600 * 1000000000

/-- `boundaryTime`, `storage.go:1080-1084`. The process starts after 1970 plus `n` plus an hour. -/
def boundary (n now : Nat) : Nat := if n < hour then now - hour else now - n

/-- `Insert`, `txn_table.go:37-56`: one statement; a key that is there already fails all of it. -/
def insert (rows : List (Row κ τ)) (now : Nat) (ids : List (κ × τ)) : List (Row κ τ) :=
  if ids.any fun p => rows.any fun r => decide (r.key = p.1) then rows else rows ++ ids.map fun p => ⟨p.1, p.2, milli now⟩

/-- `Clean`, `txn_table.go:58-61`. -/
def cleanRows (rows : List (Row κ τ)) (b : Nat) : List (Row κ τ) := rows.filter fun r => !decide (r.ts ≤ milli b)

/-- `Cleaner(n)`, `storage.go:1075-1101`, and what happens around it. -/
def step (n : Nat) (s : State κ τ) : Op κ τ → State κ τ
  | .pass d => { s with now := s.now + d }
  | .insert ids => { s with rows := insert s.rows s.now ids }
  | .clean ok =>
    if s.down || s.now < s.due then s
    else { s with rows := if ok then cleanRows s.rows (boundary n s.now) else s.rows, due := s.now + n }
  | .shutdown => { s with down := true }

/-- The process starts at `t0`; the table is what an earlier process left. -/
def init (n t0 : Nat) (rows : List (Row κ τ)) : State κ τ := { now := t0, due := t0 + n, rows := rows }

def run (n : Nat) (s : State κ τ) (ops : List (Op κ τ)) : State κ τ := ops.foldl (step n) s

/-- `Select`, `txn_table.go:63-74`. -/
def select (s : State κ τ) (k : κ) : Option τ := (s.rows.find? fun r => decide (r.key = k)).map (·.txn)

end Verif.Retention
