import Verif.Assoc
/-!
# Model of `sync2/tokens_table.go`, `sync2/devices_table.go` and their use in `setupConnection`

A request looks its token up, asks the homeserver if it is unknown and records that the token was used.  These
are two steps, so that requests overlap in any way.  Times are in nanoseconds; the database rounds them to
microseconds, which is not modelled.  Hashing and encryption are not modelled either: a row is found by the
token itself.  Saturation of `time.Sub` at 292 years does not change a comparison with 24 hours.
-/
namespace Verif.Tokens

open Verif

/-- 24 hours, `tokens_table.go:207`. -/
def day : Int := 24 * 3600 * 1000000000

/-- A row of `syncv3_sync2_tokens`, `tokens_table.go:38-47`. -/
structure Tok where
  user : String
  device : String
  lastSeen : Int
  deriving DecidableEq

/-- A request between its two steps: the token it carries and the `LastSeen` it has read, or, if there was no
row, the time of the look-up (`hit = false`; the time is only for the specification). -/
structure Pend where
  tok : String
  time : Int
  hit : Bool
  deriving DecidableEq

structure S where
  rows : List (String × Tok) := []
  devices : List (String × String) := []
  pend : List (Nat × Pend) := []

/-- `Insert`, `tokens_table.go:174-199`: an existing row stays as it is. -/
def insert (rows : List (String × Tok)) (tok : String) (t : Tok) : List (String × Tok) :=
  match Assoc.get rows tok with
  | some _ => rows
  | none => rows ++ [(tok, t)]

/-- `InsertDevice`, `devices_table.go:36-43`. -/
def insertDevice (ds : List (String × String)) (d : String × String) : List (String × String) :=
  if d ∈ ds then ds else ds ++ [d]

/-- `UPDATE … SET last_seen = $1 WHERE token_hash = $2`, `tokens_table.go:210-213`. -/
def update (rows : List (String × Tok)) (tok : String) (now : Int) : List (String × Tok) :=
  rows.map fun r => if r.1 = tok then (r.1, { r.2 with lastSeen := now }) else r

/-- `MaybeUpdateLastSeen`, `tokens_table.go:205-219`. -/
def maybeUpdate (rows : List (String × Tok)) (tok : String) (lastSeen now : Int) : List (String × Tok) :=
  if now - lastSeen < day then rows else update rows tok now

inductive Op
  /-- `Token`, `sync3/handler/handler.go:362-381`, `tokens_table.go:117-131` -/
  | lookup (req : Nat) (tok : String) (now : Int)
  /-- the rest: for a row found `MaybeUpdateLastSeen` with the time of the call, `handler.go:391-396`; for an
  unknown token first `identifyUnknownAccessToken` with the answer of the homeserver, `handler.go:463-504` -/
  | finish (req : Nat) (user device : String) (now : Int)
  /-- the request ends early, or writing fails -/
  | fail (req : Nat)
  /-- `Delete`, `tokens_table.go:242-260` -/
  | delete (tok : String)

def step (s : S) : Op → S
  | .lookup r tok now =>
    let p : Pend := match Assoc.get s.rows tok with
      | some t => ⟨tok, t.lastSeen, true⟩
      | none => ⟨tok, now, false⟩
    { s with pend := Assoc.set s.pend r p }
  | .finish r user device now =>
    match Assoc.get s.pend r with
    | none => s
    | some p =>
      if p.hit then { s with rows := maybeUpdate s.rows p.tok p.time now, pend := Assoc.del s.pend r }
      else
        let rows := insert s.rows p.tok ⟨user, device, now⟩
        { s with
          rows := maybeUpdate rows p.tok now now
          devices := insertDevice s.devices (user, device)
          pend := Assoc.del s.pend r }
  | .fail r => { s with pend := Assoc.del s.pend r }
  | .delete tok => { s with rows := Assoc.del s.rows tok }

def run (ops : List Op) : S := ops.foldl step {}

/-- The token rows of a device. -/
def tokensOf (s : S) (d : String × String) : List (String × Tok) := s.rows.filter fun r => decide ((r.2.user, r.2.device) = d)

/-- `FindOldDevices`, `devices_table.go:58-68`, at time `now`: the join has only devices with a token, and the
latest of their times is before the limit. -/
def findOld (s : S) (period now : Int) : List (String × String) :=
  s.devices.filter fun d => !(tokensOf s d).isEmpty && (tokensOf s d).all fun r => decide (r.2.lastSeen < now - period)

/-! ## Start-up -/

/-- A row of the query of `TokenForEachDevice`, `tokens_table.go:152-160`. -/
structure Stored where
  user : String
  device : String
  enc : String
  lastSeen : Int
  deriving DecidableEq

/-- The query: one row for each device with a token, with the latest time; the order is that of the devices. -/
structure Query (rows : List Stored) (devices : List (String × String)) (res : List Stored) : Prop where
  mem : ∀ r ∈ res, r ∈ rows ∧ (r.user, r.device) ∈ devices
  latest : ∀ r ∈ res, ∀ q ∈ rows, (q.user, q.device) = (r.user, r.device) → q.lastSeen ≤ r.lastSeen
  one : (res.map fun r => (r.user, r.device)).Nodup
  all : ∀ q ∈ rows, (q.user, q.device) ∈ devices → ∃ r ∈ res, (r.user, r.device) = (q.user, q.device)

/-- The loop, `tokens_table.go:164-171`: the rows with their plain text, "" where it failed, and the value of
the named result `err` at the end. -/
def decryptLoop (decrypt : String → Option String) : Bool → List Stored → List (Stored × String) × Bool
  | err, [] => ([], err)
  | _, r :: rs =>
    match decrypt r.enc with
    | none => let x := decryptLoop decrypt true rs; ((r, "") :: x.1, x.2)
    | some t => let x := decryptLoop decrypt false rs; ((r, t) :: x.1, x.2)

/-- `TokenForEachDevice`, `tokens_table.go:142-172`, after a successful query: `none` is an error. -/
def tokenForEachDevice (decrypt : String → Option String) (res : List Stored) : Option (List (Stored × String)) :=
  let x := decryptLoop decrypt false res
  if x.2 then none else some x.1

/-- The pollers `StartV2Pollers` starts, `handler2/handler.go:122-146`, with their tokens. -/
def startPollers (decrypt : String → Option String) (res : List Stored) : List ((String × String) × String) :=
  match tokenForEachDevice decrypt res with
  | none => []
  | some ts => (ts.filter fun t => t.2 ≠ "").map fun t => ((t.1.user, t.1.device), t.2)

end Verif.Tokens
