import Verif.Util
/-!
# Model of `state/device_data_table.go`, `state/device_list_table.go`, `sync3/extensions/e2ee.go` and
`parseE2EEData` of `sync2/poller.go`

The data of one (user, device).  Transactions are atomic steps.  CBOR encoding is taken to be lossless.  A Go
map is an association list with distinct keys (`Nodup` is a hypothesis where it matters); the order is
irrelevant.
-/
namespace Verif.E2EE

abbrev Map := List (String × Int)

/-- `m[k]`, 0 if absent. -/
def get (m : Map) (k : String) : Int := (m.lookup k).getD 0

inductive Change
  | changed
  | left
  deriving DecidableEq

/-- `ToDeviceListChangesMap`, `internal/device_lists.go:51-63`: a user in both lists counts as left. -/
def toChanges (changed left : List String) (u : String) : Option Change :=
  if u ∈ left then some .left else if u ∈ changed then some .changed else none

/-- The row of `syncv3_device_data` (if there is one) and the two buckets of `syncv3_device_list_updates`. -/
structure State where
  row : Bool := false
  otk : Option Map := none
  fallback : Option (List String) := none
  otkBit : Bool := false
  fbBit : Bool := false
  new : String → Option Change := fun _ => none
  sent : String → Option Change := fun _ => none

/-- `Upsert`, `device_data_table.go:110-153` with `UpsertTx`, `device_list_table.go:61-90`. -/
def upsert (s : State) (otk : Option Map) (fb : Option (List String)) (ch : String → Option Change) : State :=
  { s with
    row := true
    new := fun u => match ch u with | some c => some c | none => s.new u
    fallback := match fb with | some f => some f | none => s.fallback
    fbBit := match fb with | some _ => true | none => s.fbBit
    otk := match otk with | some o => some o | none => s.otk
    otkBit := match otk with | some _ => true | none => s.otkBit }

/-- What the extension reports, `e2ee.go:57-91`. -/
structure Out where
  otk : Option Map := none
  fallback : Option (List String) := none
  lists : String → Option Change := fun _ => none

/-- `Select`, `device_data_table.go:48-107`, with `SelectTx`, `device_list_table.go:101-136`, and
`ProcessInitial`, `e2ee.go:57-91`; `swap` is `!isInitial` (`handler.go:624`).  An output without any update
is not sent, which is the same as an empty one. -/
def read (s : State) (isInitial : Bool) : State × Out :=
  if !s.row then (s, {})
  else if isInitial then (s, { otk := s.otk, fallback := s.fallback, lists := s.sent })
  else
    ({ s with sent := s.new, new := fun _ => none, otkBit := false, fbBit := false },
     { otk := if s.otkBit then s.otk else none
       fallback := if s.fbBit then s.fallback else none
       lists := s.new })

inductive Op
  | upsert (otk : Option Map) (fb : Option (List String)) (ch : String → Option Change)
  | read (isInitial : Bool)

def step (s : State) : Op → State
  | .upsert o f c => upsert s o f c
  | .read i => (read s i).1

def run (ops : List Op) : State := ops.foldl step {}

/-! ## The poller -/

structure Poller where
  otk : Option Map := none
  fallback : Option (List String) := none

/-- The parts of a v2 response read by `parseE2EEData`. -/
structure Sync where
  otk : Option Map := none
  fallback : Option (List String) := none
  changed : List String := []
  left : List String := []

/-- The counts passed on, `poller.go:715-727`: the new map if the sizes or a count of the new map differ. -/
def changedOTK (p : Poller) (r : Sync) : Option Map :=
  match r.otk with
  | none => none
  | some m =>
    if m.length > 0 then
      if (p.otk.getD []).length ≠ m.length then some m
      else if m.any (fun kv => kv.2 ≠ get (p.otk.getD []) kv.1) then some m
      else none
    else none

/-- `poller.go:728-752`: the fallback types passed on, and whether the poller remembers the new value. -/
def changedFB (p : Poller) (r : Sync) : Option (List String) × Bool :=
  let old := p.fallback.getD []
  let cur := r.fallback.getD []
  if old.length ≠ cur.length then (r.fallback, true)
  else if cur.length = 0 then
    if r.fallback.isNone ≠ p.fallback.isNone then (some [], true) else (none, false)
  else if cur ≠ old then (r.fallback, true)
  else (none, false)

/-- `parseE2EEData`, `poller.go:709-772`; `ok` is whether the database accepted the write.  Without any change
nothing is written. -/
def parse (p : Poller) (s : State) (r : Sync) (ok : Bool) : Poller × State :=
  let o := changedOTK p r
  let f := changedFB p r
  let lists := decide (r.changed.length ≠ 0) || decide (r.left.length ≠ 0)
  let write := lists || f.1.isSome || o.isSome
  if write && !ok then (p, s)
  else
    ({ otk := match r.otk with | some m => if m.length > 0 then some m else p.otk | none => p.otk
       fallback := if f.2 then r.fallback else p.fallback },
     if write then upsert s o f.1 (toChanges r.changed r.left) else s)

inductive Ev
  /-- a v2 response; a failed one is retried later as another event -/
  | sync (r : Sync) (ok : Bool)
  | read (isInitial : Bool)
  /-- the poller starts again -/
  | restart

def evStep (ps : Poller × State) : Ev → Poller × State
  | .sync r ok => parse ps.1 ps.2 r ok
  | .read i => (ps.1, (read ps.2 i).1)
  | .restart => ({}, ps.2)

def evRun (evs : List Ev) : Poller × State := evs.foldl evStep ({}, {})

end Verif.E2EE
