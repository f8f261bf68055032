/-!
# Model of the transaction ids of events

The v2 handler remembers the transaction ids of a timeline (`sync2/handler2/handler.go:260-300`), the events are stored
(`state/event_table.go:162-198`), and the ids are set again on the events sent to a client (`sync3/caches/user.go:436-493`).
-/
namespace Verif.Txns

/-- An event as one poller gets it; `tid` is `unsigned.transaction_id`. -/
structure Ev where
  id : String
  sender : String
  tid : Option String := none
deriving DecidableEq, Repr

/-- A row of `syncv3_txns`, `state/txn_table.go:18-35`. -/
structure Row where
  user : String
  dev : String
  event : String
  txn : String
  ts : Nat
deriving DecidableEq, Repr

structure State where
  /-- `syncv3_events` -/
  events : List Ev := []
  /-- `syncv3_txns` -/
  txns : List Row := []
deriving DecidableEq, Repr

/-- `eventIDToTxnID`, `handler.go:266-284`: the last event with the id wins; the order is that of the first. -/
def txnMap (evs : List Ev) : List (String × String) :=
  evs.foldl (fun m e =>
    match e.tid with
    | none => m
    | some t => if m.any (·.1 = e.id) then m.map fun p => if p.1 = e.id then (e.id, t) else p else m ++ [(e.id, t)]) []

/-- `TransactionsTable.Insert`, `state/txn_table.go:37-56`: one statement, without ON CONFLICT.  If a row is there already the
statement fails and no row is added; the handler only logs it, `handler.go:286-294`. -/
def insert (txns : List Row) (user dev : String) (ts : Nat) (m : List (String × String)) : List Row :=
  if m.any fun p => txns.any fun r => decide (r.user = user) && decide (r.dev = dev) && decide (r.event = p.1) then txns
  else txns ++ m.map fun p => ⟨user, dev, p.1, p.2, ts⟩

/-- `EventTable.Insert`, `state/event_table.go:162-198`: the first event with an id is kept.  It deletes `unsigned.txn_id`, which
events do not have, so `unsigned.transaction_id` is stored with the event. -/
def storeEvents (events : List Ev) : List Ev → List Ev
  | [] => events
  | e :: es => storeEvents (if events.any (·.id = e.id) then events else events ++ [e]) es

inductive Op
  /-- A poller of a device gets a timeline.  `keep` says which events `Accumulate` inserts: it drops those before a known event
  and, if the room is not known or the store fails, all of them (see `Store`). -/
  | deliver (user dev : String) (ts : Nat) (evs : List Ev) (keep : String → Bool)
  /-- `TransactionsTable.Clean`, `state/txn_table.go:58-61`. -/
  | clean (boundary : Nat)

/-- `Accumulate`, `sync2/handler2/handler.go:260-300`. -/
def step (s : State) : Op → State
  | .deliver user dev ts evs keep =>
    ⟨storeEvents s.events (evs.filter fun e => keep e.id), insert s.txns user dev ts (txnMap evs)⟩
  | .clean b => { s with txns := s.txns.filter fun r => decide (b < r.ts) }

def run (ops : List Op) : State := ops.foldl step {}

/-- `TransactionsTable.Select`, `state/txn_table.go:63-74`. -/
def select (s : State) (user dev id : String) : Option String :=
  (s.txns.find? fun r => decide (r.user = user) && decide (r.dev = dev) && decide (r.event = id)).map (·.txn)

/-- `AnnotateWithTransactionIDs`, `sync3/caches/user.go:442-493`, for one stored event: the transaction id a client of the user and
device is sent with it.  `none` if the event is not stored. -/
def sent (s : State) (user dev id : String) : Option (Option String) :=
  match s.events.find? (·.id = id) with
  | none => none
  | some e =>
    if e.sender ≠ user then some e.tid
    else
      match select s user dev id with
      | some t => some (some t)
      | none => some e.tid

end Verif.Txns
