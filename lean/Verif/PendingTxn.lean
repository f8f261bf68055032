/-!
Pending transaction ids (sync2/txnid.go), used by the v2 handler after storing a timeline
(sync2/handler2/handler.go 333-367). Calls hold one mutex, so a concurrent history is a sequence of calls.
-/
namespace Verif.PendingTxn

/-- sync2/txnid.go 114-121 `removeDevice`. The Go code shifts the slice in place, contrary to its comment; the slice is fresh
from the loader (sync2/poller.go 213-223) or held only by the cache, so no one else sees it. -/
def removeDevice (device : String) : List String → List String × Bool
  | [] => ([], false)
  | other :: rest =>
    if other = device then (rest, true)
    else let r := removeDevice device rest; (other :: r.1, r.2)

/-- The ttl cache, from event ids to devices. -/
abbrev State := String → Option (List String)

/-- `missing`: a poller of the sender saw the event without a transaction id; `loaded` is what the loader would return
at that moment, the sender's devices with a live poller. `seen`: a poller saw the transaction id. `expire`: the
cache drops an entry, five minutes after it was last set (txnid.go 47-48). -/
inductive Op where
  | missing (event device : String) (loaded : List String)
  | seen (event : String)
  | expire (event : String)
deriving DecidableEq, Repr

def put (st : State) (e : String) (v : Option (List String)) : State := fun x => if x = e then v else st x

/-- sync2/txnid.go 59-109 `MissingTxnID`, `SeenTxnID`: the new cache, and whether the all-clear is given. Errors of the
cache other than not-found happen only once it is closed, which never happens, and are not modelled. -/
def step (st : State) : Op → State × Bool
  | .missing e d loaded =>
    let data := match st e with
      | none => loaded
      | some l => l
    let r := removeDevice d data
    (if r.2 then put st e (some r.1) else st, r.2 && decide (r.1.length = 0))
  | .seen e => (put st e (some []), false)
  | .expire e => (put st e none, false)

/-- The cache and the calls so far with their results. -/
def run (ops : List Op) : State × List (Op × Bool) :=
  ops.foldl (fun s op => let r := step s.1 op; (r.1, s.2 ++ [(op, r.2)])) (fun _ => none, [])

end Verif.PendingTxn
