/-!
# Model of `sync3/connmap.go`

The map of connections, the TTL cache and its expiry callbacks.  The cache
(`ReneKroon/ttlcache`) runs its expiry callback in a separate goroutine, so
removing an item and running `closeConnExpires` for it are two steps; `pending`
holds the callbacks not yet run.  Expiry of an item by its TTL is an explicit
operation which may happen at any time.  `connIDToConn` (used only for a metric)
and the spam delay are not modelled.  `userIDToConn` maps a user to that user's
connections in creation order; it is represented by one list of connections.
-/
namespace Verif.ConnMap

/-- `ConnID`, `sync3/conn.go:19-23`. -/
structure CID where
  user : String
  device : String
  cid : String
  deriving DecidableEq, Repr

/-- `ConnID.String`, `sync3/conn.go:25-27`. -/
def CID.key (c : CID) : String := c.user ++ "|" ++ c.device ++ "|" ++ c.cid

/-- A connection; `id` is its identity (the Go pointer). -/
structure Conn where
  id : Nat
  cid : CID
  deriving DecidableEq, Repr

/-- `ConnMap`, `sync3/connmap.go:16-28`, with the pending expiry callbacks and
ghost lists: connections that are dead (update buffer full), connections that
were destroyed, and all connections created. -/
structure State where
  cache : List (String × Conn) := []
  userConns : List Conn := []
  pending : List Conn := []
  dead : List Nat := []
  destroyed : List Nat := []
  created : List Conn := []
  next : Nat := 0
  deriving Repr, DecidableEq

/-- `closeConn`, `sync3/connmap.go:224-247`: unlinks every connection of the
same user, device and conn id, and destroys the given one. -/
def closeConn (s : State) (c : Conn) : State :=
  { s with
    userConns := s.userConns.filter fun x => !(x.cid.user = c.cid.user && (x.cid.device = c.cid.device && x.cid.cid = c.cid.cid))
    destroyed := c.id :: s.destroyed }

/-- `getConn`, `sync3/connmap.go:119-135`. -/
def getConn (s : State) (cid : CID) : State × Option Conn :=
  match s.cache.lookup cid.key with
  | none => (s, none)
  | some c => if c.id ∈ s.dead then (closeConn s c, none) else (s, some c)

/-- `CreateConn`, `sync3/connmap.go:138-163`. -/
def createConn (s : State) (cid : CID) : State :=
  let s := match getConn s cid with
    | (s, some c) => closeConn s c
    | (s, none) => s
  let c : Conn := ⟨s.next, cid⟩
  { s with
    cache := (cid.key, c) :: s.cache.filter fun p => p.1 ≠ cid.key
    userConns := s.userConns ++ [c]
    created := s.created ++ [c]
    next := s.next + 1 }

/-- `cache.Remove(key)` or expiry of the item: the item goes, its callback is
queued. -/
def removeKey (s : State) (key : String) : State :=
  match s.cache.lookup key with
  | none => s
  | some c => { s with cache := s.cache.filter (fun p => p.1 ≠ key), pending := s.pending ++ [c] }

/-- `CloseConnsForDevice`, `sync3/connmap.go:165-191`. -/
def closeDevice (s : State) (user device : String) : State :=
  ((s.userConns.filter fun c => c.cid.user = user && c.cid.device = device).map (·.cid.key)).foldl removeKey s

/-- `CloseConnsForUsers`, `sync3/connmap.go:193-210`. -/
def closeUsers (s : State) (users : List String) : State :=
  users.foldl (fun s u => ((s.userConns.filter fun c => c.cid.user = u).map (·.cid.key)).foldl removeKey s) s

/-- Run the `i`-th pending callback: `closeConnExpires`, `sync3/connmap.go:212-221`. -/
def callback (s : State) (i : Nat) : State :=
  match s.pending[i]? with
  | none => s
  | some c => closeConn { s with pending := s.pending.eraseIdx i } c

/-- Everything that can happen. -/
inductive Op
  | create (c : CID)
  | lookup (c : CID)
  | die (id : Nat)
  | expire (key : String)
  | closeDevice (user device : String)
  | closeUsers (users : List String)
  | callback (i : Nat)
  deriving Repr

def step (s : State) : Op → State
  | .create c => createConn s c
  | .lookup c => (getConn s c).1
  | .die id => if id < s.next then { s with dead := id :: s.dead } else s
  | .expire k => removeKey s k
  | .closeDevice u d => closeDevice s u d
  | .closeUsers us => closeUsers s us
  | .callback i => callback s i

def run (ops : List Op) : State := ops.foldl step {}

/-- Run all pending callbacks. -/
def drain (s : State) : State := s.pending.foldl closeConn { s with pending := [] }

/-- Executions in which callbacks run before anything else happens. -/
def runPrompt (ops : List Op) : State := ops.foldl (fun s o => drain (step s o)) {}

end Verif.ConnMap
