import Verif.Assoc
/-!
# Model of who a request is served as

`setupConnection` and `identifyUnknownAccessToken` (`sync3/handler/handler.go:347-504`), the tokens table
(`sync2/tokens_table.go`), the pollers as users of tokens (`sync2/poller.go`) and the homeserver that issues and revokes tokens.

Each access to the database, the homeserver or a map is one step, so that requests, pollers and revocations interleave in any way.
Simplified: a row is found by the token, not by its hash; connections are keyed by device and connection id (C19 has the string
key); what `EnsurePolling` tells a caller is arbitrary (C30); tokens are not issued twice.
-/
namespace Verif.Auth

/-- A user and a device. -/
abbrev Dev := String × String

/-- How far a request is. -/
inductive Stage
  /-- no row was found, the homeserver is to be asked -/
  | unknown
  /-- the homeserver named the device -/
  | asked (d : Dev)
  /-- the token is known -/
  | ready (d : Dev)
  deriving DecidableEq

structure State where
  /-- the tokens the homeserver has issued, and for whom -/
  issued : List (String × Dev) := []
  revoked : List String := []
  rows : List (String × Dev) := []
  /-- the running pollers and the tokens they use -/
  pollers : List (Dev × String) := []
  conns : List (Dev × String) := []
  reqs : List (Nat × String × Stage) := []
  /-- requests that were given a connection: the token, and whose connection -/
  served : List (String × Dev × String) := []
  deriving DecidableEq

inductive Op
  /-- the homeserver -/
  | issue (tok : String) (d : Dev)
  | revoke (tok : String)
  /-- a request comes in and its token is looked up, `handler.go:353-364` -/
  | arrive (id : Nat) (tok : String)
  /-- `WhoAmI`, `handler.go:465-479` -/
  | whoami (id : Nat)
  /-- the row is created, `handler.go:481-503` -/
  | insert (id : Nat)
  /-- a request with a position, `handler.go:404-414` -/
  | reuse (id : Nat) (cid : String)
  /-- a request without; `expired` is what `EnsurePolling` said, `handler.go:416-460` -/
  | create (id : Nat) (cid : String) (expired : Bool)
  /-- a poller is started for the device of a row, `sync2/handler2/handler.go:564-596`, `sync2/poller.go:256-310` -/
  | start (tok : String)
  /-- a poller asks the homeserver, `sync2/poller.go:577-600` -/
  | poll (d : Dev)
  /-- a poller failed too often, `sync2/poller.go:553-561`, or is expired, `sync2/poller.go:225-247` -/
  | giveUp (d : Dev)
  /-- `CloseConnsForDevice`, `handler.go:816-819`, when the notification arrives -/
  | close (d : Dev)
  /-- a connection expires -/
  | drop (d : Dev) (cid : String)
  deriving DecidableEq

/-- The poller stops and its token's row is deleted, `sync2/handler2/handler.go:198-203`. -/
def stop (s : State) (d : Dev) (tok : String) : State :=
  { s with pollers := Assoc.del s.pollers d, rows := Assoc.del s.rows tok }

/-- The homeserver's answer for a token. -/
def valid (s : State) (tok : String) : Option Dev := if tok ∈ s.revoked then none else Assoc.get s.issued tok

def step (s : State) : Op → State
  | .issue tok d => if (Assoc.get s.issued tok).isSome then s else { s with issued := Assoc.set s.issued tok d }
  | .revoke tok => { s with revoked := tok :: s.revoked }
  | .arrive id tok =>
    { s with reqs := Assoc.set s.reqs id (tok, match Assoc.get s.rows tok with
        | some d => .ready d
        | none => .unknown) }
  | .whoami id =>
    match Assoc.get s.reqs id with
    | some (tok, .unknown) =>
      match valid s tok with
      | some d => { s with reqs := Assoc.set s.reqs id (tok, .asked d) }
      | none => { s with reqs := Assoc.del s.reqs id }
    | _ => s
  | .insert id =>
    match Assoc.get s.reqs id with
    | some (tok, .asked d) =>
      { s with rows := if (Assoc.get s.rows tok).isSome then s.rows else Assoc.set s.rows tok d
               reqs := Assoc.set s.reqs id (tok, .ready d) }
    | _ => s
  | .reuse id cid =>
    match Assoc.get s.reqs id with
    | some (tok, .ready d) =>
      if (d, cid) ∈ s.conns then { s with served := s.served ++ [(tok, d, cid)], reqs := Assoc.del s.reqs id }
      else { s with reqs := Assoc.del s.reqs id }
    | _ => s
  | .create id cid expired =>
    match Assoc.get s.reqs id with
    | some (tok, .ready d) =>
      if expired then { s with reqs := Assoc.del s.reqs id }
      else { s with conns := (d, cid) :: s.conns, served := s.served ++ [(tok, d, cid)], reqs := Assoc.del s.reqs id }
    | _ => s
  | .start tok =>
    match Assoc.get s.rows tok with
    | some d => if (Assoc.get s.pollers d).isSome then s else { s with pollers := Assoc.set s.pollers d tok }
    | none => s
  | .poll d =>
    match Assoc.get s.pollers d with
    | some tok => if (valid s tok).isSome then s else stop s d tok
    | none => s
  | .giveUp d =>
    match Assoc.get s.pollers d with
    | some tok => stop s d tok
    | none => s
  | .close d => { s with conns := s.conns.filter fun c => c.1 ≠ d }
  | .drop d cid => { s with conns := s.conns.filter fun c => c ≠ (d, cid) }

def run (ops : List Op) : State := ops.foldl step {}

end Verif.Auth
