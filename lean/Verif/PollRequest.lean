import Verif.Assoc
/-!
# The request to poll for a device

The client side asks the poller side to poll for a device (`V3EnsurePolling`) with the hash of the access token. The poller side looks the
token and the device's position up (`sync2/tokens_table.go:221-240`) and starts a poller with them. The tables are as in `Tokens`, with the
columns that matter here: a token row has its hash as key, a device row its `since`. Database errors are not modelled.
-/
namespace Verif.PollRequest
open Verif

/-- A row of `syncv3_sync2_tokens`, `sync2/tokens_table.go:38-47`. -/
structure Tok where
  user : String
  device : String
  enc : String
  deriving DecidableEq

structure S where
  toks : List (String × Tok) := []
  devs : List ((String × String) × String) := []

inductive Op
  /-- `identifyUnknownAccessToken`, `sync3/handler/handler.go:482-497`: both rows in one transaction -/
  | identify (hash : String) (t : Tok)
  /-- `UpdateDeviceSince`, `sync2/devices_table.go:45-48` -/
  | since (user device since : String)
  /-- `OnExpiredToken`, `sync2/handler2/handler.go:198-203`, and `Delete`, `sync2/tokens_table.go:242-260` -/
  | delete (hash : String)
  deriving DecidableEq

/-- `INSERT … ON CONFLICT DO NOTHING`, `sync2/tokens_table.go:177-182`, `sync2/devices_table.go:36-43`. -/
def insertNew {κ ν : Type} [DecidableEq κ] (m : List (κ × ν)) (k : κ) (v : ν) : List (κ × ν) :=
  match Assoc.get m k with
  | some _ => m
  | none => m ++ [(k, v)]

def step (s : S) : Op → S
  | .identify h t => { toks := insertNew s.toks h t, devs := insertNew s.devs (t.user, t.device) "" }
  | .since u d x => { s with devs := s.devs.map fun r => if r.1 = (u, d) then (r.1, x) else r }
  | .delete h => { s with toks := Assoc.del s.toks h }

def run (ops : List Op) : S := ops.foldl step {}

/-- `GetTokenAndSince`, `sync2/tokens_table.go:221-240`: the join, the check of the owner, the decryption; `none` is an error. -/
def getTokenAndSince (decrypt : String → Option String) (s : S) (user device hash : String) : Option (String × String) :=
  match Assoc.get s.toks hash with
  | none => none
  | some t =>
    match Assoc.get s.devs (t.user, t.device) with
    | none => none
    | some since => if t.user ≠ user ∨ t.device ≠ device then none else (decrypt t.enc).map fun a => (a, since)

/-- `EnsurePolling`, `sync2/handler2/handler.go:564-596`: the poller asked for, with its token and position; its first sync is followed by the
answer `V2InitialSyncComplete`. `none` is the early return, with no poller and no answer. -/
def ensurePolling (decrypt : String → Option String) (s : S) (user device hash : String) : Option ((String × String) × String × String) :=
  (getTokenAndSince decrypt s user device hash).map fun r => ((user, device), r)

end Verif.PollRequest
