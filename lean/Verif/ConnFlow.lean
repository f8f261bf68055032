import Verif.Conn
/-!
A client with a connection of the proxy: the connection with its buffer of responses (`Conn.step`, sync3/conn.go), new
connections (sync3/handler/handler.go 347-461, sync3/connmap.go 138-163), expired ones, lost responses and what the client makes
of those that arrive. What a response holds and how the client takes it in are parameters. A request takes several steps, so
that other things can happen while it is in progress.

One connection at a time. The body of a request is a number, as only equality matters.
-/
namespace Verif.ConnFlow
open Verif

/-- A request in progress. `on`: what it is about is enabled in it; `out`: what is in the response so far. -/
structure Busy (ρ : Type) where
  body : Nat
  on : Bool
  out : ρ

/-- The connection as the proxy has it, and the client. -/
structure Client (ρ ν : Type) where
  /-- the connection; none after a restart of the proxy or when it has expired -/
  conn : Option (Conn.State Nat ρ) := none
  busy : Option (Busy ρ) := none
  /-- the client's position; 0 is none -/
  pos : Int := 0
  /-- what the client has -/
  has : ν

variable {ρ ν : Type} (put : ν → ρ → ν)

/-- The response arrives at the client. -/
def Client.get (c : Client ρ ν) (r : Conn.Resp ρ) : Client ρ ν := { c with pos := r.pos, has := put c.has r.data }

/-- The connection for a request: without a position a new one, which replaces one that exists
(sync3/handler/handler.go 347-461, sync3/connmap.go 138-163). -/
def Client.target (c : Client ρ ν) : Option (Conn.State Nat ρ) := if c.pos = 0 then some (Conn.init 0) else c.conn

/-- Whether the request goes through to the handler of the connection, sync3/conn.go 137-224: `Conn.step` with a failing handler
fails exactly if the handler is called. -/
def Client.calls (c : Client ρ ν) (body : Nat) : Bool :=
  match c.target with
  | none => false
  | some k => match (Conn.step k ⟨c.pos, body⟩ none).2 with
    | .failed => true
    | _ => false

/-- A request that does not: the session has expired (sync3/handler/handler.go 403-414, sync3/conn.go 155-168), so the client has to
start again, or the response is in the buffer (sync3/conn.go 170-203). `arrives`: the client gets the response. -/
def Client.repeated (c : Client ρ ν) (body : Nat) (arrives : Bool) : Client ρ ν :=
  match c.conn with
  | none => if arrives then { c with pos := 0 } else c
  | some k =>
    match Conn.step k ⟨c.pos, body⟩ none with
    | (k', .cached r) => if arrives then { c with conn := some k' }.get put r else { c with conn := some k' }
    | (k', _) => if arrives then { c with conn := some k', pos := 0 } else { c with conn := some k' }

/-- A request that does. -/
def Client.serve (c : Client ρ ν) (b : Busy ρ) : Client ρ ν := { c with conn := c.target, busy := some b }

/-- The handler is done (sync3/conn.go 224-250); `fails`: with an error, or a panic, which is recovered from (93-122). -/
def Client.finish (c : Client ρ ν) (b : Busy ρ) (fails arrives : Bool) : Client ρ ν :=
  match c.conn with
  | none => { c with busy := none }
  | some k =>
    match Conn.step k ⟨c.pos, b.body⟩ (if fails then none else some b.out) with
    | (k', .fresh r) =>
      if arrives then { c with conn := some k', busy := none }.get put r else { c with conn := some k', busy := none }
    | (k', _) => { c with conn := some k', busy := none }

/-- The connection expires or is destroyed, or the proxy restarts. -/
def Client.lose (c : Client ρ ν) : Client ρ ν := { c with conn := none, busy := none }

end Verif.ConnFlow
