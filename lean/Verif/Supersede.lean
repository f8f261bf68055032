/-!
# Requests of one connection that come while another is served

A client may send a request while an older one of the same connection still waits for something to happen. `Conn.OnIncomingRequest`
(`sync3/conn.go:137-150`) cancels the older one, so that the newer one is not kept waiting behind the lock of the connection. When a
connection is closed, `ConnState.Destroy` (`sync3/handler/connstate.go:725-732`) cancels the request whose callback was set last.

Modelled is who holds the lock, which cancel functions are stored where, and which requests are cancelled; each step is one that no other
goroutine can divide. Not modelled:

* what a request does while it has the lock; a request that runs ends when it is cancelled (`quit`), or for reasons of its own (`finish`:
  there is something to tell, its timeout has passed, its position is refused). `conn_id`s: each connection has a model of its own.
* `Conn`'s two mutexes are fair to nobody: any of the requests that wait may get the lock.
-/
namespace Verif.Supersede

inductive Phase
  /-- has not looked for its connection -/
  | idle
  /-- has got the connection from the `ConnMap`, `sync3/handler/handler.go:406`, `sync3/connmap.go:112-134` -/
  | found
  /-- has set its callback, `sync3/handler/handler.go:408` -/
  | bound
  /-- has cancelled the request before it and is at `c.mu.Lock()`, `sync3/conn.go:139-144` -/
  | come
  /-- has the lock, `sync3/conn.go:145` -/
  | locked
  /-- has stored its cancel function and is served, `sync3/conn.go:147-250` -/
  | running
  | done
  deriving DecidableEq

structure St where
  phase : Nat → Phase := fun _ => .idle
  /-- `Conn.mu` -/
  mu : Option Nat := none
  /-- `Conn.cancelOutstandingRequest` -/
  out : Option Nat := none
  /-- `ConnState.cancelLatestReq` -/
  latest : Option Nat := none
  /-- the contexts that are cancelled. The context of `Conn` is made of that of the handler, so that each of the two cancel functions of
  a request does this. -/
  cancelled : Nat → Bool := fun _ => false
  /-- the `ConnMap` does not return the connection any more -/
  dead : Bool := false

inductive Op
  | find (i : Nat)
  | bind (i : Nat)
  /-- `serve` returns an error before it reaches `OnIncomingRequest`, `sync3/handler/handler.go:274-290` -/
  | drop (i : Nat)
  | arrive (i : Nat)
  | lock (i : Nat)
  | register (i : Nat)
  /-- the loop of `liveUpdate` sees that the context is cancelled, `sync3/handler/connstate_live.go:76-79` -/
  | quit (i : Nat)
  | finish (i : Nat)
  /-- the connection leaves the `ConnMap`, or its buffer is full: `sync3/connmap.go:189-199,224-243`, `sync3/handler/connstate_live.go:44` -/
  | close
  /-- `Destroy` -/
  | destroy
  deriving DecidableEq

def set {α : Type} (f : Nat → α) (i : Nat) (v : α) : Nat → α := fun j => if j = i then v else f j

/-- Calls a stored cancel function, if there is one. -/
def cancel (c : Nat → Bool) : Option Nat → Nat → Bool
  | none => c
  | some i => set c i true

/-- `none`: the step is not possible. -/
def step (s : St) : Op → Option St
  | .find i => if s.phase i = .idle ∧ s.dead = false then some { s with phase := set s.phase i .found } else none
  | .bind i => if s.phase i = .found then some { s with phase := set s.phase i .bound, latest := some i } else none
  | .drop i => if s.phase i = .bound then some { s with phase := set s.phase i .done } else none
  | .arrive i =>
    if s.phase i = .bound then some { s with phase := set s.phase i .come, cancelled := cancel s.cancelled s.out } else none
  | .lock i => if s.phase i = .come ∧ s.mu = none then some { s with phase := set s.phase i .locked, mu := some i } else none
  | .register i => if s.phase i = .locked then some { s with phase := set s.phase i .running, out := some i } else none
  | .quit i =>
    if s.phase i = .running ∧ s.cancelled i = true then some { s with phase := set s.phase i .done, mu := none } else none
  | .finish i => if s.phase i = .running then some { s with phase := set s.phase i .done, mu := none } else none
  | .close => some { s with dead := true }
  | .destroy => if s.dead then some { s with cancelled := cancel s.cancelled s.latest } else none

def run (s : St) : List Op → Option St
  | [] => some s
  | o :: os => (step s o).bind (run · os)

end Verif.Supersede
