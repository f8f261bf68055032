import Verif.Conn
import Verif.Extensions
/-!
# Model of request objects shared between `sync3/conn.go` and the sticky request

`Conn` keeps the last request as `lastClientRequest = *req`, a shallow copy: the extension objects are the ones of the request, and
they are also the ones of the sticky request `ConnState.muxedReq` if the request was the first with that extension.
`Request.ApplyDelta` writes to these objects, so it can change what the next request is compared to.

Heap: each request has a block with one object for each of the five extensions. Simplified: the rest of the request is immutable
(its maps and slices are only read); the `limit` and `since` of the to-device extension are left out.
-/
namespace Verif.SharedReq

open Verif.Extensions (Core interpretAsInitial coreDelta)

/-- The fields of `extensions.Request`, `sync3/extensions/extensions.go:162-168`, in the order of `fields()`. -/
abbrev Exts := Fin 5 → Option Core

instance : DecidableEq Exts := fun f g => decidable_of_iff (∀ i, f i = g i) funext_iff.symm

/-- A request as parsed. -/
structure Req (β : Type) where
  pos : Int
  rest : β
  exts : Exts

/-- How the handler ends: with a response, or with a panic before or after `ApplyDelta` (`sync3/handler/connstate.go:174-198`). -/
inductive Res (ρ : Type)
  | ok (d : ρ)
  | early
  | late

def Res.toOption {ρ : Type} : Res ρ → Option ρ
  | .ok d => some d
  | _ => none

structure State (β ρ : Type) where
  heap : Nat → Exts
  next : Nat
  /-- the blocks the objects of `muxedReq.Extensions` are in -/
  mux : Fin 5 → Option Nat
  /-- the block of `lastClientRequest.Extensions` -/
  owner : Nat
  lastRest : β
  lastReq : Int
  buf : List (Conn.Resp ρ)
  lastPos : Int

/-- A new connection; block 0 is the one of the zero request. -/
def init {β ρ : Type} (zero : β) : State β ρ := ⟨fun _ _ => none, 1, fun _ => none, 0, zero, 0, [], 0⟩

/-- The connection as `Request.Same` sees it, `sync3/request.go:275-291`. -/
def State.conn {β ρ : Type} (s : State β ρ) : Conn.State (β × Exts) ρ :=
  ⟨⟨s.lastReq, (s.lastRest, s.heap s.owner)⟩, s.buf, s.lastPos⟩

/-- `Request.ApplyDelta` of the extensions for the request in block `n`, `sync3/extensions/extensions.go:201-227` (and `:229-245`
for the first request, `sync3/request.go:315-319`): the objects. -/
def deltaHeap (heap : Nat → Exts) (mux : Fin 5 → Option Nat) (n : Nat) : Nat → Exts := fun k i =>
  match heap n i with
  | none => heap k i
  | some c =>
    match mux i with
    | none => if k = n then some (interpretAsInitial c) else heap k i
    | some m => if k = m then (heap m i).map (fun d => coreDelta d c) else heap k i

/-- The pointers. -/
def deltaMux (heap : Nat → Exts) (mux : Fin 5 → Option Nat) (n : Nat) : Fin 5 → Option Nat := fun i =>
  match heap n i with
  | none => mux i
  | some _ => some ((mux i).getD n)

variable {β ρ : Type} [DecidableEq β]

/-- The objects of the request are allocated by the JSON decoder. -/
def alloc (s : State β ρ) (req : Req β) : State β ρ :=
  { s with heap := fun k => if k = s.next then req.exts else s.heap k, next := s.next + 1 }

/-- What `OnIncomingRequest` of `sync3/conn.go:137-250` does. -/
def answer (s : State β ρ) (req : Req β) (h : Res ρ) : Conn.State (β × Exts) ρ × Conn.Out ρ :=
  Conn.step (alloc s req).conn ⟨req.pos, (req.rest, req.exts)⟩ h.toOption

/-- The handler ran and got to `ApplyDelta`. -/
def ran (o : Conn.Out ρ) (h : Res ρ) : Bool :=
  match o, h with
  | .fresh _, _ => true
  | .failed, .late => true
  | _, _ => false

/-- `OnIncomingRequest`, `sync3/conn.go:137-250`, with the effects on shared objects. -/
def step (s : State β ρ) (req : Req β) (h : Res ρ) : State β ρ × Conn.Out ρ :=
  let (c, o) := answer s req h
  let s1 := { alloc s req with buf := c.buf, lastPos := c.lastPos }
  let s2 := if ran o h then { s1 with heap := deltaHeap s1.heap s1.mux s.next, mux := deltaMux s1.heap s1.mux s.next } else s1
  match o with
  | .fresh _ => ({ s2 with owner := s.next, lastRest := req.rest, lastReq := req.pos }, o)
  | _ => (s2, o)

def run (zero : β) (ts : List (Req β × Res ρ)) : State β ρ := ts.foldl (fun s t => (step s t.1 t.2).1) (init zero)

/-- The settings of an extension, as the handlers see them. -/
def State.setting (s : State β ρ) (i : Fin 5) : Option Core := (s.mux i).bind fun m => s.heap m i

end Verif.SharedReq
