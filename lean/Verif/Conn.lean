/-!
# Model of `sync3/conn.go`

One connection: positions, retransmits and the buffer of unacknowledged
responses.  The request handler is arbitrary: each request comes with the
result the handler would give (`none` = error or recovered panic,
`sync3/conn.go:93-122`).  The mutex makes requests atomic
(`sync3/conn.go:138-153`), so a connection is a state machine over requests.
Waiting times and the injected low timeout (line 221) are not modelled.
Simplified: the remembered request is the one sent; that its extension objects can be changed afterwards is in `SharedReq`.
-/
namespace Verif.Conn

/-- A request: its position and its body without `txn_id`, serialised
(`Request.Same`, `sync3/request.go:275-291`, compares exactly these bytes;
`pos` and the timeout are unexported and not serialised). -/
structure Req (β : Type _) where
  pos : Int
  body : β
  deriving DecidableEq, Repr

/-- A response with its position. -/
structure Resp (ρ : Type _) where
  pos : Int
  data : ρ
  deriving DecidableEq, Repr

/-- `Conn`, `sync3/conn.go:43-66`. -/
structure State (β ρ : Type _) where
  last : Req β
  buf : List (Resp ρ)
  lastPos : Int
  deriving DecidableEq, Repr

/-- `NewConn`, `sync3/conn.go:68-75`; `zero` is the body of Go's zero request. -/
def init {β ρ} (zero : β) : State β ρ := ⟨⟨0, zero⟩, [], 0⟩

/-- What the client gets, and whether the handler ran. `nilResp` is the pair
`(nil, nil)`, which the caller dereferences (`sync3/handler/handler.go:299`). -/
inductive Out (ρ : Type _)
  | expired
  | cached (r : Resp ρ)
  | fresh (r : Resp ρ)
  | failed
  | nilResp
  deriving DecidableEq, Repr

/-- `isOutstanding`, `sync3/conn.go:124-131`. -/
def isOutstanding {ρ} (buf : List (Resp ρ)) (pos : Int) : Bool := buf.any fun r => r.pos = pos

/-- The purge loop, `sync3/conn.go:170-184`: number of leading elements to
slice off (`delIndex + 1`) and the first response newer than `pos`.  `i` is the
loop index, `del` the value of `delIndex + 1` so far. -/
def scan {ρ} (pos : Int) : Nat → Nat → List (Resp ρ) → Nat × Option (Resp ρ)
  | _, del, [] => (del, none)
  | i, del, r :: rs =>
    if pos > r.pos then scan pos (i + 1) (i + 1) rs
    else if pos < r.pos then (del, some r)
    else scan pos (i + 1) del rs

variable {β ρ : Type _} [DecidableEq β]

/-- `OnIncomingRequest`, `sync3/conn.go:137-250`. -/
def step (s : State β ρ) (req : Req β) (handler : Option ρ) : State β ρ × Out ρ :=
  let isFirst : Bool := req.pos = 0
  let isRetransmit : Bool := !isFirst && s.last.pos = req.pos
  let isSame : Bool := !isFirst && s.last.body = req.body
  if !isFirst && !isRetransmit && !isOutstanding s.buf req.pos then (s, .expired)
  else
    let (del, next) := scan req.pos 0 0 s.buf
    let buf := s.buf.drop del
    let s' := { s with buf := buf }
    if isRetransmit && isSame then
      match next with
      | some r => (s', .cached r)
      | none => (s', .nilResp)
    else
      match next, isSame with
      | some r, true => (s', .cached r)
      | _, _ =>
        match handler with
        | none => (s', .failed)
        | some d =>
          let resp : Resp ρ := ⟨s.lastPos + 1, d⟩
          let s'' : State β ρ := ⟨req, buf ++ [resp], resp.pos⟩
          match next with
          | some r => (s'', .fresh r)
          | none => (s'', .fresh resp)

/-- Run a sequence of requests from a new connection. -/
def run (zero : β) (ts : List (Req β × Option ρ)) : State β ρ :=
  ts.foldl (fun s t => (step s t.1 t.2).1) (init zero)

end Verif.Conn
