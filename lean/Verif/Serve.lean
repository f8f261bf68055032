import Verif.Assoc
/-!
# Model of the reply to a request

`ServeHTTP`, `serve`, `setupConnection`, `identifyUnknownAccessToken` and `parseIntFromQuery` (`sync3/handler/handler.go:186-504,879-892`),
`ExtractAccessToken` (`internal/request.go:9-16`), `HandlerError` (`internal/errors.go:21-55`) and `Validate`
(`sync3/request.go:42-50`): which checks a request goes through, in which order, what the client is told when one fails, and what the
request has done by then to the connections.

What the database, the homeserver, the poller and the connection answer is given with the request. Simplified: logging, tracing, the
last-seen time and the delay before errors are left out; whether ranges are valid is given (C01); the connection answers with a
response, `M_UNKNOWN_POS` or an error without status (C15 to C18, `sync3/conn.go:137-250`); expiry of connections is left out.
-/
namespace Verif.Serve

abbrev Dev := String × String

structure Body where
  connId : String := ""
  txnId : String := ""
  /-- a list has ranges which are not valid -/
  badRanges : Bool := false
  deriving DecidableEq

inductive BodyIn
  /-- `ContentLength` is 0 -/
  | none
  | undecodable
  | some (b : Body)
  deriving DecidableEq

structure Req where
  post : Bool := true
  body : BodyIn := .none
  /-- the `Authorization` header, empty if there is none -/
  auth : String
  /-- the query parameters, empty if there are none -/
  pos : String := ""
  timeout : String := ""
  deriving DecidableEq

inductive Look | row (d : Dev) | noRow | fail
  deriving DecidableEq
inductive Who | dev (d : Dev) | rejected | fail
  deriving DecidableEq
inductive Answer | resp | unknownPos | err
  deriving DecidableEq
inductive Encode | ok | epipe | fail
  deriving DecidableEq

/-- What the others answer. -/
structure Env where
  lookup : String → Look
  whoami : String → Who
  insertOk : Bool := true
  /-- `EnsurePolling` reports an expired token -/
  expired : Bool := false
  /-- the client has gone when `EnsurePolling` returns -/
  gone : Bool := false
  cacheOk : Bool := true
  answer : Answer := .resp
  encode : Encode := .ok

/-- A connection: the request that made it and the request which is cancelled when it is destroyed. -/
structure Conn where
  born : Nat
  cancel : Nat
  deriving DecidableEq

structure State where
  conns : List ((Dev × String) × Conn) := []
  /-- tokens with a row -/
  rows : List (String × Dev) := []
  /-- the devices `EnsurePolling` was called for -/
  polled : List Dev := []
  deriving DecidableEq

inductive Reply
  /-- the handler panics; the HTTP server closes the connection without a reply -/
  | crash
  | reply (status : Nat) (code : String)
  /-- 200 was sent and then the response could not be written -/
  | broken
  deriving DecidableEq

/-- A `HandlerError`; `nilErr` is an `Err` that is nil, and `sent` says that the status of the reply has been written. -/
structure HErr where
  status : Nat
  code : String := ""
  nilErr : Bool := false
  sent : Bool := false
  deriving DecidableEq

/-- `strings.TrimPrefix`. -/
def trimPrefix (s p : List Char) : List Char := if p.isPrefixOf s then s.drop p.length else s

/-- `ExtractAccessToken`, `internal/request.go:9-16`: `none` is the error. -/
def extract (auth : String) : Option String :=
  if auth = "" then none else some (String.ofList (trimPrefix auth.toList "Bearer ".toList))

/-- The digits of `strconv.ParseInt` with base 10: no digits and other characters are errors. -/
def digits : List Char → Option Nat
  | [] => none
  | cs => cs.foldl (fun a c => a.bind fun n => if '0' ≤ c ∧ c ≤ '9' then some (10 * n + (c.toNat - '0'.toNat)) else none) (some 0)

/-- `strconv.ParseInt(s, 10, 64)`: a sign and digits, within 64 bits. -/
def parseInt (s : List Char) : Option Int :=
  match s with
  | '-' :: cs => (digits cs).bind fun n => if n ≤ 2 ^ 63 then some (-(n : Int)) else none
  | '+' :: cs => (digits cs).bind fun n => if n < 2 ^ 63 then some (n : Int) else none
  | cs => (digits cs).bind fun n => if n < 2 ^ 63 then some (n : Int) else none

/-- `parseIntFromQuery`, `handler.go:879-892`. -/
def parseQuery (s : String) : Except HErr Int :=
  if s = "" then .ok 0
  else match parseInt s.toList with
    | none => .error { status := 400 }
    | some n => .ok n

/-- The body, `handler.go:225-242,252-259`, with `Validate`, `sync3/request.go:42-50`. -/
def readBody : BodyIn → Except HErr Body
  | .none => .ok {}
  | .undecodable => .error { status := 400 }
  | .some b =>
    if 16 < b.connId.utf8ByteSize then .error { status := 400 }
    else if 64 < b.txnId.utf8ByteSize then .error { status := 400 }
    else if b.badRanges then .error { status := 400 }
    else .ok b

/-- `identifyUnknownAccessToken`, `handler.go:463-504`. -/
def identify (s : State) (e : Env) (tok : String) : State × Except HErr Dev :=
  match e.whoami tok with
  | .rejected => (s, .error { status := 401, code := "M_UNKNOWN_TOKEN" })
  | .fail => (s, .error { status := 502 })
  | .dev d => if e.insertOk then ({ s with rows := Assoc.set s.rows tok d }, .ok d) else (s, .error { status := 500 })

/-- The token, `handler.go:353-381`. -/
def authenticate (s : State) (e : Env) (auth : String) : State × Except HErr Dev :=
  match extract auth with
  | none => (s, .error { status := 401 })
  | some tok =>
    if tok = "" then (s, .error { status := 401, nilErr := true })
    else match e.lookup tok with
      | .row d => (s, .ok d)
      | .fail => (s, .error { status := 500 })
      | .noRow => identify s e tok

/-- The connection, `handler.go:398-460`; `n` is the number of the request. -/
def connect (s : State) (n : Nat) (e : Env) (d : Dev) (cid : String) (pos : String) : State × Except HErr Unit :=
  if pos ≠ "" then
    match Assoc.get s.conns (d, cid) with
    | some c => ({ s with conns := Assoc.set s.conns (d, cid) { c with cancel := n } }, .ok ())
    | none => (s, .error { status := 400, code := "M_UNKNOWN_POS" })
  else
    let s := { s with polled := s.polled ++ [d] }
    if e.expired then (s, .error { status := 401, code := "M_UNKNOWN_TOKEN" })
    else if e.gone then (s, .error { status := 400 })
    else if !e.cacheOk then (s, .error { status := 500 })
    else ({ s with conns := Assoc.set s.conns (d, cid) { born := n, cancel := n } }, .ok ())

/-- The rest of `serve`, `handler.go:276-342`: `none` is success. -/
def finish (e : Env) (r : Req) : Option HErr :=
  match parseQuery r.pos with
  | .error h => some h
  | .ok _ =>
    match (if r.timeout = "" then .ok 0 else parseQuery r.timeout) with
    | .error h => some h
    | .ok _ =>
      match e.answer with
      | .unknownPos => some { status := 400, code := "M_UNKNOWN_POS" }
      | .err => some { status := 500 }
      | .resp =>
        match e.encode with
        | .ok => none
        | .epipe => some { status := 499, sent := true }
        | .fail => some { status := 500, sent := true }

/-- `serve`, `handler.go:213-342`. -/
def serve (s : State) (n : Nat) (e : Env) (r : Req) : State × Option HErr :=
  match readBody r.body with
  | .error h => (s, some h)
  | .ok b =>
    match authenticate s e r.auth with
    | (s, .error h) => (s, some h)
    | (s, .ok d) =>
      match connect s n e d b.connId r.pos with
      | (s, .error h) => (s, some h)
      | (s, .ok ()) => (s, finish e r)

/-- `ServeHTTP`, `handler.go:186-211`. The text of an error with no `Err` is the one of nil, which panics (`internal/errors.go:27-29`). A
second status is ignored. -/
def serveHTTP (s : State) (n : Nat) (e : Env) (r : Req) : State × Reply :=
  if !r.post then (s, .reply 405 "")
  else match serve s n e r with
    | (s, none) => (s, .reply 200 "")
    | (s, some h) => if h.nilErr then (s, .crash) else if h.sent then (s, .broken) else (s, .reply h.status h.code)

end Verif.Serve
