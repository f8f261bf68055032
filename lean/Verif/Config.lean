/-!
# Model of how the proxy is configured and served

`main` (`cmd/syncv3/main.go:83-237`), the options that `Setup` takes of it (`v3.go:90-116`), the listeners, the choice of the transport
(`v3.go:217-239`), the chain of handlers (`v3.go:68-74`) and `allowCORS` (`v3.go:76-87`).

The environment gives a text for each variable, an empty one for those that are not set (`os.Getenv`).  Simplified: `strconv.Atoi` is a
parameter; what listens where is a list, in the order in which the goroutines are started; tracing, Sentry and the log level have no
effect here, and configuring the first two does not fail; the database can be opened and migrated.
-/
namespace Verif.Config

abbrev Env := String → String

/-- `defaulting`, `cmd/syncv3/main.go:83-88`. -/
def defaulting (s dft : String) : String := if s = "" then dft else s

/-- What is registered at an address: the default mux of the process or the proxy's own router. -/
inductive Mux
  | default
  | proxy
  deriving DecidableEq

inductive Transport
  | unix
  | tls
  | plain
  deriving DecidableEq

/-- Pages. The debug pages are registered with the default mux by the import, `cmd/syncv3/main.go:8`. -/
inductive Page
  | debug
  | metrics
  | sync
  deriving DecidableEq

structure Opts where
  server : String
  db : String
  secret : String
  /-- the limit on connections that is set, if one is, `v3.go:107-112` -/
  maxConns : Option Int
  /-- the longest time a connection is idle, if it is set, `v3.go:113-115` -/
  idle : Option Int
  httpTimeout : Int
  httpLongTimeout : Int
  prometheus : Bool
  deriving DecidableEq

/-- What the process does, in order. -/
inductive Eff
  | listen (addr : String) (m : Mux) (t : Transport)
  /-- `/metrics` is added to the default mux -/
  | metrics
  | setup (o : Opts)
  | help
  | exit
  | panic
  deriving DecidableEq

/-- `cmd/syncv3/main.go:100-119`. -/
def args (e : Env) (k : String) : String :=
  if k = "SYNCV3_BINDADDR" then defaulting (e k) "0.0.0.0:8008"
  else if k = "SYNCV3_MAX_DB_CONN" then defaulting (e k) "0"
  else if k = "SYNCV3_DB_IDLE_TIMEOUT_SECS" then defaulting (e k) "3600"
  else if k = "SYNCV3_HTTP_TIMEOUT_SECS" then defaulting (e k) "300"
  else if k = "SYNCV3_HTTP_INITIAL_TIMEOUT_SECS" then defaulting (e k) "1800"
  else e k

/-- `IsUnixSocket`, `internal/util.go:23-25`. -/
def isUnix (s : String) : Bool := s.toList.head? == some '/'

/-- `RunSyncV3Server`, `v3.go:219-233`. -/
def transport (bind cert key : String) : Transport :=
  if isUnix bind then .unix else if cert ≠ "" ∧ key ≠ "" then .tls else .plain

/-- `cmd/syncv3/main.go:120-133`. -/
def acceptable (a : String → String) : Bool :=
  ["SYNCV3_SERVER", "SYNCV3_DB", "SYNCV3_SECRET", "SYNCV3_BINDADDR"].all (fun k => a k ≠ "") &&
  !((a "SYNCV3_TLS_CERT" ≠ "" || a "SYNCV3_TLS_KEY" ≠ "") && (a "SYNCV3_TLS_CERT" = "" || a "SYNCV3_TLS_KEY" = ""))

/-- The listeners for debugging and metrics, `cmd/syncv3/main.go:134-151`. -/
def extra (a : String → String) : List Eff :=
  (if a "SYNCV3_PPROF" ≠ "" then [.listen (a "SYNCV3_PPROF") .default .plain] else []) ++
  (if a "SYNCV3_PROM" ≠ "" then [.metrics, .listen (a "SYNCV3_PROM") .default .plain] else [])

/-- `cmd/syncv3/main.go:197-220`, `v3.go:107-115`. -/
def opts (num : String → Option Int) (a : String → String) : Option Opts :=
  (num (a "SYNCV3_MAX_DB_CONN")).bind fun conns =>
  (num (a "SYNCV3_DB_IDLE_TIMEOUT_SECS")).bind fun idle =>
  (num (a "SYNCV3_HTTP_TIMEOUT_SECS")).bind fun t =>
  (num (a "SYNCV3_HTTP_INITIAL_TIMEOUT_SECS")).map fun lt =>
    { server := a "SYNCV3_SERVER", db := a "SYNCV3_DB", secret := a "SYNCV3_SECRET"
      maxConns := if conns > 0 then some conns else none
      idle := if idle > 0 then some idle else none
      httpTimeout := t, httpLongTimeout := lt, prometheus := a "SYNCV3_PROM" ≠ "" }

/-- `main`, `cmd/syncv3/main.go:90-237`. -/
def main (num : String → Option Int) (e : Env) : List Eff :=
  let a := args e
  if !acceptable a then [.help, .exit]
  else extra a ++
    match opts num a with
    | none => [.panic]
    | some o => [.setup o, .listen (a "SYNCV3_BINDADDR") .proxy (transport (a "SYNCV3_BINDADDR") (a "SYNCV3_TLS_CERT") (a "SYNCV3_TLS_KEY"))]

/-- The pages a client gets at an address. The default mux is one for the whole process. -/
def serves (effs : List Eff) (addr : String) (p : Page) : Bool :=
  effs.any fun
    | .listen a .default _ => a == addr && match p with
      | .debug => true
      | .metrics => effs.any (· == .metrics)
      | .sync => false
    | .listen a .proxy _ => a == addr && p == .sync
    | _ => false

/-! ## The handlers -/

/-- A handler: a request makes a reply. -/
abbrev Handler (α β : Type) := α → β

/-- `ServeHTTP`, `v3.go:68-74`: the loop wraps the last of the chain first. -/
def serveHTTP {α β : Type} (chain : List (Handler α β → Handler α β)) (final : Handler α β) : Handler α β :=
  (List.range chain.length).foldl (fun h i =>
    match chain[chain.length - 1 - i]? with
    | some m => m h
    | none => h) final

structure Reply where
  status : Nat
  headers : List (String × String)
  body : String
  deriving DecidableEq

def corsHeaders : List (String × String) :=
  [("Access-Control-Allow-Origin", "*"), ("Access-Control-Allow-Methods", "GET, POST, PUT, DELETE, OPTIONS"),
   ("Access-Control-Allow-Headers", "Origin, X-Requested-With, Content-Type, Accept, Authorization")]

/-- `allowCORS`, `v3.go:76-87`. A handler is given the headers that are set and returns those that are sent. -/
def allowCORS {α : Type} (method : α → String) (next : α → List (String × String) → Reply) (r : α) (hs : List (String × String)) : Reply :=
  let hs := hs.filter (fun h => !(corsHeaders.any fun c => c.1 == h.1)) ++ corsHeaders
  if method r = "OPTIONS" then ⟨200, hs, ""⟩ else next r hs

end Verif.Config
