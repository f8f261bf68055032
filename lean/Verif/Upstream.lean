import Verif.Poller
/-!
# Model of how answers of the homeserver are read

`DoSyncV2` and `WhoAmI` (`sync2/client.go:88-146`), the decoding of a sync response into Go structs (`encoding/json`, for the types
of `sync2/client.go:189-251`), and what `identifyUnknownAccessToken` makes of an answer (`sync3/handler/handler.go:463-479`).

A JSON text is given by its value, with the fields of objects in the order of the text and possibly repeated. The types of the
response are a small universe of types with one decoder. Simplified: an array that is decoded into a slice a second time, under a
repeated key, is decoded afresh (Go re-uses the elements of the first for `null`); a number is an integer or is not; a request that
cannot be built (a bad address of the homeserver in the configuration, which makes `DoSyncV2` panic) is not modelled.
-/
namespace Verif.Upstream

/-- A JSON value. `frac` is a number that is not an integer literal. -/
inductive J
  | null
  | bool (b : Bool)
  | int (n : Int)
  | frac
  | str (s : String)
  | arr (l : List J)
  | obj (l : List (String × J))

mutual
/-- The types that occur in `SyncResponse`. -/
inductive T
  | str
  | int
  | bool
  /-- `*int` -/
  | optInt
  /-- `[]string` -/
  | strs
  /-- `[]json.RawMessage` -/
  | raws
  /-- `map[string]…` -/
  | map (t : T)
  | struct (fs : Fs)
/-- The fields of a struct, with the names of their tags. -/
inductive Fs
  | nil
  | cons (name : String) (t : T) (fs : Fs)
end

mutual
/-- The Go values of a type. Slices, maps and pointers can be nil. -/
@[reducible] def T.den : T → Type
  | .str => String
  | .int => Int
  | .bool => Bool
  | .optInt => Option Int
  | .strs => Option (List String)
  | .raws => Option (List J)
  | .map t => Option (List (String × t.den))
  | .struct fs => fs.den
@[reducible] def Fs.den : Fs → Type
  | .nil => Unit
  | .cons _ t fs => t.den × fs.den
end

mutual
/-- The zero value of a type. -/
def T.zero : (t : T) → t.den
  | .str => ""
  | .int => (0 : Int)
  | .bool => false
  | .optInt => (none : Option Int)
  | .strs => (none : Option (List String))
  | .raws => (none : Option (List J))
  | .map t => (none : Option (List (String × t.den)))
  | .struct fs => fs.zero
def Fs.zero : (fs : Fs) → fs.den
  | .nil => ()
  | .cons _ t fs => (t.zero, fs.zero)
end

def Fs.names : Fs → List String
  | .nil => []
  | .cons n _ fs => n :: fs.names

/-- An `int` has 64 bits. -/
def fits (n : Int) : Bool := decide (-2 ^ 63 ≤ n) && decide (n < 2 ^ 63)

/-- A map with a key set. -/
def setKey {α : Type} (m : List (String × α)) (k : String) (v : α) : List (String × α) :=
  if m.any (fun e => e.1 == k) then m.map fun e => if e.1 = k then (k, v) else e else m ++ [(k, v)]

/-- An element of a `[]string`. -/
def elem : J → Option String
  | .str s => some s
  | .null => some ""
  | _ => none

variable (fold : String → String)

mutual
/-- `encoding/json`: a value is decoded into a variable that holds `v`; `none` is an error. -/
def decode : (t : T) → t.den → J → Option t.den
  | .str, v, j =>
    match j with
    | .null => some v
    | .str s => some s
    | _ => none
  | .int, v, j =>
    match j with
    | .null => some v
    | .int n => if fits n then some n else none
    | _ => none
  | .bool, v, j =>
    match j with
    | .null => some v
    | .bool b => some b
    | _ => none
  | .optInt, _, j =>
    match j with
    | .null => some none
    | .int n => if fits n then some (some n) else none
    | _ => none
  | .strs, _, j =>
    match j with
    | .null => some none
    | .arr l => (l.mapM elem).map some
    | _ => none
  | .raws, _, j =>
    match j with
    | .null => some none
    | .arr l => some (some l)
    | _ => none
  | .map t, v, j =>
    match j with
    | .null => some none
    | .obj es => (es.foldlM (fun m e => (decode t t.zero e.2).map fun x => setKey m e.1 x) (v.getD [])).map some
    | _ => none
  | .struct fs, v, j =>
    match j with
    | .null => some v
    | .obj es =>
      -- the field of exactly this name, or else one whose name is the same but for the case of its letters
      es.foldlM (fun v e => put fs (fun n => if e.1 ∈ fs.names then n == e.1 else fold n == fold e.1) v e.2) v
    | _ => none
/-- Into the first field whose name is as wanted, if there is one. -/
def put : (fs : Fs) → (String → Bool) → fs.den → J → Option fs.den
  | .nil, _, v, _ => some v
  | .cons n t fs, p, v, j =>
    if p n then (decode t v.1 j).map fun x => (x, v.2) else (put fs p v.2 j).map fun x => (v.1, x)
end

/-! ## The response of `/sync` -/

/-- `EventsResponse`, `sync2/client.go:232-234`. -/
@[reducible] def events : T := .struct (.cons "events" .raws .nil)

/-- `TimelineResponse`, `sync2/client.go:226-230`. -/
@[reducible] def timeline : T := .struct (.cons "events" .raws (.cons "limited" .bool (.cons "prev_batch" .str .nil)))

/-- `SyncV2JoinResponse`, `sync2/client.go:212-224`. -/
@[reducible] def join : T :=
  .struct (.cons "state" events (.cons "timeline" timeline (.cons "ephemeral" events (.cons "account_data" events
    (.cons "unread_notifications" (.struct (.cons "highlight_count" .optInt (.cons "notification_count" .optInt .nil))) .nil)))))

/-- `SyncV2InviteResponse`, `sync2/client.go:237-239`. -/
@[reducible] def invite : T := .struct (.cons "invite_state" events .nil)

/-- `SyncV2LeaveResponse`, `sync2/client.go:242-251`. -/
@[reducible] def leave : T := .struct (.cons "state" events (.cons "timeline" timeline .nil))

/-- `SyncResponse`, `sync2/client.go:189-209`. -/
@[reducible] def sync : T :=
  .struct (.cons "next_batch" .str (.cons "account_data" events (.cons "presence" events
    (.cons "rooms" (.struct (.cons "join" (.map join) (.cons "invite" (.map invite) (.cons "leave" (.map leave) .nil))))
    (.cons "to_device" events (.cons "device_lists" (.struct (.cons "changed" .strs (.cons "left" .strs .nil)))
    (.cons "device_one_time_keys_count" (.map .int) (.cons "device_unused_fallback_key_types" .strs .nil))))))))

/-- An answer of the homeserver: none (an error of the connection, a timeout), or a status and the body if it is JSON. -/
inductive Answer
  | none
  | http (status : Nat) (body : Option J)

/-- `DoSyncV2`, `sync2/client.go:131-145`: the response, or the status that is returned with the error. -/
def doSync : Answer → Except Nat sync.den
  | .none => .error 0
  | .http status body =>
    if status = 200 then
      match body with
      | .none => .error 0
      | some j =>
        match decode fold sync sync.zero j with
        | some v => .ok v
        | none => .error 0
    else .error status

/-- What the poller reads of an event. -/
structure Reader where
  text : J → String
  ev : J → Poller.Ev
  eph : J → Poller.Eph

/-- A room under `join`. Negative counts are not modelled further on. -/
def joinRoom (R : Reader) (e : String × join.den) : Poller.JoinRoom :=
  { id := e.1
    state := (e.2.1.1.getD []).map R.ev
    ephemeral := (e.2.2.2.1.1.getD []).map R.eph
    account := (e.2.2.2.2.1.1.getD []).map R.text
    timeline := (e.2.2.1.1.getD []).map R.ev
    unread := (e.2.2.2.2.2.1.1.map Int.toNat, e.2.2.2.2.2.1.2.1.map Int.toNat) }

def leaveRoom (R : Reader) (e : String × leave.den) : Poller.LeaveRoom := ⟨e.1, (e.2.2.1.1.getD []).map R.ev⟩

def inviteRoom (R : Reader) (e : String × invite.den) : Poller.InviteRoom := ⟨e.1, (e.2.1.1.getD []).map R.ev⟩

/-- The response as the sections of `poll` go through it, `sync2/poller.go:699-955`: Go's maps are iterated in any order. -/
structure Reads (R : Reader) (v : sync.den) (res : Poller.Resp) : Prop where
  nextBatch : res.nextBatch = v.1
  account : res.account = (v.2.1.1.getD []).map R.text
  join : res.join.Perm ((v.2.2.2.1.1.getD []).map (joinRoom R))
  invite : res.invite.Perm ((v.2.2.2.1.2.1.getD []).map (inviteRoom R))
  leave : res.leave.Perm ((v.2.2.2.1.2.2.1.getD []).map (leaveRoom R))
  toDevice : res.toDevice = (v.2.2.2.2.1.1.getD []).map R.text
  changed : res.changed = v.2.2.2.2.2.1.1.getD []
  left : res.left = v.2.2.2.2.2.1.2.1.getD []
  otk : res.otk.Perm ((v.2.2.2.2.2.2.1.getD []).map fun e => (e.1, e.2.toNat))
  fallback : res.fallback = v.2.2.2.2.2.2.2.1

/-- What the poller gets of an answer, `sync2/poller.go:577`. -/
inductive Gets (R : Reader) (a : Answer) : Poller.Reply → Prop
  | err (status : Nat) (h : doSync fold a = .error status) : Gets R a (.err status)
  | ok (v : sync.den) (res : Poller.Resp) (h : doSync fold a = .ok v) (hr : Reads R v res) : Gets R a (.ok res)

/-! ## `/whoami` -/

/-- `gjson`'s `Get(k).Str`: the first field of this name, if it is a text. -/
def getStr (j : J) (k : String) : String :=
  match j with
  | .obj es =>
    match es.find? fun e => e.1 == k with
    | some (_, .str s) => s
    | _ => ""
  | _ => ""

inductive Who
  /-- `HTTP401` -/
  | refused
  | failed
  | is (user device : String)
  deriving DecidableEq

/-- `WhoAmI`, `sync2/client.go:88-114`. `gjson` makes something of any text: `junk`, if it is not JSON. -/
def whoAmI (junk : String × String) : Answer → Who
  | .none => .failed
  | .http status body =>
    if status ≠ 200 then if status = 401 then .refused else .failed
    else
      match body with
      | .none => .is junk.1 junk.2
      | some j => .is (getStr j "user_id") (getStr j "device_id")

/-- `identifyUnknownAccessToken`, `sync3/handler/handler.go:465-479`: the status and code of the error, or who is stored as the owner of
the token. -/
def identify (junk : String × String) (a : Answer) : Except (Nat × String) (String × String) :=
  match whoAmI junk a with
  | .refused => .error (401, "M_UNKNOWN_TOKEN")
  | .failed => .error (502, "")
  | .is u d => .ok (u, d)

end Verif.Upstream
