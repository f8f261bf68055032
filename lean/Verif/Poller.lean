import Verif.Util
/-!
The v2 poller: the poll loop and the processing of a sync response (sync2/poller.go 491-955).

The receiver (the v2 handler behind `PollerMap`) is a parameter: a state and a function giving the new state
and the error returned. Every call made to it is logged together with the error. Events are identified by what
the poller reads of them. Logging, metrics and the HTTP request itself are not modelled; what the upstream server
answers, the clock and termination by others are inputs of each turn of the loop.
-/
namespace Verif.Poller

/-- An error returned by the receiver. `data` is a `DataError` (internal/errors.go 118-132). -/
inductive Err
  | nil
  | data
  | other
deriving DecidableEq, Repr

/-- sync2/poller.go 690-697 `shouldRetry`. Wrapping an error with `%w` (867-918) does not change the result. -/
def shouldRetry : Err → Bool
  | .nil => false
  | .data => false
  | .other => true

structure Ev where
  id : String
  type : String
  stateKey : Option String
  membership : String
deriving DecidableEq, Repr

/-- Ephemeral events by type; `other` types are skipped. -/
inductive Eph
  | typing (body : String)
  | receipt (body : String)
  | other
deriving DecidableEq, Repr

structure JoinRoom where
  id : String
  state : List Ev
  ephemeral : List Eph
  account : List String
  timeline : List Ev
  /-- highlight and notification count -/
  unread : Option Nat × Option Nat
deriving DecidableEq, Repr

structure LeaveRoom where
  id : String
  timeline : List Ev
deriving DecidableEq, Repr

structure InviteRoom where
  id : String
  state : List Ev
deriving DecidableEq, Repr

/-- sync2/client.go `SyncResponse`. The rooms are Go maps; the lists give the order of iteration. -/
structure Resp where
  nextBatch : String
  otk : List (String × Nat)
  fallback : Option (List String)
  changed : List String
  left : List String
  account : List String
  join : List JoinRoom
  leave : List LeaveRoom
  invite : List InviteRoom
  toDevice : List String
deriving DecidableEq, Repr

/-- Calls to the receiver. -/
inductive Call
  | e2ee (otk : Option (List (String × Nat))) (fallback : Option (List String)) (changed left : List String)
  | account (room : String) (events : List String)
  | initialise (room : String) (state : List Ev)
  | typing (room body : String)
  | receipt (room body : String)
  | accumulate (room : String) (timeline : List Ev)
  | unread (room : String) (counts : Option Nat × Option Nat)
  | leftRoom (room : String) (leave : Ev)
  | invite (room : String) (state : List Ev)
  | toDevice (msgs : List String)
deriving DecidableEq, Repr

/-- The receiver's state and the log. -/
structure M (σ : Type) where
  s : σ
  log : List (Call × Err)

variable {σ : Type}

abbrev Rcv (σ : Type) := σ → Call → σ × Err

/-- Calls without a result (typing, receipts, unread counts) return no error. -/
def Call.silent : Call → Bool
  | .typing .. => true
  | .receipt .. => true
  | .unread .. => true
  | _ => false

def call (rcv : Rcv σ) (m : M σ) (c : Call) : M σ × Err :=
  let r := rcv m.s c
  let e := if c.silent then .nil else r.2
  (⟨r.1, m.log ++ [(c, e)]⟩, e)

/-! ### E2EE data -/

/-- What the poller remembers. -/
structure Mem where
  otk : List (String × Nat) := []
  fallback : Option (List String) := none
deriving DecidableEq, Repr

/-- Reading a Go map of ints: zero if absent. -/
def count (m : List (String × Nat)) (k : String) : Nat :=
  match m.find? fun e => decide (e.1 = k) with
  | none => 0
  | some e => e.2

/-- sync2/poller.go 712-725: the counts to pass on (`none`: nil). -/
def changedOtk (mem res : List (String × Nat)) : Option (List (String × Nat)) :=
  if res.length > 0 then
    if mem.length ≠ res.length then some res
    else if res.any fun e => decide (e.2 ≠ count mem e.1) then some res
    else none
  else none

/-- The length of a slice; nil has length zero. -/
def len (l : Option (List String)) : Nat :=
  match l with
  | none => 0
  | some l => l.length

/-- sync2/poller.go 726-749: the fallback key types to pass on, and whether they are to be remembered. -/
def changedFallback (mem res : Option (List String)) : Option (List String) × Bool :=
  if len mem ≠ len res then (res, true)
  else if len res = 0 then
    if res.isNone ≠ mem.isNone then (some [], true) else (none, false)
  else if res ≠ mem then (res, true) else (none, false)

/-- sync2/poller.go 709-772 `parseE2EEData`. -/
def parseE2EE (rcv : Rcv σ) (m : M σ) (mem : Mem) (res : Resp) : M σ × Mem × Err :=
  let otk := changedOtk mem.otk res.otk
  let fb := changedFallback mem.fallback res.fallback
  let mem' : Mem :=
    { otk := if res.otk.length > 0 then res.otk else mem.otk
      fallback := if fb.2 then res.fallback else mem.fallback }
  if (!res.changed.isEmpty || !res.left.isEmpty) || fb.1.isSome || otk.isSome then
    let r := call rcv m (.e2ee otk fb.1 res.changed res.left)
    if r.2 ≠ .nil then (r.1, mem, r.2) else (r.1, mem', .nil)
  else (m, mem', .nil)

/-- sync2/poller.go 774-782 `parseGlobalAccountData`. -/
def parseAccount (rcv : Rcv σ) (m : M σ) (res : Resp) : M σ × Err :=
  if res.account.length = 0 then (m, .nil) else call rcv m (.account "" res.account)

/-- sync2/poller.go 699-707 `parseToDeviceMessages`. -/
def parseToDevice (rcv : Rcv σ) (m : M σ) (res : Resp) : M σ × Err :=
  if res.toDevice.length = 0 then (m, .nil) else call rcv m (.toDevice res.toDevice)

/-! ### Rooms -/

def Ev.isCreate (e : Ev) : Bool := decide (e.type = "m.room.create") && decide (e.stateKey = some "")

/-- sync2/poller.go 812-820: the first create event of the timeline and the timeline without it. -/
def takeCreate : List Ev → Option (Ev × List Ev)
  | [] => none
  | e :: t => if e.isCreate then some (e, t) else (takeCreate t).map fun r => (r.1, e :: r.2)

/-- sync2/poller.go 799-848: the state section of a joined room. The timeline that is left, and the error. -/
def initJoin (rcv : Rcv σ) (m : M σ) (r : JoinRoom) : M σ × List Ev × Err :=
  if r.state.length > 0 then
    let a := call rcv m (.initialise r.id r.state)
    if a.2 = .data then
      match takeCreate r.timeline with
      | none => (a.1, r.timeline, a.2)
      | some (c, tl) =>
        let b := call rcv a.1 (.initialise r.id (c :: r.state))
        (b.1, tl, b.2)
    else (a.1, r.timeline, a.2)
  else (m, r.timeline, .nil)

/-- sync2/poller.go 850-861: the ephemeral events. -/
def eph (rcv : Rcv σ) (room : String) (m : M σ) : Eph → M σ
  | .typing b => (call rcv m (.typing room b)).1
  | .receipt b => (call rcv m (.receipt room b)).1
  | .other => m

/-- sync2/poller.go 863-889: account data, timeline and unread counts. -/
def restJoin (rcv : Rcv σ) (m : M σ) (r : JoinRoom) (timeline : List Ev) : M σ × Err :=
  let a := if r.account.length > 0 then call rcv m (.account r.id r.account) else (m, .nil)
  if a.2 ≠ .nil then a
  else
    let b := if timeline.length > 0 then call rcv a.1 (.accumulate r.id timeline) else (a.1, .nil)
    if b.2 ≠ .nil then b
    else if r.unread.1.isSome || r.unread.2.isSome then call rcv b.1 (.unread r.id r.unread)
    else b

/-- sync2/poller.go 798-890: one turn of the loop over joined rooms; `nil` means no error was recorded. -/
def joinRoom (rcv : Rcv σ) (m : M σ) (r : JoinRoom) : M σ × Err :=
  let a := initJoin rcv m r
  if a.2.2 ≠ .nil then (a.1, a.2.2)
  else restJoin rcv (r.ephemeral.foldl (eph rcv r.id) a.1) r a.2.1

/-- A missing state key reads as the empty string. -/
def Ev.stateKeyStr (e : Ev) : String :=
  match e.stateKey with
  | none => ""
  | some k => k

/-- sync2/poller.go 903-909: the event passed to `OnLeftRoom`. -/
def leaveEvent (user : String) (timeline : List Ev) : Option Ev :=
  timeline.find? fun e => decide (e.membership = "leave") && decide (e.stateKeyStr = user)

/-- sync2/poller.go 891-918: one turn of the loop over left rooms. -/
def leaveRoom (rcv : Rcv σ) (user : String) (m : M σ) (r : LeaveRoom) : M σ × Err :=
  let a := if r.timeline.length > 0 then call rcv m (.accumulate r.id r.timeline) else (m, .nil)
  if a.2 ≠ .nil then a
  else match leaveEvent user r.timeline with
    | none => a
    | some e => call rcv a.1 (.leftRoom r.id e)

/-- sync2/poller.go 919-924. -/
def inviteRoom (rcv : Rcv σ) (m : M σ) (r : InviteRoom) : M σ × Err := call rcv m (.invite r.id r.state)

/-- A loop over rooms: errors are collected and do not stop it. -/
def loop {α : Type} (f : M σ → α → M σ × Err) (m : M σ) (rooms : List α) : M σ × List Err :=
  rooms.foldl (fun acc r => let x := f acc.1 r; (x.1, if x.2 ≠ .nil then acc.2 ++ [x.2] else acc.2)) (m, [])

/-- sync2/poller.go 931-954: the error to return. Joined errors are data errors (for `errors.As`) if any of them is; here
the joined lists have one kind only. -/
def joinErrs (errs : List Err) : Err :=
  match errs with
  | [] => .nil
  | [e] => e
  | es => if (es.filter shouldRetry).length > 0 then .other else .data

/-- sync2/poller.go 784-955 `parseRoomsResponse`. -/
def parseRooms (rcv : Rcv σ) (user : String) (m : M σ) (res : Resp) : M σ × Err :=
  let a := loop (joinRoom rcv) m res.join
  let b := loop (leaveRoom rcv user) a.1 res.leave
  let c := loop (inviteRoom rcv) b.1 res.invite
  (c.1, joinErrs (a.2 ++ b.2 ++ c.2))

/-! ### The loop -/

/-- sync2/poller.go 491-496 `pollLoopState`, with the fields of the poller that the loop writes. `lastStored` is the clock
at the last write of the since token (`none`: never). -/
structure Loop where
  firstTime : Bool := true
  failCount : Nat := 0
  since : String
  lastStored : Option Nat := none
  toDeviceOnly : Bool := false
  mem : Mem := {}
  terminated : Bool := false
  /-- the initial sync was announced (`wg.Done`) -/
  ready : Nat := 0
  /-- `OnExpiredToken` calls -/
  expired : Nat := 0
deriving DecidableEq, Repr

/-- What the upstream server answers. -/
inductive Reply
  | ok (r : Resp)
  | err (status : Nat)
deriving DecidableEq, Repr

/-- Input of one turn. -/
structure Turn where
  /-- terminated by others while asleep, or while the request was running -/
  killedBefore : Bool
  killedAfter : Bool
  reply : Reply
  /-- seconds -/
  now : Nat
  /-- writing the since token succeeds (its failure is only logged, sync2/handler2/handler.go 222-228) -/
  persistOk : Bool
deriving DecidableEq, Repr

/-- A poller and what it writes to: the receiver and the persisted since token. -/
structure World (σ : Type) where
  m : M σ
  lp : Loop
  persisted : String

/-- sync2/poller.go 595-628: the sections, in order, up to the first error to retry. The error kind is dropped: only
whether to retry matters. -/
def sections (rcv : Rcv σ) (user : String) (m : M σ) (mem : Mem) (res : Resp) : M σ × Mem × Bool :=
  let a := parseE2EE rcv m mem res
  if shouldRetry a.2.2 then (a.1, a.2.1, false)
  else
    let b := parseAccount rcv a.1 res
    if shouldRetry b.2 then (b.1, a.2.1, false)
    else
      let c := parseRooms rcv user b.1 res
      if shouldRetry c.2 then (c.1, a.2.1, false)
      else
        let d := parseToDevice rcv c.1 res
        if shouldRetry d.2 then (d.1, a.2.1, false)
        else (d.1, a.2.1, true)

/-- sync2/poller.go 630-653: after the sections. -/
def advance (lp : Loop) (persisted : String) (t : Turn) (res : Resp) : Loop × String :=
  let store := (match lp.lastStored with | none => true | some x => decide (t.now > x + 60)) ||
    decide (res.toDevice.length > 0)
  ({ lp with
      since := res.nextBatch
      lastStored := if store then some t.now else lp.lastStored
      firstTime := false
      ready := if lp.firstTime then lp.ready + 1 else lp.ready },
   if store && t.persistOk then res.nextBatch else persisted)

/-- sync2/poller.go 549-659 `poll`: the new world, and whether the loop goes on. -/
def poll (rcv : Rcv σ) (user : String) (w : World σ) (t : Turn) : World σ × Bool :=
  if w.lp.failCount > 1000 then
    ({ w with lp := { w.lp with terminated := true, expired := w.lp.expired + 1 } }, false)
  else if w.lp.terminated || t.killedBefore then
    ({ w with lp := { w.lp with terminated := true } }, false)
  else if t.killedAfter then
    ({ w with lp := { w.lp with terminated := true } }, false)
  else match t.reply with
    | .err status =>
      if status = 401 ∨ status = 403 then
        ({ w with lp := { w.lp with terminated := true, expired := w.lp.expired + 1 } }, false)
      else ({ w with lp := { w.lp with failCount := w.lp.failCount + 1 } }, true)
    | .ok res =>
      let r := sections rcv user w.m w.lp.mem res
      let lp := { w.lp with toDeviceOnly := false, failCount := 0, mem := r.2.1 }
      if r.2.2 then
        let a := advance lp w.persisted t res
        ({ m := r.1, lp := a.1, persisted := a.2 }, true)
      else ({ w with m := r.1, lp := { lp with failCount := lp.failCount + 1 } }, true)

/-- A new poller for the device, started from the persisted since token (sync2/poller.go 531-537,
sync2/handler2/handler.go 564-596), in this process or after a crash. -/
def restart (w : World σ) (toDeviceOnly : Bool) : World σ :=
  { w with lp := { since := w.persisted, toDeviceOnly := toDeviceOnly } }

end Verif.Poller
