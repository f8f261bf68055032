import Verif.SqlUtil
/-!
Receipts: packing and unpacking of `m.receipt` events and the two tables (state/receipt_table.go), the live
split into public and private (sync3/handler/handler.go 756-786, sync3/dispatcher.go 242-265) and the
receipts extension (sync3/extensions/receipts.go 34-129).

JSON encoding is not modelled: an EDU is its type and content. The content is a map from event id to two maps
(`m.read`, `m.read.private`) from user id to receipt; here it is one list of entries with distinct
keys (event, private?, user). Reading a Go map yields the entries in any order, so reading is a relation.
-/
namespace Verif.Receipts

/-- internal/receipts.go. -/
structure Receipt where
  room : String
  event : String
  user : String
  ts : Int
  thread : String
  priv : Bool
deriving DecidableEq, Repr

/-- state/receipt_table.go 23-26 `receiptInfo`. -/
structure Info where
  ts : Int
  thread : String
deriving DecidableEq, Repr

/-- Event, private?, user. -/
abbrev Key := String × Bool × String

abbrev Content := List (Key × Info)

/-- state/receipt_table.go 13-16 `receiptEDU`. -/
structure Edu where
  type : String
  content : Content
deriving DecidableEq, Repr

def Receipt.key (r : Receipt) : Key := (r.event, r.priv, r.user)

def get (c : Content) (k : Key) : Option Info := (c.find? fun e => decide (e.1 = k)).map (·.2)

/-- Map assignment. -/
def set (c : Content) (k : Key) (i : Info) : Content :=
  if (get c k).isSome then c.map fun e => if e.1 = k then (k, i) else e else c ++ [(k, i)]

/-- state/receipt_table.go 172-201: one turn of the loop (the two branches differ in the map used only). -/
def packOne (c : Content) (r : Receipt) : Content :=
  let thisReceiptIsUnthreaded := decide (r.thread = "")
  let receiptAlreadyExists := (get c r.key).isSome
  if !receiptAlreadyExists || (receiptAlreadyExists && thisReceiptIsUnthreaded) then
    set c r.key ⟨r.ts, r.thread⟩
  else c

/-- state/receipt_table.go 167-203 `PackReceiptsIntoEDU`. -/
def pack (receipts : List Receipt) : Edu := ⟨"m.receipt", receipts.foldl packOne []⟩

/-- An entry as a receipt of the room (state/receipt_table.go 231-251). -/
def toReceipt (room : String) (e : Key × Info) : Receipt :=
  { room := room, event := e.1.1, user := e.1.2.2, ts := e.2.ts, thread := e.2.thread, priv := e.1.2.1 }

/-- state/receipt_table.go 205-254 `UnpackReceiptsFromEDU`: public and private receipts, each in any order. -/
def Unpack (room : String) (edu : Edu) (pub priv : List Receipt) : Prop :=
  if edu.type ≠ "m.receipt" then pub = [] ∧ priv = []
  else pub.Perm ((edu.content.filter fun e => !e.1.2.1).map (toReceipt room)) ∧
    priv.Perm ((edu.content.filter fun e => e.1.2.1).map (toReceipt room))

/-! ### Tables -/

/-- `syncv3_receipts` and `syncv3_receipts_private`, unique on (room, user, thread). -/
structure DB where
  pub : List Receipt := []
  priv : List Receipt := []
deriving DecidableEq, Repr

def Receipt.ukey (r : Receipt) : String × String × String := (r.room, r.user, r.thread)

/-- One row of the statement at state/receipt_table.go 140-143: the new table and the returned row, if any. `isPriv` is
the flag of the table, set on what is returned (153-160). -/
def upsert (isPriv : Bool) (t : List Receipt) (r : Receipt) : List Receipt × Option Receipt :=
  match t.find? fun x => decide (x.ukey = r.ukey) with
  | none => (t ++ [{ r with priv := isPriv }], some { r with priv := isPriv })
  | some old =>
    if old.event ≠ r.event then
      (t.map fun x => if x.ukey = r.ukey then { x with event := r.event, ts := r.ts } else x,
       some { r with priv := isPriv })
    else (t, none)

def upsertAll (isPriv : Bool) (t : List Receipt) (rs : List Receipt) : List Receipt × List Receipt :=
  rs.foldl (fun acc r => let u := upsert isPriv acc.1 r; (u.1, acc.2 ++ u.2.toList)) (t, [])

/-- One statement: PostgreSQL refuses to touch a row twice in one statement, before it returns any row. -/
def exec (isPriv : Bool) (acc : List Receipt × List Receipt) (chunk : List Receipt) :
    Option (List Receipt × List Receipt) :=
  if (chunk.map Receipt.ukey).Nodup then
    let u := upsertAll isPriv acc.1 chunk
    some (u.1, acc.2 ++ u.2)
  else none

/-- state/receipt_table.go 128-163 `bulkInsert`: the new table and the receipts which are new. -/
def bulkInsert (isPriv : Bool) (t : List Receipt) (receipts : List Receipt) :
    Option (List Receipt × List Receipt) :=
  if receipts.length = 0 then some (t, [])
  else (SqlUtil.chunkify 5 SqlUtil.maxPostgresParameters receipts).bind fun chunks =>
    chunks.foldl (fun a c => a.bind (exec isPriv · c)) (some (t, []))

/-- state/receipt_table.go 62-90 `Insert`: `none` is an error, and the transaction is rolled back. -/
def Insert (db : DB) (room : String) (edu : Edu) (res : Option (DB × List Receipt)) : Prop :=
  ∃ pub priv, Unpack room edu pub priv ∧
    res = match bulkInsert false db.pub pub with
      | none => none
      | some (t, newPub) =>
        match bulkInsert true db.priv priv with
        | none => none
        | some (t', newPriv) => some (⟨t, t'⟩, newPub ++ newPriv)

/-- state/receipt_table.go 95-99 `SelectReceiptsForEvents` (`IsPrivate` is not a column: it is false). -/
def forEvents (db : DB) (room : String) (events : List String) : List Receipt :=
  (db.pub.filter fun r => decide (r.room = room) && events.contains r.event).map fun r => { r with priv := false }

/-- state/receipt_table.go 102-126 `SelectReceiptsForUser`, read at one room. -/
def forUser (db : DB) (rooms : List String) (user room : String) : List Receipt :=
  let pub := (db.pub.filter fun (r : Receipt) => rooms.contains r.room && decide (r.user = user)).map
    fun (r : Receipt) => { r with priv := false }
  let priv := (db.priv.filter fun (r : Receipt) => rooms.contains r.room && decide (r.user = user)).map
    fun (r : Receipt) => { r with priv := true }
  (pub ++ priv).filter fun r => decide (r.room = room)

/-! ### Live -/

/-- sync3/handler/handler.go 756-786 `OnReceipt` with `Dispatcher.OnReceipt` (sync3/dispatcher.go 242-265): who is handed
which receipt. `hasCache` tells the users with a user cache, `listeners room` the joined users of the room that have
a receiver (the `*` receiver ignores receipts, sync3/caches/global.go 277). The private ones go first, user by user; the order
of the users is that of a Go map and does not matter below. -/
def onReceipt (hasCache : String → Bool) (listeners : String → List String) (receipts : List Receipt) :
    List (String × Receipt) :=
  let priv := receipts.filter (·.priv)
  let pub := receipts.filter (! ·.priv)
  (priv.filter fun r => hasCache r.user).map (fun r => (r.user, r)) ++
    pub.flatMap fun r => (listeners r.room).map (·, r)

/-! ### Extension -/

/-- `res.Receipts.Rooms`. -/
abbrev Resp := String → Option Edu

/-- sync3/extensions/receipts.go 91-122: the receipts gathered for one room; `rooms` are the rooms of the response with
the event ids of their timelines. -/
def gathered (db : DB) (user : String) (inScope : String → Bool) (rooms : List (String × List String))
    (room : String) : List Receipt :=
  let interested := (rooms.filter fun r => inScope r.1).map (·.1)
  let other := match rooms.find? fun r => decide (r.1 = room) with
    | some (_, timeline) => if inScope room then forEvents db room timeline else []
    | none => []
  other ++ forUser db interested user room

/-- sync3/extensions/receipts.go 86-129 `ProcessInitial`, read at one room. -/
def processInitial (db : DB) (user : String) (inScope : String → Bool) (rooms : List (String × List String)) : Resp :=
  fun room =>
    if (gathered db user inScope rooms room).length = 0 then none
    else some (pack (gathered db user inScope rooms room))

/-- sync3/extensions/receipts.go 34-84 `AppendLive` with a receipt update. -/
def AppendLive (inScope : String → Bool) (res : Resp) (r : Receipt) (res' : Resp) : Prop :=
  if !inScope r.room then res' = res
  else match res r.room with
    | none => res' = fun x => if x = r.room then some (pack [r]) else res x
    | some edu => ∃ pub priv, Unpack r.room edu pub priv ∧
        res' = fun x => if x = r.room then some (pack (pub ++ priv ++ [r])) else res x

/-- The response after some updates. -/
inductive Appended (inScope : String → Bool) (res : Resp) : List Receipt → Resp → Prop
  | nil : Appended inScope res [] res
  | snoc {rs : List Receipt} {res1 res2 : Resp} {r : Receipt} : Appended inScope res rs res1 →
      AppendLive inScope res1 r res2 → Appended inScope res (rs ++ [r]) res2

end Verif.Receipts
