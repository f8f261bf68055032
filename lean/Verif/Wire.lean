import Verif.Util
/-!
# Model of responses as JSON, and of whether a response has data

`sync3/response.go`, `sync3/room.go:11-27`, `sync3/avatar.go`, the responses of `sync3/extensions/*.go` and `Hero` of
`internal/roomname.go:148-152`: which fields `encoding/json` writes (`omitempty`), how `UnmarshalJSON` reads them, and `HasData`.

Simplified: Go maps are lists of pairs (`encoding/json` sorts them by key); nil slices and maps are empty ones, also where
`rooms` and `lists` would be written as `null`; fields are read by their exact name; numbers are unbounded; text is Unicode.
A `json.RawMessage` is any JSON value.
-/
namespace Verif.Wire

/-- A JSON value. -/
inductive Json
  | null
  | bool (b : Bool)
  | num (n : Int)
  | str (s : String)
  | arr (l : List Json)
  | obj (l : List (String × Json))

/-- A field of an object, if it is there. -/
def field (k : String) : List (String × Json) → Option Json
  | [] => none
  | p :: l => if p.1 = k then some p.2 else field k l

/-! ## Writing -/

/-- A field which is always written. -/
def always (k : String) (v : Json) : List (String × Json) := [(k, v)]
/-- A string with `omitempty`. -/
def strE (k v : String) : List (String × Json) := if v = "" then [] else [(k, .str v)]
/-- An integer with `omitempty`. -/
def intE (k : String) (v : Int) : List (String × Json) := if v = 0 then [] else [(k, .num v)]
/-- A Boolean with `omitempty`. -/
def boolE (k : String) (v : Bool) : List (String × Json) := if v then [(k, .bool true)] else []
/-- A slice with `omitempty`. -/
def arrE (k : String) (v : List Json) : List (String × Json) := if v.isEmpty then [] else [(k, .arr v)]
/-- A map with `omitempty`. -/
def mapE (k : String) (v : List (String × Json)) : List (String × Json) := if v.isEmpty then [] else [(k, .obj v)]
/-- A pointer with `omitempty`. -/
def ptrE (k : String) (v : Option Json) : List (String × Json) := match v with | none => [] | some j => [(k, j)]

/-- `ResponseOpRange` and `ResponseOpSingle`, `sync3/response.go:113-138`. -/
inductive Op
  | range (op : String) (lo hi : Int) (rooms : List String)
  | single (op : String) (index : Option Int) (room : String)

/-- `Range` is an array of length 2, which `omitempty` never leaves out. -/
def Op.json : Op → Json
  | .range op lo hi rooms => .obj (always "op" (.str op) ++ always "range" (.arr [.num lo, .num hi]) ++ arrE "room_ids" (rooms.map .str))
  | .single op index room => .obj (always "op" (.str op) ++ ptrE "index" (index.map .num) ++ strE "room_id" room)

/-- `ResponseList`, `sync3/response.go:28-31`. -/
structure RList where
  ops : List Op
  count : Int

def RList.json (l : RList) : Json := .obj (arrE "ops" (l.ops.map Op.json) ++ always "count" (.num l.count))

/-- `Hero`, `internal/roomname.go:148-152`. -/
structure Hero where
  id : String
  name : String
  avatar : String

def Hero.json (h : Hero) : Json := .obj (always "user_id" (.str h.id) ++ strE "displayname" h.name ++ strE "avatar_url" h.avatar)

/-- `DeletedAvatar`, `sync3/avatar.go:16`. -/
def deleted : String := "<no-avatar>"

/-- `AvatarChange` with `omitempty` and `MarshalJSON`, `sync3/avatar.go:27-33`. -/
def avatarE (v : String) : List (String × Json) :=
  if v = "" then [] else if v = deleted then [("avatar", .null)] else [("avatar", .str v)]

/-- `Room`, `sync3/room.go:11-27`. -/
structure Room where
  name : String := ""
  avatar : String := ""
  heroes : List Hero := []
  required : List Json := []
  timeline : List Json := []
  invite : List Json := []
  notifications : Int := 0
  highlights : Int := 0
  initial : Bool := false
  dm : Bool := false
  joined : Int := 0
  invited : Option Int := none
  prevBatch : String := ""
  numLive : Int := 0
  timestamp : Int := 0

def Room.json (r : Room) : Json := .obj
  (strE "name" r.name ++ (avatarE r.avatar ++ (arrE "heroes" (r.heroes.map Hero.json) ++ (arrE "required_state" r.required ++
  (arrE "timeline" r.timeline ++ (arrE "invite_state" r.invite ++ (always "notification_count" (.num r.notifications) ++
  (always "highlight_count" (.num r.highlights) ++ (boolE "initial" r.initial ++ (boolE "is_dm" r.dm ++ (intE "joined_count" r.joined ++
  (ptrE "invited_count" (r.invited.map .num) ++ (strE "prev_batch" r.prevBatch ++ (intE "num_live" r.numLive ++
  intE "timestamp" r.timestamp))))))))))))))

/-- `ToDeviceResponse`, `sync3/extensions/todevice.go:45-48`. -/
structure ToDevice where
  next : String
  events : List Json

def ToDevice.json (r : ToDevice) : Json := .obj (always "next_batch" (.str r.next) ++ arrE "events" r.events)

/-- `E2EEResponse` and `E2EEDeviceList`, `sync3/extensions/e2ee.go:25-34`. -/
structure E2EE where
  counts : List (String × Int)
  lists : Option (List String × List String)
  fallback : Option (List String)

def E2EE.json (r : E2EE) : Json := .obj (mapE "device_one_time_keys_count" (r.counts.map fun p => (p.1, .num p.2)) ++
  (ptrE "device_lists" (r.lists.map fun p => .obj (always "changed" (.arr (p.1.map .str)) ++ always "left" (.arr (p.2.map .str)))) ++
  ptrE "device_unused_fallback_key_types" (r.fallback.map fun l => .arr (l.map .str))))

/-- `AccountDataResponse`, `sync3/extensions/account_data.go:22-27`. `loadedRooms` is not written. -/
structure AccountData where
  global : List Json
  rooms : List (String × List Json)

def AccountData.json (r : AccountData) : Json :=
  .obj (arrE "global" r.global ++ mapE "rooms" (r.rooms.map fun p => (p.1, .arr p.2)))

/-- `TypingResponse` and `ReceiptsResponse`, `sync3/extensions/typing.go:20-22` and `receipts.go:22-25`. -/
structure ByRoom where
  rooms : List (String × Json)

def ByRoom.json (r : ByRoom) : Json := .obj (mapE "rooms" r.rooms)

/-- `extensions.Response`, `sync3/extensions/extensions.go:250-256`. -/
structure Ext where
  toDevice : Option ToDevice := none
  e2ee : Option E2EE := none
  accountData : Option AccountData := none
  typing : Option ByRoom := none
  receipts : Option ByRoom := none

def Ext.json (r : Ext) : Json := .obj
  (ptrE "to_device" (r.toDevice.map ToDevice.json) ++ (ptrE "e2ee" (r.e2ee.map E2EE.json) ++
  (ptrE "account_data" (r.accountData.map AccountData.json) ++ (ptrE "typing" (r.typing.map ByRoom.json) ++
  ptrE "receipts" (r.receipts.map ByRoom.json)))))

/-- `Response`, `sync3/response.go:18-26`. -/
structure Response where
  lists : List (String × RList) := []
  rooms : List (String × Room) := []
  ext : Ext := {}
  pos : String := ""
  txn : String := ""

def Response.json (r : Response) : Json := .obj
  (always "lists" (.obj (r.lists.map fun p => (p.1, p.2.json))) ++ (always "rooms" (.obj (r.rooms.map fun p => (p.1, p.2.json))) ++
  (always "extensions" r.ext.json ++ (always "pos" (.str r.pos) ++ strE "txn_id" r.txn))))

/-! ## Reading

`encoding/json`: a field that is missing or `null` is left as it is, one of the wrong type is an error. -/

def mapM {A B : Type} (f : A → Option B) : List A → Option (List B)
  | [] => some []
  | a :: l => match f a, mapM f l with
    | some b, some l' => some (b :: l')
    | _, _ => none

def getStr : Option Json → Option String
  | none | some .null => some ""
  | some (.str s) => some s
  | _ => none

def getInt : Option Json → Option Int
  | none | some .null => some 0
  | some (.num n) => some n
  | _ => none

def getBool : Option Json → Option Bool
  | none | some .null => some false
  | some (.bool b) => some b
  | _ => none

/-- A slice whose elements are read by `f`. -/
def getArr {A : Type} (f : Json → Option A) : Option Json → Option (List A)
  | none | some .null => some []
  | some (.arr l) => mapM f l
  | _ => none

/-- A map whose values are read by `f`. -/
def getMap {A : Type} (f : Json → Option A) : Option Json → Option (List (String × A))
  | none | some .null => some []
  | some (.obj l) => mapM (fun p => (f p.2).map (Prod.mk p.1)) l
  | _ => none

/-- A pointer to what is read by `f`. -/
def getPtr {A : Type} (f : Json → Option A) : Option Json → Option (Option A)
  | none | some .null => some none
  | some j => (f j).map some

def ofStr (j : Json) : Option String := getStr (some j)
def ofInt (j : Json) : Option Int := getInt (some j)

/-- The fields of an object. -/
def fields : Json → Option (List (String × Json))
  | .obj l => some l
  | _ => none

/-- `AvatarChange.UnmarshalJSON`, `sync3/avatar.go:36-42`. -/
def getAvatar : Option Json → Option String
  | none => some ""
  | some .null => some deleted
  | some (.str s) => some s
  | _ => none

/-- One operation, `sync3/response.go:87-100`: it is one on a range if there is a field `range`. -/
def Op.read (j : Json) : Option Op :=
  (fields j).bind fun o =>
  (getStr (field "op" o)).bind fun op =>
  match field "range" o with
  | some r =>
    match getArr ofInt (some r), getArr ofStr (field "room_ids" o) with
    /- an array of length 2 is filled from the front -/
    | some l, some rooms => some (.range op (l[0]?.getD 0) (l[1]?.getD 0) rooms)
    | _, _ => none
  | none =>
    match getPtr ofInt (field "index" o), getStr (field "room_id" o) with
    | some index, some room => some (.single op index room)
    | _, _ => none

def RList.read (j : Json) : Option RList :=
  (fields j).bind fun o =>
  (getArr Op.read (field "ops" o)).bind fun ops =>
  (getInt (field "count" o)).map fun count => { ops, count }

def Hero.read (j : Json) : Option Hero :=
  (fields j).bind fun o =>
  (getStr (field "user_id" o)).bind fun id =>
  (getStr (field "displayname" o)).bind fun name =>
  (getStr (field "avatar_url" o)).map fun avatar => { id, name, avatar }

def Room.read (j : Json) : Option Room :=
  (fields j).bind fun o =>
  (getStr (field "name" o)).bind fun name =>
  (getAvatar (field "avatar" o)).bind fun avatar =>
  (getArr Hero.read (field "heroes" o)).bind fun heroes =>
  (getArr some (field "required_state" o)).bind fun required =>
  (getArr some (field "timeline" o)).bind fun timeline =>
  (getArr some (field "invite_state" o)).bind fun invite =>
  (getInt (field "notification_count" o)).bind fun notifications =>
  (getInt (field "highlight_count" o)).bind fun highlights =>
  (getBool (field "initial" o)).bind fun initial =>
  (getBool (field "is_dm" o)).bind fun dm =>
  (getInt (field "joined_count" o)).bind fun joined =>
  (getPtr ofInt (field "invited_count" o)).bind fun invited =>
  (getStr (field "prev_batch" o)).bind fun prevBatch =>
  (getInt (field "num_live" o)).bind fun numLive =>
  (getInt (field "timestamp" o)).map fun timestamp =>
  { name, avatar, heroes, required, timeline, invite, notifications, highlights, initial, dm, joined, invited, prevBatch, numLive, timestamp }

def ToDevice.read (j : Json) : Option ToDevice :=
  (fields j).bind fun o =>
  (getStr (field "next_batch" o)).bind fun next =>
  (getArr some (field "events" o)).map fun events => { next, events }

def readLists (j : Json) : Option (List String × List String) :=
  (fields j).bind fun o =>
  (getArr ofStr (field "changed" o)).bind fun c =>
  (getArr ofStr (field "left" o)).map fun l => (c, l)

def E2EE.read (j : Json) : Option E2EE :=
  (fields j).bind fun o =>
  (getMap ofInt (field "device_one_time_keys_count" o)).bind fun counts =>
  (getPtr readLists (field "device_lists" o)).bind fun lists =>
  (getPtr (fun j => getArr ofStr (some j)) (field "device_unused_fallback_key_types" o)).map fun fallback => { counts, lists, fallback }

def AccountData.read (j : Json) : Option AccountData :=
  (fields j).bind fun o =>
  (getArr some (field "global" o)).bind fun global =>
  (getMap (fun j => getArr some (some j)) (field "rooms" o)).map fun rooms => { global, rooms }

def ByRoom.read (j : Json) : Option ByRoom :=
  (fields j).bind fun o => (getMap some (field "rooms" o)).map fun rooms => { rooms }

def Ext.read (j : Json) : Option Ext :=
  (fields j).bind fun o =>
  (getPtr ToDevice.read (field "to_device" o)).bind fun toDevice =>
  (getPtr E2EE.read (field "e2ee" o)).bind fun e2ee =>
  (getPtr AccountData.read (field "account_data" o)).bind fun accountData =>
  (getPtr ByRoom.read (field "typing" o)).bind fun typing =>
  (getPtr ByRoom.read (field "receipts" o)).map fun receipts => { toDevice, e2ee, accountData, typing, receipts }

/-- `Response.UnmarshalJSON`, `sync3/response.go:61-105`. -/
def Response.read (j : Json) : Option Response :=
  (fields j).bind fun o =>
  (getMap RList.read (field "lists" o)).bind fun lists =>
  (getMap Room.read (field "rooms" o)).bind fun rooms =>
  (Ext.read ((field "extensions" o).getD (.obj []))).bind fun ext =>
  (getStr (field "pos" o)).bind fun pos =>
  (getStr (field "txn_id" o)).map fun txn => { lists, rooms, ext, pos, txn }

/-! ## Data -/

/-- `Response.ListOps`, `sync3/response.go:38-46`. -/
def Response.listOps (r : Response) : Nat := r.lists.foldl (fun n p => if p.2.ops.length > 0 then n + p.2.ops.length else n) 0

/-- `ToDeviceResponse.HasData`, `sync3/extensions/todevice.go:50-52`. -/
def ToDevice.hasData (r : ToDevice) (_initial : Bool) : Bool := decide (r.events.length > 0)

/-- `E2EEResponse.HasData`, `sync3/extensions/e2ee.go:36-41`. -/
def E2EE.hasData (r : E2EE) (initial : Bool) : Bool :=
  if initial then true else r.lists.isSome || r.fallback.isSome || decide (r.counts.length > 0)

/-- `AccountDataResponse.HasData`, `sync3/extensions/account_data.go:29-34`. -/
def AccountData.hasData (r : AccountData) (initial : Bool) : Bool :=
  if initial then true else decide (r.rooms.length > 0) || decide (r.global.length > 0)

/-- `TypingResponse.HasData` and `ReceiptsResponse.HasData`, `sync3/extensions/typing.go:24-29` and `receipts.go:27-32`. -/
def ByRoom.hasData (r : ByRoom) (initial : Bool) : Bool := if initial then true else decide (r.rooms.length > 0)

/-- A nil extension is left out, `sync3/extensions/extensions.go:264-276`. -/
def has {A : Type} (f : A → Bool → Bool) (initial : Bool) : Option A → Bool
  | none => false
  | some r => f r initial

/-- `Response.HasData`, `sync3/extensions/extensions.go:264-276`. -/
def Ext.hasData (r : Ext) (initial : Bool) : Bool :=
  has ToDevice.hasData initial r.toDevice || has E2EE.hasData initial r.e2ee || has AccountData.hasData initial r.accountData ||
  has ByRoom.hasData initial r.typing || has ByRoom.hasData initial r.receipts

/-- The negated condition of the live loop, `sync3/handler/connstate_live.go:65`. -/
def Response.hasData (initial : Bool) (r : Response) : Bool :=
  !(decide (r.listOps = 0) && decide (r.rooms.length = 0) && !r.ext.hasData initial)

end Verif.Wire
