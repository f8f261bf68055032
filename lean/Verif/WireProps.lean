import Verif.Wire
import Verif.LiveLoopProps
/-!
# C134: the JSON of a response says what the response does, and a request waits only while there is nothing to say
-/
namespace Verif.Wire

/-! ## Specification -/

/-- The object has this field. -/
def HasKey (k : String) : Json → Prop
  | .obj l => ∃ v, (k, v) ∈ l
  | _ => False

/-- An object with any field. -/
def Filled : Json → Prop
  | .obj l => l ≠ []
  | _ => False

/-- The value at a key of an object. -/
inductive At (k : String) : Json → Json → Prop
  | mk (l : List (String × Json)) (v : Json) : (k, v) ∈ l → At k (.obj l) v

/-- What a client sees of a response says something: a list has operations, there is a room, there are to-device messages, or
another extension has any field. Positions, counts of lists and the token of the to-device messages do not count. -/
def Says (j : Json) : Prop :=
  (∃ lists key l, At "lists" j lists ∧ At key lists l ∧ HasKey "ops" l) ∨
  (∃ rooms, At "rooms" j rooms ∧ Filled rooms) ∨
  ∃ ext e, At "extensions" j ext ∧ ((At "to_device" ext e ∧ HasKey "events" e) ∨
    ∃ key, key ∈ ["e2ee", "account_data", "typing", "receipts"] ∧ At key ext e ∧ Filled e)

/-- An extension other than that for to-device messages is there, if only as an empty object. -/
def Present (j : Json) : Prop :=
  ∃ ext e key, At "extensions" j ext ∧ key ∈ ["e2ee", "account_data", "typing", "receipts"] ∧ At key ext e

/-! ## Round trip -/

theorem field_append (k : String) (a b : List (String × Json)) : field k (a ++ b) = (field k a).or (field k b) := by
  induction a with
  | nil => rfl
  | cons p l ih =>
    simp only [List.cons_append, field]
    split
    · rfl
    · exact ih

theorem field_always (k k' : String) (v : Json) : field k (always k' v) = if k' = k then some v else none := rfl
theorem field_strE (k k' v : String) : field k (strE k' v) = if k' = k then (if v = "" then none else some (.str v)) else none := by
  unfold strE; split <;> simp [field, *]
theorem field_intE (k k' : String) (v : Int) : field k (intE k' v) = if k' = k then (if v = 0 then none else some (.num v)) else none := by
  unfold intE; split <;> simp [field, *]
theorem field_boolE (k k' : String) (v : Bool) : field k (boolE k' v) = if k' = k then (if v then some (.bool true) else none) else none := by
  unfold boolE; split <;> simp [field, *]
theorem field_arrE (k k' : String) (v : List Json) :
    field k (arrE k' v) = if k' = k then (if v.isEmpty then none else some (.arr v)) else none := by
  unfold arrE; split <;> simp [field, *]
theorem field_mapE (k k' : String) (v : List (String × Json)) :
    field k (mapE k' v) = if k' = k then (if v.isEmpty then none else some (.obj v)) else none := by
  unfold mapE; split <;> simp [field, *]
theorem field_ptrE (k k' : String) (v : Option Json) : field k (ptrE k' v) = if k' = k then v else none := by
  cases v <;> simp [ptrE, field]
theorem field_avatarE (k v : String) : field k (avatarE v) = if "avatar" = k then
    (if v = "" then none else if v = deleted then some .null else some (.str v)) else none := by
  unfold avatarE
  split
  · simp [field]
  · split <;> simp [field]

theorem getStr_strE (v : String) : getStr (if v = "" then none else some (.str v)) = some v := by
  split
  · next h => rw [h]; rfl
  · rfl
theorem getInt_intE (v : Int) : getInt (if v = 0 then none else some (.num v)) = some v := by
  split
  · next h => rw [h]; rfl
  · rfl
theorem getBool_boolE (v : Bool) : getBool (if v = true then some (.bool true) else none) = some v := by cases v <;> rfl
theorem getAvatar_avatarE (v : String) :
    getAvatar (if v = "" then none else if v = deleted then some .null else some (.str v)) = some v := by
  split
  · next h => rw [h]; rfl
  · split
    · next h => rw [h]; rfl
    · rfl

theorem mapM_map {A B : Type} (f : Json → Option A) (g : B → Json) (e : B → A) (h : ∀ b, f (g b) = some (e b)) (l : List B) :
    mapM f (l.map g) = some (l.map e) := by
  induction l with
  | nil => rfl
  | cons b l ih => simp only [List.map_cons, mapM, h, ih]

theorem mapM_some {A : Type} (l : List A) : mapM some l = some l := by
  induction l with
  | nil => rfl
  | cons b l ih => simp only [mapM, ih]

theorem mapM_pairs {A B : Type} (f : Json → Option A) (g : B → Json) (e : B → A) (h : ∀ b, f (g b) = some (e b)) (l : List (String × B)) :
    mapM (fun (p : String × Json) => (f p.2).map (Prod.mk p.1)) (l.map fun p => (p.1, g p.2)) = some (l.map fun p => (p.1, e p.2)) := by
  induction l with
  | nil => rfl
  | cons b l ih => simp only [List.map_cons, mapM, h, ih, Option.map_some]

theorem getArr_arrE {A : Type} (f : Json → Option A) (g : A → Json) (h : ∀ b, f (g b) = some b) (l : List A) :
    getArr f (if (l.map g).isEmpty = true then none else some (.arr (l.map g))) = some l := by
  split
  · next h => simp at h; rw [h]; rfl
  · simp only [getArr, mapM_map f g id h, List.map_id]

theorem getRaw_arrE (l : List Json) : getArr some (if l.isEmpty = true then none else some (.arr l)) = some l := by
  split
  · next h => simp at h; rw [h]; rfl
  · exact mapM_some l

theorem getMap_mapE {A B : Type} (f : Json → Option A) (g : B → Json) (e : B → A) (h : ∀ b, f (g b) = some (e b)) (l : List (String × B)) :
    getMap f (if (l.map fun p => (p.1, g p.2)).isEmpty = true then none else some (.obj (l.map fun p => (p.1, g p.2)))) =
    some (l.map fun p => (p.1, e p.2)) := by
  split
  · next h => simp at h; rw [h]; rfl
  · simp only [getMap, mapM_pairs f g e h]

theorem getRaw_mapE (l : List (String × Json)) : getMap some (if l.isEmpty = true then none else some (.obj l)) = some l := by
  have := getMap_mapE some id id (fun _ => rfl) l
  simpa using this

theorem getPtr_ptrE {A : Type} (f : Json → Option A) (g : A → Json) (h : ∀ b, f (g b) = some b) (hn : ∀ b, g b ≠ .null) (v : Option A) :
    getPtr f (v.map g) = some v := by
  cases v with
  | none => rfl
  | some a =>
    have h1 := h a
    have h2 := hn a
    simp only [Option.map_some, getPtr]
    cases hg : g a with
    | null => exact absurd hg h2
    | _ => simp only [← hg, h1]; rfl

theorem ofStr_str (s : String) : ofStr (.str s) = some s := rfl
theorem ofInt_num (n : Int) : ofInt (.num n) = some n := rfl

theorem getStr_str (s : String) : getStr (some (.str s)) = some s := rfl
theorem getInt_num (n : Int) : getInt (some (.num n)) = some n := rfl

/-- Reads every field that was written. -/
local macro "fieldwise" "[" ts:Lean.Parser.Tactic.simpLemma,* "]" : tactic =>
  `(tactic| simp only [fields, Option.bind_some, Option.map_some, field_append, field_always, field_strE, field_intE, field_boolE,
    field_arrE, field_mapE, field_ptrE, field_avatarE, String.reduceEq, if_true, if_false, Option.or_none, Option.none_or,
    Option.some_or, getStr_strE, getInt_intE, getBool_boolE, getAvatar_avatarE, getRaw_arrE, getRaw_mapE, getStr_str, getInt_num, $ts,*])

theorem Op.read_json (o : Op) : Op.read o.json = some o := by
  cases o with
  | range op lo hi rooms =>
    fieldwise [Op.read, Op.json, getArr_arrE ofStr Json.str (fun _ => rfl)]
    rfl
  | single op index room =>
    fieldwise [Op.read, Op.json, getPtr_ptrE ofInt Json.num (fun _ => rfl) (fun _ => nofun)]

theorem RList.read_json (l : RList) : RList.read l.json = some l := by
  fieldwise [RList.read, RList.json, getArr_arrE Op.read Op.json Op.read_json]

theorem Hero.read_json (h : Hero) : Hero.read h.json = some h := by
  fieldwise [Hero.read, Hero.json]

theorem Room.read_json (r : Room) : Room.read r.json = some r := by
  fieldwise [Room.read, Room.json, getArr_arrE Hero.read Hero.json Hero.read_json,
    getPtr_ptrE ofInt Json.num (fun _ => rfl) (fun _ => nofun)]

theorem ToDevice.read_json (r : ToDevice) : ToDevice.read r.json = some r := by
  fieldwise [ToDevice.read, ToDevice.json]

theorem strs (l : List String) : getArr ofStr (some (.arr (l.map .str))) = some l := by
  simp only [getArr, mapM_map ofStr Json.str id (fun _ => rfl), List.map_id]

theorem E2EE.read_json (r : E2EE) : E2EE.read r.json = some r := by
  have h1 := getPtr_ptrE readLists
    (fun p => .obj (always "changed" (.arr (p.1.map .str)) ++ always "left" (.arr (p.2.map .str))))
    (fun p => by fieldwise [readLists, strs]) (fun _ => nofun) r.lists
  have h2 := getPtr_ptrE (fun j => getArr ofStr (some j)) (fun l => .arr (l.map .str)) strs (fun _ => nofun) r.fallback
  have h3 := getMap_mapE ofInt Json.num id (fun _ => rfl) r.counts
  fieldwise [E2EE.read, E2EE.json, h1, h2, h3]
  simp

theorem AccountData.read_json (r : AccountData) : AccountData.read r.json = some r := by
  have h := getMap_mapE (fun j => getArr some (some j)) Json.arr id (fun l => mapM_some l) r.rooms
  fieldwise [AccountData.read, AccountData.json, h]
  simp

theorem ByRoom.read_json (r : ByRoom) : ByRoom.read r.json = some r := by
  fieldwise [ByRoom.read, ByRoom.json]

theorem Ext.read_json (r : Ext) : Ext.read r.json = some r := by
  fieldwise [Ext.read, Ext.json, getPtr_ptrE ToDevice.read ToDevice.json ToDevice.read_json (fun _ => nofun),
    getPtr_ptrE E2EE.read E2EE.json E2EE.read_json (fun _ => nofun),
    getPtr_ptrE AccountData.read AccountData.json AccountData.read_json (fun _ => nofun),
    getPtr_ptrE ByRoom.read ByRoom.json ByRoom.read_json (fun _ => nofun)]

/-- **C134 (round trip).** Whoever reads the JSON of a response has the response: no operation, room, field or change of an avatar is
left out or taken for another. -/
theorem C134_round_trip (r : Response) : Response.read r.json = some r := by
  have h1 := mapM_pairs RList.read RList.json id RList.read_json r.lists
  have h2 := mapM_pairs Room.read Room.json id Room.read_json r.rooms
  fieldwise [Response.read, Response.json, getMap, h1, h2, Option.getD_some, Ext.read_json]
  simp

/-! ## Data -/

theorem at_obj {k : String} {l : List (String × Json)} {v : Json} : At k (.obj l) v ↔ (k, v) ∈ l :=
  ⟨fun h => by cases h; assumption, .mk l v⟩

theorem listOps_pos (l : List (String × RList)) (n : Nat) :
    l.foldl (fun n p => if p.2.ops.length > 0 then n + p.2.ops.length else n) n = 0 ↔ n = 0 ∧ ∀ p ∈ l, p.2.ops = [] := by
  induction l generalizing n with
  | nil => simp
  | cons p l ih =>
    rw [List.foldl_cons, ih]
    by_cases h : p.2.ops = []
    · simp [h]
    · have : 0 < p.2.ops.length := List.length_pos_iff.2 h
      rw [if_pos this]
      simp only [List.mem_cons, forall_eq_or_imp, h, false_and, and_false, iff_false]
      omega

theorem mem_arrE {k k' : String} {v : Json} {l : List Json} : (k, v) ∈ arrE k' l ↔ k = k' ∧ l ≠ [] ∧ v = .arr l := by
  unfold arrE; split <;> simp_all
theorem mem_mapE {k k' : String} {v : Json} {l : List (String × Json)} : (k, v) ∈ mapE k' l ↔ k = k' ∧ l ≠ [] ∧ v = .obj l := by
  unfold mapE; split <;> simp_all
theorem mem_ptrE {k k' : String} {v : Json} {o : Option Json} : (k, v) ∈ ptrE k' o ↔ k = k' ∧ o = some v := by
  cases o <;> simp [ptrE, eq_comm]
theorem mem_always {k k' : String} {v w : Json} : (k, v) ∈ always k' w ↔ k = k' ∧ v = w := by simp [always]
theorem mem_strE {k k' s : String} {v : Json} : (k, v) ∈ strE k' s ↔ k = k' ∧ s ≠ "" ∧ v = .str s := by
  unfold strE; split <;> simp_all

theorem ops_key (l : RList) : HasKey "ops" l.json ↔ l.ops ≠ [] := by
  simp [RList.json, HasKey, mem_arrE, mem_always]

theorem events_key (r : ToDevice) : HasKey "events" r.json ↔ r.hasData false = true := by
  simp [ToDevice.json, HasKey, mem_arrE, mem_always, ToDevice.hasData, List.length_pos_iff]

theorem e2ee_filled (r : E2EE) : Filled r.json ↔ r.hasData false = true := by
  simp only [E2EE.json, Filled, E2EE.hasData]
  cases r.lists <;> cases r.fallback <;> cases r.counts <;> simp [ptrE, mapE]

theorem accountData_filled (r : AccountData) : Filled r.json ↔ r.hasData false = true := by
  simp only [AccountData.json, Filled, AccountData.hasData]
  cases r.rooms <;> cases r.global <;> simp [arrE, mapE]

theorem byRoom_filled (r : ByRoom) : Filled r.json ↔ r.hasData false = true := by
  simp only [ByRoom.json, Filled, ByRoom.hasData]
  cases r.rooms <;> simp [mapE]

theorem has_iff {A : Type} (f : A → Bool → Bool) (i : Bool) (o : Option A) : has f i o = true ↔ ∃ a, o = some a ∧ f a i = true := by
  cases o <;> simp [has]

theorem at_ext (r : Ext) (k : String) (e : Json) : At k r.json e ↔
    (k = "to_device" ∧ r.toDevice.map ToDevice.json = some e) ∨ (k = "e2ee" ∧ r.e2ee.map E2EE.json = some e) ∨
    (k = "account_data" ∧ r.accountData.map AccountData.json = some e) ∨ (k = "typing" ∧ r.typing.map ByRoom.json = some e) ∨
    (k = "receipts" ∧ r.receipts.map ByRoom.json = some e) := by
  simp only [Ext.json, at_obj, List.mem_append, mem_ptrE]

theorem ext_says (r : Ext) : (∃ e, (At "to_device" r.json e ∧ HasKey "events" e) ∨
    ∃ key, key ∈ ["e2ee", "account_data", "typing", "receipts"] ∧ At key r.json e ∧ Filled e) ↔ r.hasData false = true := by
  simp only [Ext.hasData, Bool.or_eq_true, has_iff]
  constructor
  · rintro ⟨e, ⟨h1, h2⟩ | ⟨key, hk, h1, h2⟩⟩
    · rw [at_ext] at h1
      simp only [String.reduceEq, false_and, or_false, true_and, Option.map_eq_some_iff] at h1
      obtain ⟨a, ha, rfl⟩ := h1
      exact .inl (.inl (.inl (.inl ⟨a, ha, (events_key a).1 h2⟩)))
    · rw [at_ext] at h1
      rcases h1 with ⟨rfl, -⟩ | ⟨-, h1⟩ | ⟨-, h1⟩ | ⟨-, h1⟩ | ⟨-, h1⟩
      · simp at hk
      all_goals obtain ⟨a, ha, rfl⟩ := Option.map_eq_some_iff.1 h1
      · exact .inl (.inl (.inl (.inr ⟨a, ha, (e2ee_filled a).1 h2⟩)))
      · exact .inl (.inl (.inr ⟨a, ha, (accountData_filled a).1 h2⟩))
      · exact .inl (.inr ⟨a, ha, (byRoom_filled a).1 h2⟩)
      · exact .inr ⟨a, ha, (byRoom_filled a).1 h2⟩
  · rintro ((((⟨a, ha, h⟩ | ⟨a, ha, h⟩) | ⟨a, ha, h⟩) | ⟨a, ha, h⟩) | ⟨a, ha, h⟩)
    · exact ⟨a.json, .inl ⟨(at_ext ..).2 (by simp [ha]), (events_key a).2 h⟩⟩
    · exact ⟨a.json, .inr ⟨"e2ee", by simp, (at_ext ..).2 (by simp [ha]), (e2ee_filled a).2 h⟩⟩
    · exact ⟨a.json, .inr ⟨"account_data", by simp, (at_ext ..).2 (by simp [ha]), (accountData_filled a).2 h⟩⟩
    · exact ⟨a.json, .inr ⟨"typing", by simp, (at_ext ..).2 (by simp [ha]), (byRoom_filled a).2 h⟩⟩
    · exact ⟨a.json, .inr ⟨"receipts", by simp, (at_ext ..).2 (by simp [ha]), (byRoom_filled a).2 h⟩⟩

theorem at_response (r : Response) (k : String) (e : Json) : At k r.json e ↔
    (k = "lists" ∧ e = .obj (r.lists.map fun p => (p.1, p.2.json))) ∨ (k = "rooms" ∧ e = .obj (r.rooms.map fun p => (p.1, p.2.json))) ∨
    (k = "extensions" ∧ e = r.ext.json) ∨ (k = "pos" ∧ e = .str r.pos) ∨ (k = "txn_id" ∧ r.txn ≠ "" ∧ e = .str r.txn) := by
  simp only [Response.json, at_obj, List.mem_append, mem_always, mem_strE]

/-- **C134 (data).** A request that is not the first of its connection is taken to have data exactly if the client would see
something in the response. -/
theorem C134_data (r : Response) : r.hasData false = true ↔ Says r.json := by
  simp only [Response.hasData, Says, at_response, String.reduceEq, false_and, true_and, false_or, or_false, Bool.not_and, Bool.not_not,
    Bool.or_eq_true, Bool.not_eq_true', decide_eq_false_iff_not, Response.listOps, listOps_pos]
  have h1 : (∃ lists key l, lists = Json.obj (r.lists.map fun p => (p.1, p.2.json)) ∧ At key lists l ∧ HasKey "ops" l) ↔
      ¬ ∀ p ∈ r.lists, p.2.ops = [] := by
    constructor
    · rintro ⟨_, key, l, rfl, hl, hk⟩ h
      obtain ⟨p, hp, e⟩ := List.mem_map.1 (at_obj.1 hl)
      cases e
      exact (ops_key p.2).1 hk (h p hp)
    · intro h
      simp only [Classical.not_forall] at h
      obtain ⟨p, hp, hne⟩ := h
      exact ⟨_, p.1, p.2.json, rfl, at_obj.2 (List.mem_map.2 ⟨p, hp, rfl⟩), (ops_key p.2).2 hne⟩
  have h2 : (∃ rooms, rooms = Json.obj (r.rooms.map fun p => (p.1, p.2.json)) ∧ Filled rooms) ↔ ¬ r.rooms.length = 0 := by
    simp [Filled]
  have h3 := ext_says r.ext
  rw [h1, h2, ← h3]
  constructor
  · rintro ((h | h) | ⟨e, h⟩)
    · exact .inl h
    · exact .inr (.inl h)
    · exact .inr (.inr ⟨_, e, rfl, h⟩)
  · rintro (h | h | ⟨_, e, rfl, h⟩)
    · exact .inl (.inl h)
    · exact .inl (.inr h)
    · exact .inr ⟨e, h⟩

theorem present_iff (r : Response) : Present r.json ↔
    r.ext.e2ee.isSome = true ∨ r.ext.accountData.isSome = true ∨ r.ext.typing.isSome = true ∨ r.ext.receipts.isSome = true := by
  simp only [Present, at_response, String.reduceEq, false_and, true_and, false_or, or_false]
  constructor
  · rintro ⟨_, e, key, rfl, hk, h⟩
    rw [at_ext] at h
    rcases h with ⟨rfl, -⟩ | ⟨-, h⟩ | ⟨-, h⟩ | ⟨-, h⟩ | ⟨-, h⟩
    · simp at hk
    all_goals obtain ⟨a, ha, -⟩ := Option.map_eq_some_iff.1 h; simp [ha]
  · intro h
    simp only [Option.isSome_iff_exists] at h
    rcases h with ⟨a, h⟩ | ⟨a, h⟩ | ⟨a, h⟩ | ⟨a, h⟩
    · exact ⟨_, a.json, "e2ee", rfl, by simp, (at_ext ..).2 (by simp [h])⟩
    · exact ⟨_, a.json, "account_data", rfl, by simp, (at_ext ..).2 (by simp [h])⟩
    · exact ⟨_, a.json, "typing", rfl, by simp, (at_ext ..).2 (by simp [h])⟩
    · exact ⟨_, a.json, "receipts", rfl, by simp, (at_ext ..).2 (by simp [h])⟩

/-- **C134 (first request).** The first request of a connection is taken to have data also if an extension other than that for
to-device messages is there without anything in it. -/
theorem C134_data_first (r : Response) : r.hasData true = true ↔ Says r.json ∨ Present r.json := by
  rw [← C134_data, present_iff]
  simp only [Response.hasData, Ext.hasData, Bool.not_and, Bool.not_not, Bool.or_eq_true]
  cases r.ext.e2ee <;> cases r.ext.accountData <;> cases r.ext.typing <;> cases r.ext.receipts <;> cases r.ext.toDevice <;>
    simp [has, E2EE.hasData, AccountData.hasData, ByRoom.hasData, ToDevice.hasData]

/-- **C134 (waiting).** After any interleaving of updates, requests, time-outs and cancellations, with updates that do anything to a
response: a request of a connection that is not the first and found nothing to say itself is answered with a response that says
something, unless it gave up, and then its response says nothing. One that found something to say does not give up. -/
theorem C134_waits {U : Type} (P : LiveLoop.Prog U Response) (hP : P.hasData = Response.hasData) (as : List (LiveLoop.Act U Response))
    (s : LiveLoop.State U Response) (h : LiveLoop.run P {} as = some s) (d : LiveLoop.Done U Response) (hd : d ∈ s.done)
    (hi : d.c.initial = false) :
    (Says d.c.r0.json → d.quit = false) ∧ (¬ Says d.c.r0.json → (Says d.c.r.json ↔ d.quit = false)) := by
  have ha := LiveLoop.C82_answer P as s h d hd
  rw [← C134_data, ← C134_data]
  refine ⟨fun h0 => ?_, fun h0 => ?_⟩
  · exact (ha.data (by rw [hP, hi]; exact h0)).1
  · have := (ha.nodata (by rw [hP, hi]; exact Bool.eq_false_iff.2 h0)).1
    rw [hP, hi] at this
    rw [this]
    simp

/-! ## Examples -/

/-- A response with a list, a room whose avatar was removed and which is no longer a direct chat, and tokens. -/
def sample : Response where
  lists := [("all", { ops := [.range "SYNC" 0 1 ["!a", "!b"], .single "DELETE" (some 0) ""], count := 2 })]
  rooms := [("!a", { name := "A", avatar := deleted, heroes := [⟨"@u", "U", ""⟩], timeline := [.obj [("event_id", .str "$e")]], invited := some 0 })]
  ext := { toDevice := some ⟨"5", []⟩, e2ee := some ⟨[("signed_curve25519", 50)], some (["@v"], []), some []⟩ }
  pos := "3"

example : Response.read sample.json = some sample := C134_round_trip _
example : sample.hasData false = true := by decide
example : ({ sample with lists := [("all", ⟨[], 2⟩)], rooms := [], ext := { toDevice := some ⟨"5", []⟩, e2ee := some ⟨[], none, none⟩ } } :
    Response).hasData false = false := by decide
example : ({ ext := { typing := some ⟨[]⟩ } } : Response).hasData true = true := by decide

/-- Updates that put a room with a name into the response; the empty name stands for one that does nothing. -/
def naming : LiveLoop.Prog String Response where
  apply r u := if u = "" then r else { r with rooms := r.rooms ++ [("!r", { name := u })] }
  hasData := Response.hasData
  cap := 10
  src _ := 0

/-- A request that waits for the second of two updates. -/
example : ∃ (s : LiveLoop.State String Response) (d : LiveLoop.Done String Response),
    LiveLoop.run naming {} [.begin false {}, .offer "", .go, .go, .offer "A", .go, .go, .go, .go] = some s ∧ d ∈ s.done ∧
    d.c.initial = false ∧ ¬ Says d.c.r0.json ∧ Says d.c.r.json ∧ d.c.took = ["", "A"] :=
  ⟨{ offered := ["", "A"], done := [⟨⟨false, true, {}, [], ["", "A"], { rooms := [("!r", { name := "A" })] }⟩, false⟩] },
    ⟨⟨false, true, {}, [], ["", "A"], { rooms := [("!r", { name := "A" })] }⟩, false⟩, rfl, List.mem_singleton.2 rfl, rfl,
    by rw [← C134_data]; decide, by rw [← C134_data]; decide, rfl⟩

end Verif.Wire
