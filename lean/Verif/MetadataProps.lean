import Verif.Metadata
import Verif.SideTablesProps
import Verif.StoreHist
/-!
# C74: the cached room metadata is that of the current state
-/
namespace Verif.Metadata

open Verif Verif.Store
open Verif.SideTables (Current lastKey lastKey_snoc lastKey_some lastKey_none specLoop_last foldl_apply_last current_iff init_cond specRun_snoc run_snoc)
open Verif.RoomsTable (lastVal lastVal_append lastVal_none lastVal_snoc)

/-! ## Specification -/

/-- A piece of metadata: the state event it comes from, its value as a function of the content, where it is in the
cache, and its value if there is no such event. -/
structure Field (V : Type) where
  key : Key
  val : Content → V
  get : Meta → V
  zero : V

def nameF : Field String := ⟨("m.room.name", ""), (·.name), (·.name), ""⟩
def avatarF : Field String := ⟨("m.room.avatar", ""), (·.url), (·.avatar), ""⟩
def aliasF : Field String := ⟨("m.room.canonical_alias", ""), (·.alias), (·.alias), ""⟩
def encF : Field Bool := ⟨("m.room.encryption", ""), fun _ => true, (·.enc), false⟩
def upgradedF : Field (Option String) :=
  ⟨("m.room.tombstone", ""), fun c => if c.replacement.getD "" = "" then none else c.replacement, (·.upgraded), none⟩
def childF (child : String) : Field Bool := ⟨("m.space.child", child), (·.via), (·.children child), false⟩

/-- Every room with state is in the cache, and the field has the value given by the stored content of the event in the
current state of the room, or its zero value if there is none. -/
def Agrees {V : Type} (F : Field V) (orig red : String → Content) (s : State) : Prop :=
  ∀ room, (∀ k id, Current s.db room k id → s.cache room ≠ none) ∧
    ∀ m, s.cache room = some m →
      (∀ id, Current s.db room F.key id → F.get m = F.val (s.cont orig red id)) ∧
      ((∀ id, ¬ Current s.db room F.key id) → F.get m = F.zero)

/-- What upstream may send (besides `OkOp`): an event id belongs to one room, events of state blocks have state keys,
and redactions name events of their room. -/
def Sane (roomOf : String → String) (orig : String → Content) : Op → Prop
  | .init room _ block => ∀ e ∈ block.filterMap id, e.hasKey = true ∧ roomOf e.id = room
  | .acc room _ _ timeline => ∀ e ∈ timeline.filterMap id, roomOf e.id = room ∧
      (e.type = "m.room.redaction" → e.hasKey = false → roomOf (orig e.id).redacts = room)

/-! ## The rows of a payload -/

/-- The events with these numbers. -/
def evsOf (db : DB) (nids : List Nat) : List Ev := (db.rows.filter fun r => decide (r.nid ∈ nids)).map (·.ev)

theorem evsOf_core (db : DB) (nids : List Nat) :
    evsOf db nids = ((db.rows.map Row.core).filter fun c => decide (c.1 ∈ nids)).map fun c => c.2.2.1 := by
  unfold evsOf
  rw [List.filter_map, List.map_map]
  rfl

theorem evsOf_ext {a b : DB} (h : Ext a b) (hI : Inv a) {nids : List Nat} (hn : ∀ n ∈ nids, ∃ r ∈ a.rows, r.nid = n) :
    evsOf b nids = evsOf a nids := by
  obtain ⟨new, h1, h2⟩ := h.rows
  rw [evsOf_core, evsOf_core, h1, List.filter_append]
  have : new.filter (fun c => decide (c.1 ∈ nids)) = [] := by
    rw [List.filter_eq_nil_iff]
    intro c hc hm
    simp only [decide_eq_true_eq] at hm
    obtain ⟨r, hr, hrn⟩ := hn _ hm
    have := (hI.range r hr).2
    have := h2 c hc
    omega
  rw [this, List.append_nil]

theorem evsOf_post {db db' : DB} {post : List Row} (hI : Inv db') (h : db'.rows.map Row.core = db.rows.map Row.core ++ post.map Row.core) :
    evsOf db' (post.map (·.nid)) = post.map (·.ev) := by
  have hasc : (db'.rows.map Row.core).Pairwise (fun a b => a.1 < b.1) := by
    rw [List.pairwise_map]; exact hI.asc
  rw [evsOf_core, h, List.filter_append]
  rw [h, List.pairwise_append] at hasc
  have h1 : (db.rows.map Row.core).filter (fun c => decide (c.1 ∈ post.map (·.nid))) = [] := by
    rw [List.filter_eq_nil_iff]
    intro c hc hm
    simp only [decide_eq_true_eq, List.mem_map] at hm
    obtain ⟨r, hr, hrn⟩ := hm
    have := hasc.2.2 c hc r.core (List.mem_map_of_mem hr)
    simp only [Row.core] at this; omega
  have h2 : (post.map Row.core).filter (fun c => decide (c.1 ∈ post.map (·.nid))) = post.map Row.core := by
    rw [List.filter_eq_self]
    intro c hc
    obtain ⟨r, hr, rfl⟩ := List.mem_map.1 hc
    simp only [decide_eq_true_eq]
    exact List.mem_map_of_mem (f := fun r : Row => r.nid) hr
  rw [h1, h2, List.nil_append, List.map_map]
  rfl

/-- The rows of the current snapshot. -/
theorem currentRows_spec {db : DB} {sp : Spec} (h : Store.Rel db sp) (room : String) :
    (∀ r ∈ currentRows db room, r ∈ db.rows ∧ r.room = room) ∧ (currentRows db room).Pairwise (fun a b => a.ev.key ≠ b.ev.key) ∧
    (∀ k id, (∃ r ∈ currentRows db room, r.ev.key = k ∧ r.ev.id = id) ↔ (sp.cur room).getD St.none k = some id) ∧
    evsOf db ((currentRows db room).map (·.nid)) = (currentRows db room).map (·.ev) ∧
    ((currentRows db room).map (·.nid)).Nodup := by
  obtain ⟨old, ho, h1, h2, _, _, h3⟩ := (h.cur room).rows h.inv
  have he : currentRows db room = old := by
    unfold currentRows
    by_cases h0 : db.cur room = 0
    · rw [if_neg (by simpa using h0)] at ho
      cases ho
      cases hf : db.snaps.find? (·.id = db.cur room) with
      | none => rfl
      | some s =>
        have := (h.inv.srange s (List.mem_of_find?_eq_some hf)).1
        have := List.find?_some hf
        simp only [decide_eq_true_eq] at this
        omega
    · rw [if_pos h0] at ho
      unfold stripped selectSnap at ho
      rw [if_neg h0] at ho
      cases hf : db.snaps.find? (·.id = db.cur room) with
      | none => rw [hf] at ho; cases ho
      | some s =>
        rw [hf] at ho
        simp only [selectByNIDs] at ho
        split at ho
        · cases ho
        · simpa using ho
  have hsub : (currentRows db room).Sublist db.rows := by
    unfold currentRows
    split
    · exact List.filter_sublist
    · exact List.nil_sublist _
  have hasc : (currentRows db room).Pairwise fun a b => a.nid < b.nid := h.inv.asc.sublist hsub
  refine ⟨he ▸ h1, he ▸ h2, he ▸ h3, ?_, ?_⟩
  · unfold evsOf
    congr 1
    unfold currentRows
    split
    · next s _ =>
      apply List.filter_congr
      intro r hr
      apply decide_eq_decide.2
      simp only [List.mem_map, List.mem_filter, decide_eq_true_eq]
      constructor
      · rintro ⟨q, ⟨hq, hqs⟩, hqr⟩; rw [← hqr]; exact hqs
      · intro hm; exact ⟨r, ⟨hr, hm⟩, rfl⟩
    · simp
  · rw [List.Nodup, List.pairwise_map]
    exact hasc.imp fun {a b} hab => by omega

/-! ## The invariant -/

/-- What a payload does to a key of a room: `some none` is a reload, `some (some id)` the value of this event. -/
def touch (db : DB) (room : String) (k : Key) : Payload → Option (Option String)
  | .inv r => if r = room then some none else none
  | .evs r nids => if r = room then (lastKey k (evsOf db nids)).map fun e => some e.id else none

def cid (sp : Spec) (room : String) (k : Key) : Option String := (sp.cur room).getD St.none k

variable {V : Type}

/-- The value of the field in a cache entry. -/
def val' (F : Field V) (o : Option Meta) : V := match o with | none => F.zero | some m => F.get m

/-- The value by the current state. -/
def wanted (F : Field V) (cont : String → Content) (o : Option String) : V := match o with | none => F.zero | some id => F.val (cont id)

structure G (F : Field V) (orig red : String → Content) (roomOf : String → String) (s : State) (sp : Spec) : Prop where
  rel : Store.Rel s.db sp
  own : ∀ r ∈ s.db.rows, roomOf r.ev.id = r.room
  valid : ∀ room nids, .evs room nids ∈ s.queue → nids.Nodup ∧ nids ≠ [] ∧ ∀ n ∈ nids, ∃ r ∈ s.db.rows, r.nid = n
  touched : ∀ room id, lastVal (touch s.db room F.key) s.queue = some (some id) → cid sp room F.key = some id
  seen : ∀ room nids, .evs room nids ∈ s.queue → ∀ e ∈ evsOf s.db nids, e.hasKey = true → e.key = F.key → cid sp room F.key ≠ none
  quiet : ∀ room, lastVal (touch s.db room F.key) s.queue = none → val' F (s.cache room) = wanted F (s.cont orig red) (cid sp room F.key)
  zero : ∀ room, cid sp room F.key = none → val' F (s.cache room) = F.zero
  ready : ∀ a room b, s.queue = a ++ .inv room :: b → s.cache room ≠ none ∨ (∃ nids, .evs room nids ∈ a) ∨
    cid sp room F.key = none ∨ lastVal (touch s.db room F.key) b ≠ none
  present : ∀ room, sp.cur room ≠ none → s.cache room ≠ none ∨ ∃ nids, .evs room nids ∈ s.queue

theorem lastVal_congr {α β : Type} {f g : α → Option β} {l : List α} (h : ∀ x ∈ l, f x = g x) : lastVal f l = lastVal g l := by
  induction l with
  | nil => rfl
  | cons a l ih => simp only [lastVal, ih fun x hx => h x (by simp [hx]), h a (by simp)]

/-- Storing something and announcing it. -/
theorem push {F : Field V} {orig red : String → Content} {roomOf : String → String} {s s' : State} {sp sp' : Spec}
    (h : G F orig red roomOf s sp) {P : List Payload} (hq : s'.queue = s.queue ++ P) (hc : s'.cache = s.cache)
    (hrel : Store.Rel s'.db sp') (hext : Ext s.db s'.db) (hown : ∀ r ∈ s'.db.rows, roomOf r.ev.id = r.room)
    (p1 : ∀ room nids, .evs room nids ∈ P → nids.Nodup ∧ nids ≠ [] ∧ ∀ n ∈ nids, ∃ r ∈ s'.db.rows, r.nid = n)
    (p2 : ∀ room id, lastVal (touch s'.db room F.key) P = some (some id) → cid sp' room F.key = some id)
    (p3 : ∀ room, lastVal (touch s'.db room F.key) P = none → cid sp' room F.key = cid sp room F.key ∧
      ∀ id, cid sp room F.key = some id → s'.cont orig red id = s.cont orig red id)
    (p4 : ∀ room nids, .evs room nids ∈ P → ∀ e ∈ evsOf s'.db nids, e.hasKey = true → e.key = F.key → cid sp' room F.key ≠ none)
    (p5 : ∀ room, cid sp room F.key ≠ none → cid sp' room F.key ≠ none)
    (p6 : ∀ a room b, P = a ++ .inv room :: b → sp.cur room ≠ none ∨ (∃ nids, .evs room nids ∈ a) ∨
      cid sp' room F.key = none ∨ lastVal (touch s'.db room F.key) b ≠ none)
    (p7 : ∀ room, sp'.cur room ≠ none → sp.cur room ≠ none ∨ ∃ nids, .evs room nids ∈ P) :
    G F orig red roomOf s' sp' := by
  have hev : ∀ room nids, Payload.evs room nids ∈ s.queue → evsOf s'.db nids = evsOf s.db nids :=
    fun room nids hm => evsOf_ext hext h.rel.inv (h.valid room nids hm).2.2
  have htouch : ∀ room, lastVal (touch s'.db room F.key) s.queue = lastVal (touch s.db room F.key) s.queue := by
    intro room
    refine lastVal_congr fun p hp => ?_
    cases p with
    | inv r => rfl
    | evs r nids => simp only [touch, hev r nids hp]
  constructor
  · exact hrel
  · exact hown
  · intro room nids hm
    rw [hq] at hm
    rcases List.mem_append.1 hm with hm | hm
    · obtain ⟨h1, h2, h3⟩ := h.valid room nids hm
      refine ⟨h1, h2, fun n hn => ?_⟩
      obtain ⟨r, hr, hrn⟩ := h3 n hn
      obtain ⟨r', hr', hc⟩ := hext.fwd hr
      exact ⟨r', hr', by rw [(core_eq hc).1]; exact hrn⟩
    · exact p1 room nids hm
  · intro room id hl
    rw [hq, lastVal_append, htouch] at hl
    cases hp : lastVal (touch s'.db room F.key) P with
    | some x =>
      rw [hp] at hl
      simp only [Option.some_or, Option.some.injEq] at hl
      exact p2 room id (by rw [hp, hl])
    | none =>
      rw [hp, Option.none_or] at hl
      rw [(p3 room hp).1]
      exact h.touched room id hl
  · intro room nids hm e he h1 h2
    rw [hq] at hm
    rcases List.mem_append.1 hm with hm | hm
    · rw [hev room nids hm] at he
      exact p5 room (h.seen room nids hm e he h1 h2)
    · exact p4 room nids hm e he h1 h2
  · intro room hl
    rw [hq, lastVal_append, htouch, Option.or_eq_none_iff] at hl
    obtain ⟨h1, h2⟩ := p3 room hl.1
    rw [hc, h1, h.quiet room hl.2]
    cases hcid : cid sp room F.key with
    | none => rfl
    | some id => simp only [wanted, h2 id hcid]
  · intro room hn
    rw [hc]
    refine h.zero room ?_
    cases hcid : cid sp room F.key with
    | none => rfl
    | some id => exact absurd hn (p5 room (by rw [hcid]; simp))
  · intro a room b he
    rw [hc]
    rw [hq] at he
    rcases List.append_eq_append_iff.1 he with ⟨a', rfl, ha⟩ | ⟨c', hq', ha⟩
    · rcases p6 a' room b ha with hx | ⟨nids, hn⟩ | hx
      · rcases h.present room hx with hx | ⟨nids, hn⟩
        · exact Or.inl hx
        · exact Or.inr (Or.inl ⟨nids, by simp [hn]⟩)
      · exact Or.inr (Or.inl ⟨nids, by simp [hn]⟩)
      · exact Or.inr (Or.inr hx)
    · cases c' with
      | nil =>
        simp only [List.nil_append] at ha
        rcases p6 [] room b (by simpa using ha.symm) with hx | ⟨nids, hn⟩ | hx
        · rcases h.present room hx with hx | ⟨nids, hn⟩
          · exact Or.inl hx
          · rw [hq'] at hn
            exact Or.inr (Or.inl ⟨nids, by simpa using hn⟩)
        · simp at hn
        · exact Or.inr (Or.inr hx)
      | cons x c'' =>
        simp only [List.cons_append, List.cons.injEq] at ha
        rw [← ha.1] at hq'
        have hc'' : lastVal (touch s'.db room F.key) c'' = lastVal (touch s.db room F.key) c'' := by
          refine lastVal_congr fun p hp => ?_
          cases p with
          | inv r => rfl
          | evs r nids => simp only [touch, hev r nids (by rw [hq']; simp [hp])]
        rcases h.ready a room c'' hq' with hx | hx | hx | hx
        · exact Or.inl hx
        · exact Or.inr (Or.inl hx)
        · by_cases hP : lastVal (touch s'.db room F.key) P = none
          · exact Or.inr (Or.inr (Or.inl (by rw [(p3 room hP).1]; exact hx)))
          · refine Or.inr (Or.inr (Or.inr ?_))
            rw [ha.2, lastVal_append]
            intro h0
            exact hP (Option.or_eq_none_iff.1 h0).1
        · refine Or.inr (Or.inr (Or.inr ?_))
          rw [ha.2, lastVal_append, hc'']
          intro h0
          exact hx (Option.or_eq_none_iff.1 h0).2
  · intro room hn
    rw [hc, hq]
    rcases p7 room hn with hx | ⟨nids, hm⟩
    · rcases h.present room hx with hx | ⟨nids, hm⟩
      · exact Or.inl hx
      · exact Or.inr ⟨nids, by simp [hm]⟩
    · exact Or.inr ⟨nids, by simp [hm]⟩

/-! ## The steps -/

structure Laws (F : Field V) : Prop where
  zero : F.get {} = F.zero
  new : ∀ c m e, F.get (onNew c m e) = if e.hasKey = true ∧ e.key = F.key then F.val c else F.get m

def ResetLaw (F : Field V) : Prop := ∀ (cont : String → Content) (rows : List Row) (m : Meta),
  rows.Pairwise (fun a b => a.ev.key ≠ b.ev.key) →
  (∀ r ∈ rows, r.ev.key = F.key → F.get (reset cont rows m) = F.val (cont r.ev.id)) ∧
  ((∀ r ∈ rows, r.ev.key ≠ F.key) → F.get (reset cont rows m) = F.get m)

theorem fold_new {F : Field V} (hF : Laws F) (cont : String → Content) (rows : List Row) (m : Meta) :
    F.get (rows.foldl (fun m x => onNew (cont x.ev.id) m x.ev) m) = match lastKey F.key (rows.map (·.ev)) with
      | some e => F.val (cont e.id)
      | none => F.get m := by
  induction rows using Verif.Util.snocRec with
  | nil => rfl
  | append_singleton l x ih =>
    rw [List.foldl_append, List.map_append, List.map_singleton, lastKey_snoc]
    simp only [List.foldl_cons, List.foldl_nil, hF.new]
    split
    · rfl
    · exact ih

/-- The rows of a valid payload. -/
theorem select_valid {db : DB} (hI : Inv db) {nids : List Nat} (h : nids.Nodup ∧ nids ≠ [] ∧ ∀ n ∈ nids, ∃ r ∈ db.rows, r.nid = n) :
    ∃ rows, selectByNIDs db nids = some rows ∧ rows ≠ [] ∧ rows.map (·.ev) = evsOf db nids := by
  refine ⟨_, selectByNIDs_spec hI.asc h.1 h.2.2, ?_, rfl⟩
  obtain ⟨n, ns, hn⟩ := List.exists_cons_of_ne_nil h.2.1
  obtain ⟨r, hr, hrn⟩ := h.2.2 n (by rw [hn]; simp)
  intro h0
  have : r ∈ db.rows.filter fun r => decide (r.nid ∈ nids) := by
    simp only [List.mem_filter, hr, true_and, decide_eq_true_eq, hrn, hn, List.mem_cons, true_or]
  rw [h0] at this
  cases this

theorem deliver_G {F : Field V} {orig red : String → Content} {roomOf : String → String} {s : State} {sp : Spec} {p : Payload} {q : List Payload}
    (hF : Laws F) (h : G F orig red roomOf s sp) (hq : s.queue = p :: q) (hr : ResetLaw F ∨ ∀ room, .inv room ∉ s.queue) :
    G F orig red roomOf { s with queue := q, cache := handle orig red s p } sp := by
  have hsub : ∀ x ∈ q, x ∈ s.queue := fun x hx => by rw [hq]; simp [hx]
  have hkeep : ∀ room, s.cache room ≠ none → handle orig red s p room ≠ none := by
    intro room hn
    cases p with
    | inv r =>
      simp only [handle]
      split
      · next e => subst e; simpa using hn
      · exact hn
    | evs r nids =>
      simp only [handle]
      split
      · next e =>
        subst e
        split
        · exact hn
        · split
          · exact hn
          · simp
      · exact hn
  have hmake : ∀ room nids, p = .evs room nids → handle orig red s p room ≠ none := by
    rintro room nids rfl
    obtain ⟨rows, h1, h2, _⟩ := select_valid h.rel.inv (h.valid room nids (by rw [hq]; simp))
    simp [handle, h1, h2]
  have hevs : ∀ room nids, p = .evs room nids → val' F (handle orig red s p room) =
      match lastKey F.key (evsOf s.db nids) with
      | some e => F.val (s.cont orig red e.id)
      | none => val' F (s.cache room) := by
    rintro room nids rfl
    obtain ⟨rows, h1, h2, h3⟩ := select_valid h.rel.inv (h.valid room nids (by rw [hq]; simp))
    simp only [handle, if_true, h1, if_neg h2, val', fold_new hF, h3]
    cases lastKey F.key (evsOf s.db nids) with
    | some e => rfl
    | none =>
      cases s.cache room with
      | none => simp only [Option.getD_none]; exact hF.zero
      | some m => rfl
  have hother : ∀ room, (∀ nids, p ≠ .evs room nids) → p ≠ .inv room → handle orig red s p room = s.cache room := by
    intro room h1 h2
    cases p with
    | inv r =>
      simp only [handle]
      rw [if_neg]; rintro rfl; exact h2 rfl
    | evs r nids =>
      simp only [handle]
      rw [if_neg]; rintro rfl; exact h1 nids rfl
  have hinv : ∀ room, p = .inv room → (∃ m, s.cache room = some m ∧
      handle orig red s p room = some (reset (s.cont orig red) (currentRows s.db room) m) ∧ ResetLaw F) ∨
      (handle orig red s p room = none ∧ (cid sp room F.key = none ∨ lastVal (touch s.db room F.key) q ≠ none)) := by
    rintro room rfl
    by_cases hn : s.cache room = none
    · right
      refine ⟨by simp [handle, hn], ?_⟩
      rcases h.ready [] room q hq with hx | ⟨_, hm⟩ | hx
      · exact absurd hn hx
      · simp at hm
      · exact hx
    · left
      obtain ⟨m, hm⟩ := Option.ne_none_iff_exists'.1 hn
      refine ⟨m, hm, by simp [handle, hm], ?_⟩
      rcases hr with hr | hr
      · exact hr
      · exact absurd (by rw [hq]; simp) (hr room)
  constructor
  · exact h.rel
  · exact h.own
  · exact fun room nids hm => h.valid room nids (hsub _ hm)
  · intro room id hl
    refine h.touched room id ?_
    rw [hq]; simp only [lastVal]
    simp only at hl
    rw [hl, Option.some_or]
  · exact fun room nids hm => h.seen room nids (hsub _ hm)
  · intro room hl
    simp only at hl
    have hl' : lastVal (touch s.db room F.key) s.queue = touch s.db room F.key p := by
      rw [hq]; simp only [lastVal, hl, Option.none_or]
    show val' F (handle orig red s p room) = wanted F (s.cont orig red) (cid sp room F.key)
    by_cases hp1 : p = .inv room
    · rcases hinv room hp1 with ⟨m, hm, hh, hlaw⟩ | ⟨hh, hx⟩
      rotate_left
      · rw [hh]
        rcases hx with hx | hx
        · rw [hx]; rfl
        · exact absurd hl hx
      obtain ⟨c1, c2, c3, _, _⟩ := currentRows_spec h.rel room
      obtain ⟨l1, l2⟩ := hlaw (s.cont orig red) _ m c2
      rw [hh]
      simp only [val']
      cases hc : cid sp room F.key with
      | none =>
        rw [l2 fun r hr hk => by
          have := (c3 F.key r.ev.id).1 ⟨r, hr, hk, rfl⟩
          unfold cid at hc
          rw [hc] at this; cases this]
        have := h.zero room hc
        rw [hm] at this
        exact this
      | some id =>
        obtain ⟨r, hr, hk, rfl⟩ := (c3 F.key id).2 hc
        exact l1 r hr hk
    · by_cases hp2 : ∃ nids, p = .evs room nids
      · obtain ⟨nids, hp2⟩ := hp2
        rw [hevs room nids hp2]
        rw [hp2] at hl'
        simp only [touch, if_true] at hl'
        cases hk : lastKey F.key (evsOf s.db nids) with
        | none =>
          rw [hk] at hl'
          exact h.quiet room hl'
        | some e =>
          rw [hk] at hl'
          rw [h.touched room e.id hl']
          rfl
      · have hp3 : ∀ nids, p ≠ .evs room nids := fun nids e => hp2 ⟨nids, e⟩
        rw [hother room hp3 hp1]
        refine h.quiet room ?_
        rw [hl']
        cases p with
        | inv r => simp only [touch]; rw [if_neg]; rintro rfl; exact hp1 rfl
        | evs r nids => simp only [touch]; rw [if_neg]; rintro rfl; exact hp3 nids rfl
  · intro room hc
    show val' F (handle orig red s p room) = F.zero
    by_cases hp1 : p = .inv room
    · rcases hinv room hp1 with ⟨m, hm, hh, hlaw⟩ | ⟨hh, hx⟩
      rotate_left
      · rw [hh]; rfl
      obtain ⟨c1, c2, c3, _, _⟩ := currentRows_spec h.rel room
      obtain ⟨l1, l2⟩ := hlaw (s.cont orig red) _ m c2
      rw [hh]
      simp only [val']
      rw [l2 fun r hr hk => by
          have := (c3 F.key r.ev.id).1 ⟨r, hr, hk, rfl⟩
          unfold cid at hc
          rw [hc] at this; cases this]
      have := h.zero room hc
      rw [hm] at this
      exact this
    · by_cases hp2 : ∃ nids, p = .evs room nids
      · obtain ⟨nids, hp2⟩ := hp2
        rw [hevs room nids hp2]
        cases hk : lastKey F.key (evsOf s.db nids) with
        | none => exact h.zero room hc
        | some e =>
          obtain ⟨k1, k2, k3⟩ := lastKey_some hk
          exact absurd hc (h.seen room nids (by rw [hq, hp2]; simp) e k1 k2 k3)
      · rw [hother room (fun nids e => hp2 ⟨nids, e⟩) hp1]
        exact h.zero room hc
  · intro a room b he
    show handle orig red s p room ≠ none ∨ _
    simp only at he
    rcases h.ready (p :: a) room b (by rw [hq, he]; rfl) with hn | ⟨nids, hm⟩ | hx
    · exact Or.inl (hkeep room hn)
    · rcases List.mem_cons.1 hm with hm | hm
      · exact Or.inl (hmake room nids hm.symm)
      · exact Or.inr (Or.inl ⟨nids, hm⟩)
    · exact Or.inr (Or.inr hx)
  · intro room hn
    show handle orig red s p room ≠ none ∨ _
    rcases h.present room hn with hx | ⟨nids, hm⟩
    · exact Or.inl (hkeep room hx)
    · rw [hq] at hm
      rcases List.mem_cons.1 hm with hm | hm
      · exact Or.inl (hmake room nids hm.symm)
      · exact Or.inr ⟨nids, hm⟩

theorem typing_G {F : Field V} {orig red : String → Content} {roomOf : String → String} {s : State} {sp : Spec}
    (hF : Laws F) (h : G F orig red roomOf s sp) (room : String) : G F orig red roomOf (next orig red s (.typing room)) sp := by
  have hval : ∀ r, val' F ((next orig red s (.typing room)).cache r) = val' F (s.cache r) := by
    intro r
    simp only [next]
    by_cases hr : r = room
    · subst hr
      rw [if_pos rfl]
      cases s.cache r with
      | none => exact hF.zero
      | some m => rfl
    · rw [if_neg hr]
  have hne : ∀ r, s.cache r ≠ none → (next orig red s (.typing room)).cache r ≠ none := by
    intro r hr
    simp only [next]
    split
    · simp
    · exact hr
  constructor
  · exact h.rel
  · exact h.own
  · exact h.valid
  · exact h.touched
  · exact h.seen
  · intro r hl; rw [hval]; exact h.quiet r hl
  · intro r hc; rw [hval]; exact h.zero r hc
  · intro a r b he
    rcases h.ready a r b he with hx | hx
    · exact Or.inl (hne r hx)
    · exact Or.inr hx
  · intro r hn
    rcases h.present r hn with hx | hx
    · exact Or.inl (hne r hx)
    · exact Or.inr hx

/-- Loading gives the right value. -/
def LoadOk (F : Field V) (orig red : String → Content) (s : State) (sp : Spec) : Prop := ∀ ch room, s.db.cur room ≠ 0 →
  F.get (load (s.cont orig red) (currentRows s.db room) ((Assoc.get s.infos room).getD { snapshot := 0, latest := 0 }) ch) =
    wanted F (s.cont orig red) (cid sp room F.key)

theorem restart_G {F : Field V} {orig red : String → Content} {roomOf : String → String} {s : State} {sp : Spec}
    (h : G F orig red roomOf s sp) (ch : String → String → Bool) (hl : LoadOk F orig red s sp) :
    G F orig red roomOf (next orig red s (.restart ch)) sp := by
  have hz : ∀ room, s.db.cur room = 0 ↔ sp.cur room = none := fun room => (h.rel.cur room).zero h.rel.inv
  have hval : ∀ r, val' F ((next orig red s (.restart ch)).cache r) = wanted F (s.cont orig red) (cid sp r F.key) := by
    intro r
    simp only [next]
    by_cases hr : s.db.cur r = 0
    · rw [if_pos hr]
      simp only [val', cid, (hz r).1 hr, Option.getD_none, St.none, wanted]
    · rw [if_neg hr]
      exact hl (ch r) r hr
  constructor
  · exact h.rel
  · exact h.own
  · intro room nids hm; simp [next] at hm
  · intro room id hm; simp [next, lastVal] at hm
  · intro room nids hm; simp [next] at hm
  · intro r _; rw [hval]; rfl
  · intro r hc; rw [hval, hc]; rfl
  · intro a r b he; simp [next] at he
  · intro r hn
    left
    simp only [next]
    rw [if_neg (fun h0 => hn ((hz r).1 h0))]
    simp

theorem lastKey_ne {k : Key} {l : List Ev} {e : Ev} (h1 : e ∈ l) (h2 : e.hasKey = true) (h3 : e.key = k) : lastKey k l ≠ none := by
  intro h; exact lastKey_none.1 h e h1 h2 h3

theorem newSuffix_subset (known : List String) (l : List Ev) : ∀ e ∈ newSuffix known l, e ∈ l :=
  fun _ he => (newSuffix_suffix known l).subset he

theorem acc_G {F : Field V} {orig red : String → Content} {roomOf : String → String} {s : State} {sp : Spec}
    (h : G F orig red roomOf s sp) (room : String) (k : Nat) (l : Bool) (timeline : List (Option Ev))
    (hok : OkOp (.acc room k l timeline)) (hs : Sane roomOf orig (.acc room k l timeline)) :
    G F orig red roomOf (next orig red s (.op (.acc room k l timeline))) (specStep sp (.acc room k l timeline)) := by
  obtain ⟨db', post, ha, hrel', hext, hrows, hpost, hcase⟩ := accumulate_spec h.rel room k l timeline hok
  have hmem : ∀ r ∈ post, r.ev ∈ timeline.filterMap id := by
    intro r hr
    rcases hcase with ⟨rfl, _⟩ | ⟨hp, _, _⟩
    · cases hr
    · refine firsts_subset _ _ (newSuffix_subset sp.known _ _ ?_)
      rw [← hp]; exact List.mem_map_of_mem hr
  have hown : ∀ r ∈ db'.rows, roomOf r.ev.id = r.room := by
    intro r hr
    have : r.core ∈ s.db.rows.map Row.core ++ post.map Row.core := hrows ▸ List.mem_map_of_mem hr
    rcases List.mem_append.1 this with hm | hm
    · obtain ⟨q, hq, hc⟩ := List.mem_map.1 hm
      obtain ⟨_, c2, c3, _⟩ := core_eq hc
      rw [← c3, ← c2]; exact h.own q hq
    · obtain ⟨q, hq, hc⟩ := List.mem_map.1 hm
      obtain ⟨_, c2, c3, _⟩ := core_eq hc
      rw [← c3, ← c2, (hpost q hq).1]
      exact (hs _ (hmem q hq)).1
  have hnext : next orig red s (.op (.acc room k l timeline)) = accumulated orig s room db' post := by
    simp only [next, ha]
  rw [hnext]
  rcases hcase with ⟨rfl, hsp⟩ | ⟨hp, hne, hcs⟩
  · rw [hsp] at hrel' ⊢
    refine push h (P := []) ?_ rfl hrel' hext hown ?_ ?_ ?_ ?_ ?_ ?_ ?_
    · simp [accumulated, redactions]
    · simp
    · simp [lastVal]
    · intro r _
      refine ⟨rfl, fun id _ => ?_⟩
      simp [State.cont, accumulated, redactions]
    · simp
    · exact fun r hr => hr
    · intro a r b he; simp at he
    · exact fun r hr => Or.inl hr
  · have hsp := specStep_acc sp room k l timeline hp.symm
    rw [if_pos ⟨by simpa using hne, hcs⟩] at hsp
    generalize specStep sp (.acc room k l timeline) = sp' at hsp hrel' ⊢
    have hcid : ∀ r, cid sp' r F.key = if r = room then (match lastKey F.key (post.map (·.ev)) with
        | some e => some e.id
        | none => cid sp room F.key) else cid sp r F.key := by
      intro r
      rw [hsp]
      unfold cid
      simp only
      by_cases hr : r = room
      · rw [if_pos hr, if_pos hr]; exact specLoop_last _ _ _ _
      · rw [if_neg hr, if_neg hr]
    have hev : evsOf db' (post.map (·.nid)) = post.map (·.ev) := evsOf_post hrel'.inv hrows
    have hcur : ∀ r, sp'.cur r ≠ none → sp.cur r ≠ none ∨ r = room := by
      intro r hr
      by_cases hrr : r = room
      · exact Or.inr hrr
      · rw [hsp] at hr; simp only [if_neg hrr] at hr; exact Or.inl hr
    have hin : ∀ r ∈ post, ∃ q ∈ db'.rows, q.core = r.core := by
      intro r hr
      have : r.core ∈ db'.rows.map Row.core := by rw [hrows]; exact List.mem_append_right _ (List.mem_map_of_mem hr)
      obtain ⟨q, hq, hc⟩ := List.mem_map.1 this
      exact ⟨q, hq, hc⟩
    have hred : ∀ id, id ∈ redactions orig post → roomOf id = room := by
      intro id hid
      simp only [redactions, List.mem_filterMap] at hid
      obtain ⟨r, hr, hrid⟩ := hid
      split at hrid
      · next hc => cases hrid; exact (hs _ (hmem r hr)).2 hc.2.1 hc.1
      · cases hrid
    have hcont : ∀ id, id ∉ redactions orig post → (accumulated orig s room db' post).cont orig red id = s.cont orig red id := by
      intro id hid
      simp only [State.cont, accumulated, List.mem_append, List.mem_filter, hid, false_and, or_false]
    generalize hI : (if (currentRows db' room).any (fun r => decide (r.ev.id ∈ redactions orig post)) then [Payload.inv room] else []) = I
    have hImem : ∀ p ∈ I, p = .inv room := by
      intro p hp
      rw [← hI] at hp
      split at hp
      · simpa using hp
      · cases hp
    refine push h (P := I ++ [.evs room (post.map (·.nid))]) ?_ rfl hrel' hext hown ?_ ?_ ?_ ?_ ?_ ?_ ?_
    · simp only [accumulated, hI, if_neg hne, List.append_assoc]
    · intro r nids hm
      rcases List.mem_append.1 hm with hm | hm
      · cases hImem _ hm
      · simp only [List.mem_singleton, Payload.evs.injEq] at hm
        rw [hm.2]
        refine ⟨?_, by simpa using hne, ?_⟩
        · have : (db'.rows.map Row.core).Pairwise (fun a b => a.1 < b.1) := by rw [List.pairwise_map]; exact hrel'.inv.asc
          rw [hrows] at this
          have := (List.pairwise_append.1 this).2.1
          rw [List.pairwise_map] at this
          rw [List.Nodup, List.pairwise_map]
          exact this.imp fun {a b} hab => by simp only [Row.core] at hab; omega
        · intro n hn
          obtain ⟨r', hr', rfl⟩ := List.mem_map.1 hn
          obtain ⟨q, hq, hc⟩ := hin r' hr'
          exact ⟨q, hq, (core_eq hc).1⟩
    · intro r id hl
      rw [lastVal_snoc] at hl
      rw [hcid]
      by_cases hr : r = room
      · subst hr
        rw [if_pos rfl]
        simp only [touch, if_true, accumulated, hev] at hl
        cases hk : lastKey F.key (post.map (·.ev)) with
        | some e => rw [hk] at hl; simpa using hl
        | none =>
          rw [hk] at hl
          simp only [Option.map_none, Option.none_or] at hl
          obtain ⟨a, p, b, he, hp, _⟩ := (RoomsTable.lastVal_iff _ _ _).1 hl
          rw [hImem p (by rw [he]; simp)] at hp
          simp [touch] at hp
      · exfalso
        have h1 : touch (accumulated orig s room db' post).db r F.key (.evs room (post.map (·.nid))) = none := by
          simp only [touch]; rw [if_neg (fun e => hr e.symm)]
        rw [h1, Option.none_or] at hl
        obtain ⟨a, p, b, he, hp, _⟩ := (RoomsTable.lastVal_iff _ _ _).1 hl
        rw [hImem p (by rw [he]; simp)] at hp
        simp only [touch] at hp
        rw [if_neg (fun e => hr e.symm)] at hp
        cases hp
    · intro r hl
      rw [lastVal_snoc, Option.or_eq_none_iff] at hl
      obtain ⟨hl1, hl2⟩ := hl
      by_cases hr : r = room
      · subst hr
        simp only [touch, if_true, accumulated, hev, Option.map_eq_none_iff] at hl1
        refine ⟨by rw [hcid, if_pos rfl, hl1], fun id hid => hcont id fun hmem' => ?_⟩
        have hc' : cid sp' r F.key = some id := by rw [hcid, if_pos rfl, hl1]; exact hid
        obtain ⟨q, hq, _, hqid⟩ := ((currentRows_spec hrel' r).2.2.1 F.key id).2 hc'
        have : (currentRows db' r).any (fun x => decide (x.ev.id ∈ redactions orig post)) = true := by
          rw [List.any_eq_true]; exact ⟨q, hq, by rw [hqid]; simpa using hmem'⟩
        rw [if_pos this] at hI
        rw [← hI] at hl2
        simp [lastVal, touch] at hl2
      · refine ⟨by rw [hcid, if_neg hr], fun id hid => hcont id fun hmem' => ?_⟩
        obtain ⟨q, hq, _, hqid⟩ := ((currentRows_spec h.rel r).2.2.1 F.key id).2 hid
        obtain ⟨hq1, hq2⟩ := (currentRows_spec h.rel r).1 q hq
        have h1 := h.own q hq1
        rw [hqid, hq2] at h1
        exact hr (h1.symm.trans (hred id hmem'))
    · intro r nids hm e he h1 h2
      rcases List.mem_append.1 hm with hm | hm
      · cases hImem _ hm
      · simp only [List.mem_singleton, Payload.evs.injEq] at hm
        rw [hm.2] at he
        simp only [accumulated, hev] at he
        rw [hcid, if_pos hm.1]
        have := lastKey_ne he h1 h2
        cases hk : lastKey F.key (post.map (·.ev)) with
        | none => exact absurd hk this
        | some x => simp
    · intro r hr
      rw [hcid]
      by_cases hrr : r = room
      · rw [if_pos hrr]
        cases hk : lastKey F.key (post.map (·.ev)) with
        | none => rw [← hrr]; exact hr
        | some x => simp
      · rw [if_neg hrr]; exact hr
    · intro a r b he
      rcases List.eq_nil_or_concat b with rfl | ⟨b', x, rfl⟩
      · exfalso
        have := List.append_inj' he rfl
        simp at this
      · rw [List.concat_eq_append, show a ++ Payload.inv r :: (b' ++ [x]) = (a ++ .inv r :: b') ++ [x] by simp] at he
        obtain ⟨he1, he2⟩ := List.append_inj' he rfl
        have hr : r = room := by
          have := hImem (.inv r) (by rw [he1]; simp)
          simpa using this
        subst hr
        by_cases hsc : sp.cur r = none
        · right; right
          by_cases hc : cid sp' r F.key = none
          · exact Or.inl hc
          · right
            rw [List.concat_eq_append, lastVal_snoc]
            simp only [List.cons.injEq, and_true] at he2
            rw [← he2]
            intro h0
            have h0 := (Option.or_eq_none_iff.1 h0).1
            simp only [touch, if_true, accumulated, hev, Option.map_eq_none_iff] at h0
            apply hc
            rw [hcid, if_pos rfl, h0]
            simp only [cid, hsc, Option.getD_none, St.none]
        · exact Or.inl hsc
    · intro r hr
      rcases hcur r hr with hx | rfl
      · exact Or.inl hx
      · exact Or.inr ⟨post.map (·.nid), by simp⟩

theorem init_G {F : Field V} {orig red : String → Content} {roomOf : String → String} {s : State} {sp : Spec}
    (h : G F orig red roomOf s sp) (hti : TI s.db) (room : String) (k : Nat) (block : List (Option Ev))
    (hok : OkOp (.init room k block)) (hs : Sane roomOf orig (.init room k block)) :
    G F orig red roomOf (next orig red s (.op (.init room k block))) (specStep sp (.init room k block)) := by
  obtain ⟨hrel', hext, new, hrows, hnew, _, _⟩ := initialise_spec h.rel room k block hok
  obtain ⟨_, new', hrows', _, _, hsubl⟩ := step_table hti (.init room k block)
  have hnn : new' = new.map Row.core := by
    rw [hrows] at hrows'; exact (List.append_cancel_left hrows').symm
  have hnewev : ∀ r ∈ new, r.ev ∈ block.filterMap id := by
    intro r hr
    refine hsubl.subset ?_
    rw [hnn, List.map_map]
    exact List.mem_map_of_mem (f := (fun c => c.2.2.1) ∘ Row.core) hr
  have hsplit : ∀ r ∈ (Store.step s.db (.init room k block)).rows, (∃ q ∈ s.db.rows, q.core = r.core) ∨ ∃ q ∈ new, q.core = r.core := by
    intro r hr
    have : r.core ∈ s.db.rows.map Row.core ++ new.map Row.core := hrows ▸ List.mem_map_of_mem hr
    rcases List.mem_append.1 this with hm | hm
    · obtain ⟨q, hq, hc⟩ := List.mem_map.1 hm; exact Or.inl ⟨q, hq, hc⟩
    · obtain ⟨q, hq, hc⟩ := List.mem_map.1 hm; exact Or.inr ⟨q, hq, hc⟩
  have hown : ∀ r ∈ (Store.step s.db (.init room k block)).rows, roomOf r.ev.id = r.room := by
    intro r hr
    rcases hsplit r hr with ⟨q, hq, hc⟩ | ⟨q, hq, hc⟩
    · obtain ⟨_, c2, c3, _⟩ := core_eq hc
      rw [← c3, ← c2]; exact h.own q hq
    · obtain ⟨_, c2, c3, _⟩ := core_eq hc
      rw [← c3, ← c2, (hnew q hq).1]
      exact (hs _ (hnewev q hq)).2
  have hcond := init_cond h.rel room k block hok
  simp only at hcond
  have hstep : Store.step s.db (.init room k block) = (initialise s.db room k block).getD s.db := rfl
  rcases hcond with ⟨hlen, hsp⟩ | ⟨hlen, hsp⟩
  · rw [hsp] at hrel' ⊢
    have hnx : next orig red s (.op (.init room k block)) = { s with db := Store.step s.db (.init room k block) } := by
      cases ha : initialise s.db room k block with
      | none =>
        rw [hstep, ha]; simp only [next, ha, Option.getD_none]
      | some db' =>
        rw [hstep, ha, Option.getD_some] at hlen
        rw [hstep, ha]; simp only [next, ha, Option.getD_some, if_pos hlen]
    rw [hnx]
    refine push h (P := []) (by simp) rfl hrel' hext hown ?_ ?_ ?_ ?_ ?_ ?_ ?_
    · simp
    · simp [lastVal]
    · intro r _; exact ⟨rfl, fun id _ => rfl⟩
    · simp
    · exact fun r hr => hr
    · intro a r b he; simp at he
    · exact fun r hr => Or.inl hr
  · have hnx : next orig red s (.op (.init room k block)) = initialised orig s room (Store.step s.db (.init room k block)) block := by
      cases ha : initialise s.db room k block with
      | none => rw [hstep, ha] at hlen; exact absurd rfl hlen
      | some db' =>
        rw [hstep, ha, Option.getD_some] at hlen
        rw [hstep, ha]; simp only [next, ha, Option.getD_some, if_neg hlen]
    rw [hnx]
    generalize Store.step s.db (.init room k block) = db' at *
    obtain ⟨N, hNmem, hsp⟩ : ∃ N : List Ev, (∀ e ∈ N, e ∈ block.filterMap id ∧ e.id ∉ sp.known) ∧
        specStep sp (.init room k block) = { sp with
          known := sp.known ++ N.map (·.id)
          cur := fun r => if r = room then some (N.foldl St.apply ((sp.cur room).getD St.none)) else sp.cur r } := by
      refine ⟨_, ?_, hsp⟩
      intro e he
      obtain ⟨h1, h2⟩ := List.mem_filter.1 he
      exact ⟨h1, of_decide_eq_true h2⟩
    have hNne : N ≠ [] := by
      intro h0
      rw [h0] at hsp
      apply hlen
      have : new = [] := by
        cases hnw : new with
        | nil => rfl
        | cons r rs =>
          exfalso
          have hr : r.core ∈ db'.rows.map Row.core := by rw [hrows, hnw]; simp
          obtain ⟨q, hq, hqc⟩ := List.mem_map.1 hr
          have hk : q.ev.id ∈ (specStep sp (.init room k block)).known := (hrel'.known _).2 ⟨q, hq, rfl⟩
          rw [hsp] at hk
          simp only [List.map_nil, List.append_nil] at hk
          obtain ⟨x, hx, hxe⟩ := (h.rel.known _).1 hk
          have hids := hrel'.inv.ids
          have hcore : db'.rows.map (·.ev.id) = s.db.rows.map (·.ev.id) ++ new.map (·.ev.id) := by
            have hc' : ∀ l : List Row, l.map (·.ev.id) = (l.map Row.core).map (fun c => c.2.2.1.id) := by
              intro l; simp [List.map_map, Function.comp_def, Row.core]
            rw [hc', hc' s.db.rows, hc' new, ← List.map_append, hrows]
          rw [hcore] at hids
          refine (List.nodup_append.1 hids).2.2 _ (List.mem_map_of_mem (f := fun r : Row => r.ev.id) hx) _
            (List.mem_map_of_mem (f := fun r : Row => r.ev.id) (show r ∈ new by rw [hnw]; simp)) ?_
          rw [hxe, (core_eq hqc).2.2.1]
      have h1 := congrArg List.length hrows
      rw [this] at h1
      simpa using h1
    generalize specStep sp (.init room k block) = sp' at *
    have hcid : ∀ r, cid sp' r F.key = if r = room then (match lastKey F.key N with
        | some e => some e.id
        | none => cid sp room F.key) else cid sp r F.key := by
      intro r
      rw [hsp]
      unfold cid
      simp only
      by_cases hr : r = room
      · rw [if_pos hr, if_pos hr, Option.getD_some]
        exact foldl_apply_last _ _ _ fun e he _ => (hs e (hNmem e he).1).1
      · rw [if_neg hr, if_neg hr]
    have p5 : ∀ r, cid sp r F.key ≠ none → cid sp' r F.key ≠ none := by
      intro r hr
      rw [hcid]
      by_cases hrr : r = room
      · rw [if_pos hrr]
        cases hk : lastKey F.key N with
        | none => rw [← hrr]; exact hr
        | some x => simp
      · rw [if_neg hrr]; exact hr
    have hcur : ∀ r, sp'.cur r ≠ none → sp.cur r ≠ none ∨ r = room := by
      intro r hr
      by_cases hrr : r = room
      · exact Or.inr hrr
      · rw [hsp] at hr; simp only [if_neg hrr] at hr; exact Or.inl hr
    have hz := (h.rel.cur room).zero h.rel.inv
    by_cases hc0 : s.db.cur room > 0
    · have hsc : sp.cur room ≠ none := fun h0 => by have := hz.2 h0; omega
      refine push h (P := [.inv room]) (by simp [initialised, hc0]) rfl hrel' hext hown ?_ ?_ ?_ ?_ p5 ?_ ?_
      · simp
      · intro r id hl
        simp only [lastVal, Option.none_or, touch] at hl
        split at hl <;> simp at hl
      · intro r hl
        simp only [lastVal, Option.none_or, touch] at hl
        split at hl
        · cases hl
        · next hr => exact ⟨by rw [hcid, if_neg (fun e => hr e.symm)], fun id _ => rfl⟩
      · simp
      · intro a r b he
        left
        have : Payload.inv r ∈ [Payload.inv room] := by rw [he]; simp
        simp only [List.mem_singleton, Payload.inv.injEq] at this
        rw [this]; exact hsc
      · intro r hr
        rcases hcur r hr with hx | rfl
        · exact Or.inl hx
        · exact Or.inl hsc
    · have hc1 : s.db.cur room = 0 := by omega
      have hscn : sp.cur room = none := hz.1 hc1
      obtain ⟨c1, c2, c3, c4, c5⟩ := currentRows_spec hrel' room
      have hcn : cid sp room F.key = none := by simp only [cid, hscn, Option.getD_none, St.none]
      refine push h (P := [.evs room ((currentRows db' room).map (·.nid))]) (by simp [initialised, hc1]) rfl hrel' hext hown ?_ ?_ ?_ ?_ p5 ?_ ?_
      · intro r nids hm
        simp only [List.mem_singleton, Payload.evs.injEq] at hm
        rw [hm.2]
        refine ⟨c5, ?_, ?_⟩
        · intro h0
          have h0 := List.eq_nil_of_map_eq_nil h0
          obtain ⟨e, N', hN'⟩ := List.exists_cons_of_ne_nil hNne
          have : ∃ id, (sp'.cur room).getD St.none e.key = some id := by
            rw [hsp]
            simp only [if_true, Option.getD_some]
            rw [foldl_apply_last _ _ _ fun x hx _ => (hs x (hNmem x hx).1).1]
            have heN : e ∈ N := by rw [hN']; simp
            have := lastKey_ne (k := e.key) heN (hs e (hNmem e heN).1).1 rfl
            cases hk : lastKey e.key N with
            | none => exact absurd hk this
            | some x => exact ⟨x.id, rfl⟩
          obtain ⟨id, hid⟩ := this
          obtain ⟨q, hq, _⟩ := (c3 e.key id).2 hid
          rw [h0] at hq; cases hq
        · intro n hn
          obtain ⟨q, hq, rfl⟩ := List.mem_map.1 hn
          exact ⟨q, (c1 q hq).1, rfl⟩
      · intro r id hl
        simp only [lastVal, Option.none_or, touch] at hl
        split at hl
        · next hr =>
          subst hr
          simp only [initialised, c4, Option.map_eq_some_iff, Option.some.injEq] at hl
          obtain ⟨e, he, rfl⟩ := hl
          obtain ⟨k1, k2, k3⟩ := lastKey_some he
          obtain ⟨q, hq, hqe⟩ := List.mem_map.1 k1
          exact (c3 F.key e.id).1 ⟨q, hq, by rw [hqe]; exact k3, by rw [hqe]⟩
        · cases hl
      · intro r hl
        simp only [lastVal, Option.none_or, touch] at hl
        split at hl
        · next hr =>
          subst hr
          simp only [initialised, c4, Option.map_eq_none_iff] at hl
          refine ⟨?_, fun id hid => by rw [hcn] at hid; cases hid⟩
          rw [hcn]
          cases hc : cid sp' room F.key with
          | none => rfl
          | some id =>
            exfalso
            obtain ⟨q, hq, hqk, hqid⟩ := (c3 F.key id).2 hc
            rw [hcid, if_pos rfl] at hc
            cases hk : lastKey F.key N with
            | none => rw [hk] at hc; simp only at hc; rw [hcn] at hc; cases hc
            | some e =>
              rw [hk] at hc
              simp only [Option.some.injEq] at hc
              obtain ⟨k1, k2, k3⟩ := lastKey_some hk
              have hunk := (hNmem e k1).2
              rcases hsplit q (c1 q hq).1 with ⟨x, hx, hxc⟩ | ⟨x, hx, hxc⟩
              · apply hunk
                rw [hc]
                exact (h.rel.known id).2 ⟨x, hx, by rw [(core_eq hxc).2.2.1]; exact hqid⟩
              · have hkey : q.ev.hasKey = true := by
                  rw [← (core_eq hxc).2.2.1]; exact (hs _ (hnewev x hx)).1
                exact lastKey_ne (List.mem_map_of_mem (f := fun r : Row => r.ev) hq) hkey hqk hl
        · next hr => exact ⟨by rw [hcid, if_neg (fun e => hr e.symm)], fun id _ => rfl⟩
      · intro r nids hm e he k1 k2
        simp only [List.mem_singleton, Payload.evs.injEq] at hm
        rw [hm.2] at he
        simp only [initialised, c4] at he
        obtain ⟨q, hq, hqe⟩ := List.mem_map.1 he
        have := (c3 F.key e.id).1 ⟨q, hq, by rw [hqe]; exact k2, by rw [hqe]⟩
        rw [hm.1]; unfold cid; rw [this]; simp
      · intro a r b he
        exfalso
        have : Payload.inv r ∈ [Payload.evs room ((currentRows db' room).map (·.nid))] := by rw [he]; simp
        simp at this
      · intro r hr
        rcases hcur r hr with hx | rfl
        · exact Or.inl hx
        · exact Or.inr ⟨_, List.mem_singleton.2 rfl⟩

/-! ## Whole histories -/

theorem run_step_snoc (orig red : String → Content) (l : List Step) (x : Step) :
    run orig red (l ++ [x]) = next orig red (run orig red l) x := by
  unfold run; rw [List.foldl_append]; rfl

theorem ops_snoc (l : List Step) (x : Step) : ops (l ++ [x]) = ops l ++ ops [x] := by
  induction l with
  | nil => rfl
  | cons a l ih =>
    cases a <;> simp only [List.cons_append, ops, ih]

theorem next_db (orig red : String → Content) (s : State) (o : Op) : (next orig red s (.op o)).db = Store.step s.db o := by
  cases o with
  | acc room k l timeline =>
    simp only [next, Store.step]
    cases accumulate s.db room k l timeline with
    | none => rfl
    | some p => rfl
  | init room k block =>
    simp only [next, Store.step]
    cases initialise s.db room k block with
    | none => rfl
    | some db' =>
      dsimp only
      split <;> rfl

theorem run_db (orig red : String → Content) (steps : List Step) : (run orig red steps).db = Store.run (ops steps) := by
  induction steps using Verif.Util.snocRec with
  | nil => rfl
  | append_singleton l x ih =>
    rw [run_step_snoc, ops_snoc]
    cases x with
    | op o => rw [next_db, ih]; simp only [ops]; rw [run_snoc]
    | deliver =>
      simp only [ops, List.append_nil, next]
      split <;> exact ih
    | typing room => simpa only [ops, List.append_nil, next] using ih
    | restart ch => simpa only [ops, List.append_nil, next] using ih

theorem run_G {F : Field V} {orig red : String → Content} {roomOf : String → String} (hF : Laws F) (steps : List Step)
    (hok : ∀ o ∈ ops steps, OkOp o ∧ Sane roomOf orig o)
    (hr : ResetLaw F ∨ ∀ a b, steps = a ++ b → ∀ room, .inv room ∉ (run orig red a).queue)
    (hl : ∀ a ch b, steps = a ++ .restart ch :: b → LoadOk F orig red (run orig red a) (specRun (ops a))) :
    G F orig red roomOf (run orig red steps) (specRun (ops steps)) := by
  induction steps using Verif.Util.snocRec with
  | nil =>
    constructor
    · exact Store.Rel.empty
    · intro r hr; cases hr
    · intro r n hm; cases hm
    · intro r id hm; cases hm
    · intro r n hm; cases hm
    · intro r _; rfl
    · intro r _; rfl
    · intro a r b he; simp [run] at he
    · intro r hn; exact absurd rfl hn
  | append_singleton l x ih =>
    have hokl : ∀ o ∈ ops l, OkOp o ∧ Sane roomOf orig o := fun o ho => hok o (by rw [ops_snoc]; simp [ho])
    have ih := ih hokl (hr.imp_right fun hr a b he => hr a (b ++ [x]) (by rw [he, List.append_assoc]))
      (fun a ch b he => hl a ch (b ++ [x]) (by rw [he]; simp))
    rw [run_step_snoc, ops_snoc]
    cases x with
    | op o =>
      have ho := hok o (by rw [ops_snoc]; simp [ops])
      simp only [ops]
      rw [specRun_snoc]
      cases o with
      | acc room k lim timeline => exact acc_G ih room k lim timeline ho.1 ho.2
      | init room k block =>
        refine init_G ih ?_ room k block ho.1 ho.2
        rw [run_db]; exact run_table _
    | deliver =>
      simp only [ops, List.append_nil]
      cases hq : (run orig red l).queue with
      | nil => simp only [next, hq]; exact ih
      | cons p q =>
        have := deliver_G hF ih hq (hr.imp_right fun hr => hr l [.deliver] rfl)
        simpa only [next, hq] using this
    | typing room =>
      simp only [ops, List.append_nil]
      exact typing_G hF ih room
    | restart ch =>
      simp only [ops, List.append_nil]
      exact restart_G ih ch (hl l ch [] rfl)

theorem G.agrees {F : Field V} {orig red : String → Content} {roomOf : String → String} {s : State} {sp : Spec}
    (h : G F orig red roomOf s sp) (hq : s.queue = []) : Agrees F orig red s := by
  intro room
  refine ⟨fun k id hc => ?_, fun m hm => ?_⟩
  · have hn : sp.cur room ≠ none := by
      intro h0
      have := (current_iff h.rel room k id).1 hc
      rw [h0] at this; simp [St.none] at this
    rcases h.present room hn with hx | ⟨nids, hx⟩
    · exact hx
    · rw [hq] at hx; cases hx
  · have := h.quiet room (by rw [hq]; rfl)
    rw [hm] at this
    simp only [val'] at this
    rw [this]
    constructor
    · intro id hid
      have := (current_iff h.rel room F.key id).1 hid
      unfold cid; rw [this]; rfl
    · intro hid
      cases hc : cid sp room F.key with
      | none => rfl
      | some id => exact absurd ((current_iff h.rel room F.key id).2 hc) (hid id)

/-! ## The fields -/

theorem key_iff (e : Ev) (t k : String) : e.key = (t, k) ↔ e.type = t ∧ e.stateKey = k := by
  unfold Ev.key; exact Prod.mk.injEq _ _ _ _ ▸ Iff.rfl

theorem nameF_laws : Laws nameF := by
  refine ⟨rfl, fun c m e => ?_⟩
  simp only [nameF, key_iff, onNew]
  by_cases h : e.type = "m.room.name"
  · simp only [h, if_true, true_and]; split <;> rfl
  · simp only [h, if_false, false_and, and_false]
    (repeat' split) <;> rfl

theorem avatarF_laws : Laws avatarF := by
  refine ⟨rfl, fun c m e => ?_⟩
  simp only [avatarF, key_iff, onNew]
  by_cases h : e.type = "m.room.avatar"
  · simp [h]; split <;> rfl
  · simp only [h, if_false, false_and, and_false]
    (repeat' split) <;> rfl

theorem aliasF_laws : Laws aliasF := by
  refine ⟨rfl, fun c m e => ?_⟩
  simp only [aliasF, key_iff, onNew]
  by_cases h : e.type = "m.room.canonical_alias"
  · simp [h]; split <;> rfl
  · simp only [h, if_false, false_and, and_false]
    (repeat' split) <;> rfl

theorem encF_laws : Laws encF := by
  refine ⟨rfl, fun c m e => ?_⟩
  simp only [encF, key_iff, onNew]
  by_cases h : e.type = "m.room.encryption"
  · simp [h]; split <;> simp_all
  · simp only [h, if_false, false_and, and_false]
    (repeat' split) <;> rfl

theorem upgradedF_laws : Laws upgradedF := by
  refine ⟨rfl, fun c m e => ?_⟩
  simp only [upgradedF, key_iff, onNew]
  by_cases h : e.type = "m.room.tombstone"
  · simp [h]; split <;> rfl
  · simp only [h, if_false, false_and, and_false]
    (repeat' split) <;> rfl

theorem childF_laws (child : String) : Laws (childF child) := by
  refine ⟨rfl, fun c m e => ?_⟩
  simp only [childF, key_iff, onNew]
  by_cases h : e.type = "m.space.child"
  · simp only [h, if_true, true_and]
    by_cases hk : e.hasKey = true
    · by_cases hs : e.stateKey = child
      · simp [hk, hs]
      · simp [hk, hs]
        exact fun h => absurd h.symm hs
    · simp [hk]
  · simp only [h, if_false, false_and, and_false]
    (repeat' split) <;> rfl

/-- A loop that sets the field for rows with the key of the field, and only for them. -/
theorem fold_rows {F : Field V} {f : (String → Content) → Meta → Row → Meta} {cont : String → Content} {p : Row → Bool}
    (hf : ∀ m r, p r = true → F.get (f cont m r) = if r.ev.key = F.key then F.val (cont r.ev.id) else F.get m)
    (hp : ∀ r : Row, r.ev.key = F.key → p r = true) (rows : List Row) (m : Meta)
    (hd : rows.Pairwise (fun a b => a.ev.key ≠ b.ev.key)) :
    (∀ r ∈ rows, r.ev.key = F.key → F.get ((rows.filter p).foldl (f cont) m) = F.val (cont r.ev.id)) ∧
    ((∀ r ∈ rows, r.ev.key ≠ F.key) → F.get ((rows.filter p).foldl (f cont) m) = F.get m) := by
  induction rows using Verif.Util.snocRec with
  | nil => simp
  | append_singleton l x ih =>
    rw [List.pairwise_append] at hd
    obtain ⟨ih1, ih2⟩ := ih hd.1
    have hfold : F.get (((l ++ [x]).filter p).foldl (f cont) m) =
        if x.ev.key = F.key then F.val (cont x.ev.id) else F.get ((l.filter p).foldl (f cont) m) := by
      rw [List.filter_append, List.foldl_append, List.filter_cons, List.filter_nil]
      by_cases hx : p x = true
      · rw [if_pos hx]
        simp only [List.foldl_cons, List.foldl_nil]
        exact hf _ x hx
      · rw [if_neg hx, List.foldl_nil, if_neg (fun h => hx (hp x h))]
    rw [hfold]
    constructor
    · intro r hr hk
      rcases List.mem_append.1 hr with hr | hr
      · have : x.ev.key ≠ F.key := fun h => hd.2.2 r hr x (by simp) (hk.trans h.symm)
        rw [if_neg this]; exact ih1 r hr hk
      · rw [List.mem_singleton.1 hr] at hk ⊢
        rw [if_pos hk]
    · intro h
      rw [if_neg (h x (by simp))]
      exact ih2 fun r hr => h r (by simp [hr])

theorem nameF_reset : ResetLaw nameF := by
  intro cont rows m hd
  refine fold_rows (F := nameF) (f := resetStep) (p := queried) ?_ ?_ rows { m with children := fun _ => false } hd
  · intro m r hq
    simp only [nameF, key_iff, resetStep]
    simp only [queried, Bool.and_eq_true, decide_eq_true_eq] at hq
    simp only [hq.2, and_true]
    (repeat' split) <;> simp_all
  · intro r hk
    simp only [nameF, key_iff] at hk
    simp [queried, hk.1, hk.2]

theorem avatarF_reset : ResetLaw avatarF := by
  intro cont rows m hd
  refine fold_rows (F := avatarF) (f := resetStep) (p := queried) ?_ ?_ rows { m with children := fun _ => false } hd
  · intro m r hq
    simp only [avatarF, key_iff, resetStep]
    simp only [queried, Bool.and_eq_true, decide_eq_true_eq] at hq
    simp only [hq.2, and_true]
    (repeat' split) <;> simp_all
  · intro r hk
    simp only [avatarF, key_iff] at hk
    simp [queried, hk.1, hk.2]

theorem aliasF_reset : ResetLaw aliasF := by
  intro cont rows m hd
  refine fold_rows (F := aliasF) (f := resetStep) (p := queried) ?_ ?_ rows { m with children := fun _ => false } hd
  · intro m r hq
    simp only [aliasF, key_iff, resetStep]
    simp only [queried, Bool.and_eq_true, decide_eq_true_eq] at hq
    simp only [hq.2, and_true]
    (repeat' split) <;> simp_all
  · intro r hk
    simp only [aliasF, key_iff] at hk
    simp [queried, hk.1, hk.2]

theorem encF_reset : ResetLaw encF := by
  intro cont rows m hd
  refine fold_rows (F := encF) (f := resetStep) (p := queried) ?_ ?_ rows { m with children := fun _ => false } hd
  · intro m r hq
    simp only [encF, key_iff, resetStep]
    simp only [queried, Bool.and_eq_true, decide_eq_true_eq] at hq
    simp only [hq.2, and_true]
    (repeat' split) <;> simp_all
  · intro r hk
    simp only [encF, key_iff] at hk
    simp [queried, hk.1, hk.2]

/-- Loading the fields read from the current state. -/
theorem load_ok {F : Field V} {orig red : String → Content} {s : State} {sp : Spec} (hrel : Store.Rel s.db sp) (h0 : F.get {} = F.zero)
    (hget : ∀ (m : Meta) e u t p c, F.get { m with enc := e, upgraded := u, type := t, pred := p, children := c } = F.get m)
    (hf : ∀ cont m r, F.get (loadStep cont m r) = if r.ev.key = F.key then F.val (cont r.ev.id) else F.get m)
    (hp : F.key.1 ∈ ["m.room.name", "m.room.canonical_alias", "m.room.avatar"]) : LoadOk F orig red s sp := by
  intro ch room hc
  obtain ⟨c1, c2, c3, _, _⟩ := currentRows_spec hrel room
  unfold load
  simp only
  rw [hget]
  obtain ⟨l1, l2⟩ := fold_rows (F := F) (f := loadStep) (cont := s.cont orig red)
    (p := fun r => decide (r.ev.type ∈ ["m.room.name", "m.room.canonical_alias", "m.room.avatar"]))
    (fun m r _ => hf _ m r) (fun r hk => by
      rw [decide_eq_true_eq]
      have : r.ev.type = F.key.1 := by rw [← hk]; rfl
      rw [this]; exact hp) (currentRows s.db room) {} c2
  cases hcid : cid sp room F.key with
  | none =>
    rw [l2 fun r hr hk => by
      have := (c3 F.key r.ev.id).1 ⟨r, hr, hk, rfl⟩
      unfold cid at hcid; rw [hcid] at this; cases this]
    exact h0
  | some id =>
    obtain ⟨r, hr, hk, rfl⟩ := (c3 F.key id).2 hcid
    exact l1 r hr hk

/-- What upstream may send in a whole history. -/
def OkSteps (roomOf : String → String) (orig : String → Content) (steps : List Step) : Prop :=
  ∀ o ∈ ops steps, OkOp o ∧ Sane roomOf orig o

theorem restarts_rel {roomOf : String → String} {orig red : String → Content} {steps a b : List Step} {x : Step}
    (hok : OkSteps roomOf orig steps) (he : steps = a ++ x :: b) : Store.Rel (run orig red a).db (specRun (ops a)) := by
  rw [run_db]
  refine run_spec _ fun o ho => (hok o ?_).1
  have : ∀ l m : List Step, ops (l ++ m) = ops l ++ ops m := by
    intro l m
    induction m using Verif.Util.snocRec with
    | nil => simp [ops]
    | append_singleton m y ih => rw [← List.append_assoc, ops_snoc, ih, ops_snoc m, List.append_assoc]
  rw [he, this]; simp [ho]

/-- **C74.** After any history of timelines, state blocks, redactions, typing notifications and restarts, interleaved in
any way with the delivery of the announcements: whenever nothing is waiting to be delivered, the cached name, avatar and
alias of every room are those of its current state. -/
theorem C74_text (roomOf : String → String) (orig red : String → Content) (steps : List Step) (hok : OkSteps roomOf orig steps)
    (hq : (run orig red steps).queue = []) :
    Agrees nameF orig red (run orig red steps) ∧ Agrees avatarF orig red (run orig red steps) ∧ Agrees aliasF orig red (run orig red steps) := by
  refine ⟨(run_G nameF_laws steps hok (Or.inl nameF_reset) ?_).agrees hq, (run_G avatarF_laws steps hok (Or.inl avatarF_reset) ?_).agrees hq,
    (run_G aliasF_laws steps hok (Or.inl aliasF_reset) ?_).agrees hq⟩
  · intro a ch b he
    refine load_ok (restarts_rel hok he) rfl (fun m e u t p c => rfl) (fun cont m r => ?_) (by decide)
    simp only [nameF, key_iff, loadStep]
    (repeat' split) <;> simp_all
  · intro a ch b he
    refine load_ok (restarts_rel hok he) rfl (fun m e u t p c => rfl) (fun cont m r => ?_) (by decide)
    simp only [avatarF, key_iff, loadStep]
    (repeat' split) <;> simp_all
  · intro a ch b he
    refine load_ok (restarts_rel hok he) rfl (fun m e u t p c => rfl) (fun cont m r => ?_) (by decide)
    simp only [aliasF, key_iff, loadStep]
    (repeat' split) <;> simp_all

/-- No room was invalidated so far. -/
def NeverInvalidated (orig red : String → Content) (steps : List Step) : Prop :=
  ∀ a b, steps = a ++ b → ∀ room, .inv room ∉ (run orig red a).queue

/-- No restart. -/
def NeverRestarted (steps : List Step) : Prop := ∀ ch, .restart ch ∉ steps

theorem never {steps a b : List Step} {ch} (h : NeverRestarted steps) (he : steps = a ++ .restart ch :: b) : False :=
  h ch (by rw [he]; simp)

/-- **C74, partial**, for the upgrade and the children of a room: as long as no room is invalidated and without
restarts.  Missing: after an invalidation the claim is false, see `C74_violated_children` and `C74_violated_upgraded`; at
a restart both are read from other tables, see C59, C71 and C73. -/
theorem C74_partial (roomOf : String → String) (orig red : String → Content) (steps : List Step) (hok : OkSteps roomOf orig steps)
    (hq : (run orig red steps).queue = []) (hi : NeverInvalidated orig red steps) (hr : NeverRestarted steps) :
    Agrees upgradedF orig red (run orig red steps) ∧ ∀ child, Agrees (childF child) orig red (run orig red steps) :=
  ⟨(run_G upgradedF_laws steps hok (Or.inr hi) fun _ _ _ he => (never hr he).elim).agrees hq,
   fun child => (run_G (childF_laws child) steps hok (Or.inr hi) fun _ _ _ he => (never hr he).elim).agrees hq⟩

/-! ## Encryption -/

/-- The events of an operation. -/
def evsIn : Op → List Ev
  | .acc _ _ _ timeline => timeline.filterMap id
  | .init _ _ block => block.filterMap id

/-- An event id names one event, and an event of type `m.room.encryption` has a state key. -/
def Named (evOf : String → Ev) (o : Op) : Prop := ∀ e ∈ evsIn o, e = evOf e.id ∧ (e.type = "m.room.encryption" → e.hasKey = true)

/-- What an operation does to the rows, the current state and the room info: nothing, or it stores the events `N` among
the events `M`. -/
theorem op_shape {orig red : String → Content} {roomOf : String → String} {s : State} {sp : Spec} (hrel : Store.Rel s.db sp)
    (hti : TI s.db) (o : Op) (hok : OkOp o) (hs : Sane roomOf orig o) :
    ((∀ r ∈ (next orig red s (.op o)).db.rows, ∃ q ∈ s.db.rows, q.core = r.core) ∧ specStep sp o = sp ∧
      (next orig red s (.op o)).infos = s.infos) ∨
    ∃ (room : String) (N M : List Ev) (a b : Nat), (∀ e ∈ M, e ∈ evsIn o ∧ roomOf e.id = room) ∧ (∀ e ∈ N, e ∈ M) ∧
      (∀ e ∈ M, e ∉ N → ∃ q ∈ s.db.rows, q.ev.id = e.id) ∧
      (∀ r ∈ (next orig red s (.op o)).db.rows, (∃ q ∈ s.db.rows, q.core = r.core) ∨ (r.room = room ∧ r.ev ∈ N)) ∧
      (∀ r k, cid (specStep sp o) r k = if r = room then (match lastKey k N with
        | some e => some e.id
        | none => cid sp room k) else cid sp r k) ∧
      (next orig red s (.op o)).infos = RoomsTable.step s.infos ⟨room, M.map (toInfo orig), a, b⟩ := by
  cases o with
  | acc room k l timeline =>
    obtain ⟨db', post, ha, hrel', hext, hrows, hpost, hcase⟩ := accumulate_spec hrel room k l timeline hok
    have hnext : next orig red s (.op (.acc room k l timeline)) = accumulated orig s room db' post := by simp only [next, ha]
    rw [hnext]
    have hsplit : ∀ r ∈ db'.rows, (∃ q ∈ s.db.rows, q.core = r.core) ∨ ∃ q ∈ post, q.core = r.core := by
      intro r hr
      have : r.core ∈ s.db.rows.map Row.core ++ post.map Row.core := hrows ▸ List.mem_map_of_mem hr
      rcases List.mem_append.1 this with hm | hm
      · obtain ⟨q, hq, hc⟩ := List.mem_map.1 hm; exact Or.inl ⟨q, hq, hc⟩
      · obtain ⟨q, hq, hc⟩ := List.mem_map.1 hm; exact Or.inr ⟨q, hq, hc⟩
    rcases hcase with ⟨rfl, hsp⟩ | ⟨hp, hne, hcs⟩
    · refine Or.inl ⟨fun r hr => ?_, hsp, by simp [accumulated]⟩
      rcases hsplit r hr with hx | ⟨q, hq, _⟩
      · exact hx
      · cases hq
    · have hmem : ∀ e ∈ post.map (·.ev), e ∈ timeline.filterMap id := fun e he =>
        firsts_subset _ _ (newSuffix_subset sp.known _ _ (hp ▸ he))
      refine Or.inr ⟨room, post.map (·.ev), post.map (·.ev), db'.cur room, db'.latest room, fun e he => ⟨hmem e he, (hs e (hmem e he)).1⟩,
        fun e he => he, fun e he hn => absurd he hn, fun r hr => ?_, fun r key => ?_, ?_⟩
      · rcases hsplit r hr with hx | ⟨q, hq, hc⟩
        · exact Or.inl hx
        · obtain ⟨_, c2, c3, _⟩ := core_eq hc
          refine Or.inr ⟨?_, ?_⟩
          · rw [← c2]; exact (hpost q hq).1
          · rw [← c3]; exact List.mem_map_of_mem (f := fun r : Row => r.ev) hq
      · have hsp := specStep_acc sp room k l timeline hp.symm
        rw [if_pos ⟨by simpa using hne, hcs⟩] at hsp
        rw [hsp]
        unfold cid
        simp only
        by_cases hr : r = room
        · rw [if_pos hr, if_pos hr]; exact specLoop_last _ _ _ _
        · rw [if_neg hr, if_neg hr]
      · simp only [accumulated, if_neg hne, List.map_map]; rfl
  | init room k block =>
    obtain ⟨hrel', hext, new, hrows, hnew, _, _⟩ := initialise_spec hrel room k block hok
    obtain ⟨_, new', hrows', _, _, hsubl⟩ := step_table hti (.init room k block)
    have hnn : new' = new.map Row.core := by
      rw [hrows] at hrows'; exact (List.append_cancel_left hrows').symm
    have hnewev : ∀ r ∈ new, r.ev ∈ block.filterMap id := by
      intro r hr
      refine hsubl.subset ?_
      rw [hnn, List.map_map]
      exact List.mem_map_of_mem (f := (fun c => c.2.2.1) ∘ Row.core) hr
    have hsplit : ∀ r ∈ (Store.step s.db (.init room k block)).rows, (∃ q ∈ s.db.rows, q.core = r.core) ∨ ∃ q ∈ new, q.core = r.core := by
      intro r hr
      have : r.core ∈ s.db.rows.map Row.core ++ new.map Row.core := hrows ▸ List.mem_map_of_mem hr
      rcases List.mem_append.1 this with hm | hm
      · obtain ⟨q, hq, hc⟩ := List.mem_map.1 hm; exact Or.inl ⟨q, hq, hc⟩
      · obtain ⟨q, hq, hc⟩ := List.mem_map.1 hm; exact Or.inr ⟨q, hq, hc⟩
    have hnewid : ∀ r ∈ new, r.ev.id ∉ sp.known := by
      intro r hr hk
      obtain ⟨x, hx, hxe⟩ := (hrel.known _).1 hk
      have hids := hrel'.inv.ids
      have hcore : (Store.step s.db (.init room k block)).rows.map (·.ev.id) = s.db.rows.map (·.ev.id) ++ new.map (·.ev.id) := by
        have hc' : ∀ l : List Row, l.map (·.ev.id) = (l.map Row.core).map (fun c => c.2.2.1.id) := by
          intro l; simp [List.map_map, Function.comp_def, Row.core]
        rw [hc', hc' s.db.rows, hc' new, ← List.map_append, hrows]
      rw [hcore] at hids
      exact (List.nodup_append.1 hids).2.2 _ (List.mem_map_of_mem (f := fun r : Row => r.ev.id) hx) _
        (List.mem_map_of_mem (f := fun r : Row => r.ev.id) hr) hxe
    have hcond := init_cond hrel room k block hok
    simp only at hcond
    have hstep : Store.step s.db (.init room k block) = (initialise s.db room k block).getD s.db := rfl
    rcases hcond with ⟨hlen, hsp⟩ | ⟨hlen, hsp⟩
    · have hnx : next orig red s (.op (.init room k block)) = { s with db := Store.step s.db (.init room k block) } := by
        cases ha : initialise s.db room k block with
        | none =>
          rw [hstep, ha]; simp only [next, ha, Option.getD_none]
        | some db' =>
          rw [hstep, ha, Option.getD_some] at hlen
          rw [hstep, ha]; simp only [next, ha, Option.getD_some, if_pos hlen]
      rw [hnx]
      refine Or.inl ⟨fun r hr => ?_, hsp, rfl⟩
      rcases hsplit r hr with hx | ⟨q, hq, _⟩
      · exact hx
      · have h1 := congrArg List.length hrows
        simp only [List.length_map, List.length_append, hlen] at h1
        have : new = [] := List.length_eq_zero_iff.1 (by omega)
        rw [this] at hq; cases hq
    · have hnx : next orig red s (.op (.init room k block)) = initialised orig s room (Store.step s.db (.init room k block)) block := by
        cases ha : initialise s.db room k block with
        | none => rw [hstep, ha] at hlen; exact absurd rfl hlen
        | some db' =>
          rw [hstep, ha, Option.getD_some] at hlen
          rw [hstep, ha]; simp only [next, ha, Option.getD_some, if_neg hlen]
      rw [hnx]
      generalize Store.step s.db (.init room k block) = db' at *
      obtain ⟨N, hNmem, hsp⟩ : ∃ N : List Ev, (∀ e, e ∈ N ↔ e ∈ block.filterMap id ∧ e.id ∉ sp.known) ∧
          specStep sp (.init room k block) = { sp with
            known := sp.known ++ N.map (·.id)
            cur := fun r => if r = room then some (N.foldl St.apply ((sp.cur room).getD St.none)) else sp.cur r } := by
        refine ⟨_, ?_, hsp⟩
        intro e
        rw [List.mem_filter, decide_eq_true_eq]
      refine Or.inr ⟨room, N, block.filterMap id, db'.cur room, db'.latest room, fun e he => ⟨he, (hs e he).2⟩,
        fun e he => ((hNmem e).1 he).1, fun e he hn => ?_, fun r hr => ?_, fun r key => ?_, ?_⟩
      · by_cases hk : e.id ∈ sp.known
        · exact (hrel.known _).1 hk
        · exact absurd ((hNmem e).2 ⟨he, hk⟩) hn
      · rcases hsplit r hr with hx | ⟨q, hq, hc⟩
        · exact Or.inl hx
        · obtain ⟨_, c2, c3, _⟩ := core_eq hc
          refine Or.inr ⟨?_, ?_⟩
          · rw [← c2]; exact (hnew q hq).1
          · rw [← c3]; exact (hNmem _).2 ⟨hnewev q hq, hnewid q hq⟩
      · rw [hsp]
        unfold cid
        simp only
        by_cases hr : r = room
        · rw [if_pos hr, if_pos hr, Option.getD_some]
          exact foldl_apply_last _ _ _ fun e he _ => (hs e ((hNmem e).1 he).1).1
        · rw [if_neg hr, if_neg hr]
      · rfl

def encKey : Key := ("m.room.encryption", "")

/-- The recorded encryption is that of the current state. -/
structure E (evOf : String → Ev) (roomOf : String → String) (s : State) (sp : Spec) : Prop where
  evs : ∀ r ∈ s.db.rows, r.ev = evOf r.ev.id
  own : ∀ r ∈ s.db.rows, roomOf r.ev.id = r.room
  keys : ∀ r ∈ s.db.rows, r.ev.hasKey = true → cid sp r.room r.ev.key ≠ none
  enc : ∀ room, ((Assoc.get s.infos room).getD { snapshot := 0, latest := 0 }).enc = true ↔ cid sp room encKey ≠ none

theorem delta_enc (orig : String → Content) (M : List Ev) (hM : ∀ e ∈ M, e.type = "m.room.encryption" → e.hasKey = true) :
    (RoomsTable.delta (M.map (toInfo orig))).enc = true ↔ ∃ e ∈ M, e.hasKey = true ∧ e.key = encKey := by
  rw [(RoomsTable.delta_spec _).1]
  cases hl : lastVal (RoomsTable.encBy RoomsTable.noKey) (M.map (toInfo orig)) with
  | none =>
    have := (lastVal_none _ _).1 hl
    simp only [Option.isSome_none, Bool.false_eq_true, false_iff]
    rintro ⟨e, he, hk, hkey⟩
    have := this (toInfo orig e) (List.mem_map_of_mem he)
    simp only [Ev.key, encKey, Prod.mk.injEq] at hkey
    simp [RoomsTable.encBy, RoomsTable.noKey, toInfo, hk, hkey.1, hkey.2] at this
  | some u =>
    obtain ⟨a, x, b, hx, hu, _⟩ := (RoomsTable.lastVal_iff _ _ _).1 hl
    simp only [Option.isSome_some, true_iff]
    have : x ∈ M.map (toInfo orig) := by rw [hx]; simp
    obtain ⟨e, he, rfl⟩ := List.mem_map.1 this
    unfold RoomsTable.encBy at hu
    split at hu
    · next hc =>
      have hk := hM e he hc.2
      refine ⟨e, he, hk, ?_⟩
      have h2 := hc.1
      simp [RoomsTable.noKey, toInfo, hk] at h2
      simp only [Ev.key, encKey, h2]
      rw [show e.type = _ from hc.2]
    · cases hu

theorem E_step {evOf : String → Ev} {orig red : String → Content} {roomOf : String → String} {s : State} {sp : Spec}
    (h : E evOf roomOf s sp) (hrel : Store.Rel s.db sp) (hti : TI s.db) (o : Op) (hok : OkOp o) (hs : Sane roomOf orig o)
    (hn : Named evOf o) : E evOf roomOf (next orig red s (.op o)) (specStep sp o) := by
  rcases op_shape (red := red) hrel hti o hok hs with ⟨hrows, hsp, hinf⟩ | ⟨room, N, M, a, b, hM, hNM, hknown, hrows, hcid, hinf⟩
  · rw [hsp]
    constructor
    · intro r hr
      obtain ⟨q, hq, hc⟩ := hrows r hr
      rw [← (core_eq hc).2.2.1]; exact h.evs q hq
    · intro r hr
      obtain ⟨q, hq, hc⟩ := hrows r hr
      rw [← (core_eq hc).2.2.1, ← (core_eq hc).2.1]; exact h.own q hq
    · intro r hr
      obtain ⟨q, hq, hc⟩ := hrows r hr
      rw [← (core_eq hc).2.2.1, ← (core_eq hc).2.1]; exact h.keys q hq
    · rw [hinf]; exact h.enc
  · have hmono : ∀ r k, cid sp r k ≠ none → cid (specStep sp o) r k ≠ none := by
      intro r k hr
      rw [hcid]
      by_cases hrr : r = room
      · rw [if_pos hrr]
        cases hk : lastKey k N with
        | none => rw [← hrr]; exact hr
        | some x => simp
      · rw [if_neg hrr]; exact hr
    have hin : ∀ e ∈ N, e.hasKey = true → cid (specStep sp o) room e.key ≠ none := by
      intro e he hk
      rw [hcid, if_pos rfl]
      cases hl : lastKey e.key N with
      | none => exact absurd rfl (lastKey_none.1 hl e he hk)
      | some x => simp
    constructor
    · intro r hr
      rcases hrows r hr with ⟨q, hq, hc⟩ | ⟨_, hx⟩
      · rw [← (core_eq hc).2.2.1]; exact h.evs q hq
      · exact (hn _ (hM _ (hNM _ hx)).1).1
    · intro r hr
      rcases hrows r hr with ⟨q, hq, hc⟩ | ⟨hx, hy⟩
      · rw [← (core_eq hc).2.2.1, ← (core_eq hc).2.1]; exact h.own q hq
      · rw [hx]; exact (hM _ (hNM _ hy)).2
    · intro r hr hk
      rcases hrows r hr with ⟨q, hq, hc⟩ | ⟨hx, hy⟩
      · rw [← (core_eq hc).2.2.1, ← (core_eq hc).2.1]
        exact hmono _ _ (h.keys q hq (by rw [(core_eq hc).2.2.1]; exact hk))
      · rw [hx]; exact hin _ hy hk
    · intro r
      rw [hinf]
      unfold RoomsTable.step
      rw [RoomsTable.upsert_spec]
      simp only [Option.getD_some]
      by_cases hr : room = r
      · subst hr
        rw [Assoc.get_set, if_pos rfl]
        simp only [Option.getD_some, Bool.or_eq_true]
        rw [delta_enc orig M fun e he => (hn e (hM e he).1).2, h.enc room]
        constructor
        · rintro (⟨e, he, hk, hkey⟩ | hx)
          · by_cases hN : e ∈ N
            · rw [← hkey]; exact hin e hN hk
            · obtain ⟨q, hq, hqe⟩ := hknown e he hN
              have h1 : q.ev = e := by rw [h.evs q hq, hqe, ← (hn e (hM e he).1).1]
              have h2 : q.room = room := by rw [← h.own q hq, hqe]; exact (hM e he).2
              have h3 := h.keys q hq (by rw [h1]; exact hk)
              rw [h1, h2, hkey] at h3
              exact hmono _ _ h3
          · exact hmono _ _ hx
        · intro hx
          rw [hcid, if_pos rfl] at hx
          cases hl : lastKey encKey N with
          | none => rw [hl] at hx; exact Or.inr hx
          | some e =>
            obtain ⟨he, hk, hkey⟩ := lastKey_some hl
            exact Or.inl ⟨e, hNM e he, hk, hkey⟩
      · rw [Assoc.get_set, if_neg (fun e => hr e.symm), hcid, if_neg (fun e => hr e.symm)]
        exact h.enc r

theorem run_E {evOf : String → Ev} {orig red : String → Content} {roomOf : String → String} (steps : List Step)
    (hok : ∀ o ∈ ops steps, OkOp o ∧ Sane roomOf orig o) (hn : ∀ o ∈ ops steps, Named evOf o) :
    E evOf roomOf (run orig red steps) (specRun (ops steps)) := by
  induction steps using Verif.Util.snocRec with
  | nil =>
    constructor
    · intro r hr; cases hr
    · intro r hr; cases hr
    · intro r hr; cases hr
    · intro room; simp [run, Assoc.get, ops, cid, specRun, St.none]
  | append_singleton l x ih =>
    have ih := ih (fun o ho => hok o (by rw [ops_snoc]; simp [ho])) (fun o ho => hn o (by rw [ops_snoc]; simp [ho]))
    rw [run_step_snoc, ops_snoc]
    cases x with
    | op o =>
      have hmem : o ∈ ops (l ++ [Step.op o]) := by rw [ops_snoc]; simp [ops]
      simp only [ops]
      rw [specRun_snoc]
      refine E_step ih ?_ ?_ o (hok o hmem).1 (hok o hmem).2 (hn o hmem)
      · rw [run_db]; exact run_spec _ fun o ho => (hok o (by rw [ops_snoc]; simp [ho])).1
      · rw [run_db]; exact run_table _
    | deliver =>
      simp only [ops, List.append_nil, next]
      split
      · exact ih
      · exact ⟨ih.evs, ih.own, ih.keys, ih.enc⟩
    | typing room => simp only [ops, List.append_nil, next]; exact ⟨ih.evs, ih.own, ih.keys, ih.enc⟩
    | restart ch => simp only [ops, List.append_nil, next]; exact ⟨ih.evs, ih.own, ih.keys, ih.enc⟩

theorem ops_append (l m : List Step) : ops (l ++ m) = ops l ++ ops m := by
  induction m using Verif.Util.snocRec with
  | nil => simp [ops]
  | append_singleton m y ih => rw [← List.append_assoc, ops_snoc, ih, ops_snoc m, List.append_assoc]

/-- **C74, encryption.** After any such history, whenever nothing is waiting to be delivered: a room is cached as
encrypted exactly if its current state has an encryption event. -/
theorem C74_encrypted (evOf : String → Ev) (roomOf : String → String) (orig red : String → Content) (steps : List Step)
    (hok : OkSteps roomOf orig steps) (hn : ∀ o ∈ ops steps, Named evOf o) (hq : (run orig red steps).queue = []) :
    Agrees encF orig red (run orig red steps) := by
  refine (run_G encF_laws steps hok (Or.inl encF_reset) ?_).agrees hq
  intro a ch b he ch' room hc
  have hsub : ∀ o ∈ ops a, o ∈ ops steps := fun o ho => by rw [he, ops_append]; simp [ho]
  have hE := run_E (red := red) a (fun o ho => hok o (hsub o ho)) (fun o ho => hn o (hsub o ho))
  have := hE.enc room
  simp only [load, encF]
  change _ = wanted encF _ (cid _ room encKey)
  generalize ((Assoc.get (run orig red a).infos room).getD { snapshot := 0, latest := 0 }).enc = v at this ⊢
  cases hcid : cid (specRun (ops a)) room encKey with
  | none =>
    rw [hcid] at this
    simp only [ne_eq, not_true_eq_false, iff_false, Bool.not_eq_true] at this
    rw [this]; rfl
  | some id =>
    rw [hcid] at this
    simp only [ne_eq, reduceCtorEq, not_false_eq_true, iff_true] at this
    rw [this]; rfl

/-! ## Where it does not hold -/

theorem current_of {db : DB} {room : String} {k : Key} {id : String} {L : List (Key × String)}
    (h : ((stripped db (db.cur room)).map fun l => l.map fun r => (r.ev.key, r.ev.id)) = some L) (hm : (k, id) ∈ L) :
    Current db room k id := by
  cases hs : stripped db (db.cur room) with
  | none => rw [hs] at h; cases h
  | some rows =>
    rw [hs] at h
    simp only [Option.map_some, Option.some.injEq] at h
    rw [← h, List.mem_map] at hm
    obtain ⟨r, hr, he⟩ := hm
    simp only [Prod.mk.injEq] at he
    exact ⟨rows, hs, r, hr, he.1, he.2⟩

theorem not_agrees {F : Field V} {orig red : String → Content} {s : State} (room id : String) (v : V)
    (h1 : (s.cache room).map F.get = some v) (h2 : Current s.db room F.key id) (h3 : v ≠ F.val (s.cont orig red id)) :
    ¬ Agrees F orig red s := by
  intro h
  cases hc : s.cache room with
  | none => rw [hc] at h1; cases h1
  | some m =>
    rw [hc] at h1
    simp only [Option.map_some, Option.some.injEq] at h1
    exact h3 (h1 ▸ ((h room).2 m hc).1 id h2)

def create : Ev := ⟨"$create", "m.room.create", "", true⟩
def add1 : Ev := ⟨"$add", "m.space.child", "!c", true⟩
def name1 : Ev := ⟨"$name", "m.room.name", "", true⟩
def tomb1 : Ev := ⟨"$tomb", "m.room.tombstone", "", true⟩
def tomb2 : Ev := ⟨"$tomb2", "m.room.tombstone", "", true⟩
def enc1 : Ev := ⟨"$enc", "m.room.encryption", "", true⟩
def create2 : Ev := ⟨"$create2", "m.room.create", "", true⟩
def redact1 : Ev := ⟨"$redact", "m.room.redaction", "", false⟩
def con (id : String) : Content :=
  if id = "$add" then { via := true } else if id = "$name" then { name := "Tea" } else if id = "$tomb" then { replacement := some "!new" }
  else if id = "$redact" then { redacts := "$name" } else {}

/-- A space with a child, and another poller sends a state block with one more event. -/
def lost : List Step := [.op (.init "!s" 0 [some create, some add1]), .deliver, .op (.init "!s" 0 [some create, some add1, some name1]), .deliver]

/-- **C74 is false for the children of a space**: the reload after an invalidation forgets them and its query does not
return them. -/
theorem C74_violated_children : ∃ (roomOf : String → String) (orig red : String → Content) (steps : List Step) (child : String),
    OkSteps roomOf orig steps ∧ NeverRestarted steps ∧ (run orig red steps).queue = [] ∧
    ¬ Agrees (childF child) orig red (run orig red steps) := by
  refine ⟨fun _ => "!s", con, fun _ => {}, lost, "!c", ?_, ?_, by decide +kernel, ?_⟩
  · intro o ho
    simp only [lost, ops, List.mem_cons, List.not_mem_nil, or_false] at ho
    rcases ho with rfl | rfl <;> simp [OkOp, Clean, Sane, create, add1, name1]
  · intro ch; simp [lost]
  · refine not_agrees "!s" "$add" false (by decide +kernel) (current_of (L := [(("m.room.create", ""), "$create"),
      (("m.space.child", "!c"), "$add"), (("m.room.name", ""), "$name")]) (by decide +kernel) (by decide)) (by decide +kernel)

/-- **C74 is false for upgrades**: a tombstone in a state block sent for a known room is not seen. -/
theorem C74_violated_upgraded : ∃ (roomOf : String → String) (orig red : String → Content) (steps : List Step),
    OkSteps roomOf orig steps ∧ NeverRestarted steps ∧ (run orig red steps).queue = [] ∧
    ¬ Agrees upgradedF orig red (run orig red steps) := by
  refine ⟨fun _ => "!s", con, fun _ => {},
    [.op (.init "!s" 0 [some create]), .deliver, .op (.init "!s" 0 [some create, some tomb1]), .deliver], ?_, ?_, by decide +kernel, ?_⟩
  · intro o ho
    simp only [ops, List.mem_cons, List.not_mem_nil, or_false] at ho
    rcases ho with rfl | rfl <;> simp [OkOp, Clean, Sane, create, tomb1]
  · intro ch; simp
  · refine not_agrees "!s" "$tomb" none (by decide +kernel) (current_of (L := [(("m.room.create", ""), "$create"),
      (("m.room.tombstone", ""), "$tomb")]) (by decide +kernel) (by decide)) (by decide +kernel)

/-- **C74 is false for upgrades across a restart**: the upgrade of a tombstone that was replaced by one without a new
room is back after a restart, although the live process dropped it. -/
theorem C74_violated_restart : ∃ (roomOf : String → String) (orig red : String → Content) (steps : List Step) (ch : String → String → Bool),
    OkSteps roomOf orig steps ∧ NeverInvalidated orig red steps ∧ (run orig red steps).queue = [] ∧
    Agrees upgradedF orig red (run orig red steps) ∧ ¬ Agrees upgradedF orig red (run orig red (steps ++ [.restart ch])) := by
  have hok : OkSteps (fun _ => "!s") con
      [.op (.init "!s" 0 [some create, some tomb1]), .deliver, .op (.acc "!s" 0 false [some tomb2]), .deliver] := by
    intro o ho
    simp only [ops, List.mem_cons, List.not_mem_nil, or_false] at ho
    rcases ho with rfl | rfl <;> simp [OkOp, Clean, Sane, create, tomb1, tomb2]
  have hni : NeverInvalidated con (fun _ => {})
      [.op (.init "!s" 0 [some create, some tomb1]), .deliver, .op (.acc "!s" 0 false [some tomb2]), .deliver] := by
    intro a b he room hm
    have hall : ∀ n ≤ 4, ((run con (fun _ => {}) (([.op (.init "!s" 0 [some create, some tomb1]), .deliver,
        .op (.acc "!s" 0 false [some tomb2]), .deliver] : List Step).take n)).queue.any fun p => match p with | .inv _ => true | _ => false) = false := by
      intro n hn
      have : n = 0 ∨ n = 1 ∨ n = 2 ∨ n = 3 ∨ n = 4 := by omega
      rcases this with rfl | rfl | rfl | rfl | rfl <;> decide +kernel
    have hlen : a.length ≤ 4 := by
      have := congrArg List.length he
      simp at this; omega
    have := hall a.length hlen
    rw [he, List.take_left] at this
    rw [List.any_eq_false] at this
    exact this _ hm rfl
  refine ⟨fun _ => "!s", con, fun _ => {}, _, fun _ _ => false, hok, hni, by decide +kernel,
    (C74_partial _ _ _ _ hok (by decide +kernel) hni (by intro ch; simp)).1, ?_⟩
  refine not_agrees "!s" "$tomb2" (some "!new") (by decide +kernel) (current_of (L := [(("m.room.create", ""), "$create"),
    (("m.room.tombstone", ""), "$tomb2")]) (by decide +kernel) (by decide)) (by decide +kernel)

/-- **C74 is false if a redaction names an event of another room**: the stored event is redacted, the cache of its room
is not told. -/
theorem C74_violated_redaction : ∃ (orig red : String → Content) (steps : List Step),
    (∀ o ∈ ops steps, OkOp o) ∧ (run orig red steps).queue = [] ∧ ¬ Agrees nameF orig red (run orig red steps) := by
  refine ⟨con, fun _ => {}, [.op (.init "!s" 0 [some create, some name1]), .op (.init "!t" 0 [some create2]), .deliver, .deliver,
    .op (.acc "!t" 0 false [some redact1]), .deliver], ?_, by decide +kernel, ?_⟩
  · intro o ho
    simp only [ops, List.mem_cons, List.not_mem_nil, or_false] at ho
    rcases ho with rfl | rfl | rfl <;> simp [OkOp, Clean, create, create2, name1, redact1]
  · refine not_agrees "!s" "$name" "Tea" (by decide +kernel) (current_of (L := [(("m.room.create", ""), "$create"),
      (("m.room.name", ""), "$name")]) (by decide +kernel) (by decide)) (by decide +kernel)

/-! ## The hypotheses can be met -/

/-- A history with a state block for a known room, a redaction of the name, and a restart. -/
def fine : List Step :=
  [.op (.init "!s" 0 [some create, some name1]), .typing "!s", .deliver, .op (.init "!s" 0 [some create, some name1, some enc1]),
   .op (.acc "!s" 0 false [some redact1]), .deliver, .deliver, .deliver, .restart fun _ _ => false]

def named (id : String) : Ev := if id = "$create" then create else if id = "$name" then name1 else if id = "$enc" then enc1 else redact1

example : OkSteps (fun _ => "!s") con fine ∧ (∀ o ∈ ops fine, Named named o) ∧ (run con (fun _ => {}) fine).queue = [] ∧
    (((run con (fun _ => {}) (fine.take 3)).cache "!s").map (·.name) = some "Tea") ∧
    (((run con (fun _ => {}) fine).cache "!s").map fun m => (m.name, m.enc)) = some ("", true) := by
  refine ⟨?_, ?_, by decide +kernel, by decide +kernel, by decide +kernel⟩
  · intro o ho
    simp only [fine, ops, List.mem_cons, List.not_mem_nil, or_false] at ho
    rcases ho with rfl | rfl | rfl <;> simp [OkOp, Clean, Sane, create, name1, enc1, redact1]
  · intro o ho
    simp only [fine, ops, List.mem_cons, List.not_mem_nil, or_false] at ho
    rcases ho with rfl | rfl | rfl <;> simp [Named, evsIn, named, create, name1, enc1, redact1]

/-- For `C74_partial`: a space whose child is added by a message and which is then upgraded. -/
def fine2 : List Step := [.op (.init "!s" 0 [some create, some name1]), .deliver, .op (.acc "!s" 0 false [some add1, some tomb1]), .deliver]

example : OkSteps (fun _ => "!s") con fine2 ∧ (run con (fun _ => {}) fine2).queue = [] ∧ NeverInvalidated con (fun _ => {}) fine2 ∧
    NeverRestarted fine2 ∧ (((run con (fun _ => {}) fine2).cache "!s").map fun m => (m.children "!c", m.upgraded)) = some (true, some "!new") := by
  refine ⟨?_, by decide +kernel, ?_, by intro ch; simp [fine2], by decide +kernel⟩
  · intro o ho
    simp only [fine2, ops, List.mem_cons, List.not_mem_nil, or_false] at ho
    rcases ho with rfl | rfl <;> simp [OkOp, Clean, Sane, create, name1, add1, tomb1]
  · intro a b he room hm
    have hall : ∀ n ≤ 4, ((run con (fun _ => {}) (fine2.take n)).queue.any fun p => match p with | .inv _ => true | _ => false) = false := by
      intro n hn
      have : n = 0 ∨ n = 1 ∨ n = 2 ∨ n = 3 ∨ n = 4 := by omega
      rcases this with rfl | rfl | rfl | rfl | rfl <;> decide +kernel
    have hlen : a.length ≤ 4 := by
      have := congrArg List.length he
      simp [fine2] at this; omega
    have := hall a.length hlen
    rw [he, List.take_left, List.any_eq_false] at this
    exact this _ hm rfl

end Verif.Metadata
