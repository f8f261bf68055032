import Verif.EndToEndProps
import Verif.StoreHist
/-!
# C115: the dispatcher's members are those of the store
-/
namespace Verif.EndToEnd
open Verif.Store (DB Row TI St Ev)

/-! ## Specification -/

/-- The member event of a user that was stored last for a room: from a state block, or from a timeline if it has a state key. -/
def lastMember (db : DB) (r u : String) : Option Row :=
  (db.rows.filter fun x => decide (x.room = r) && (x.isState || x.ev.hasKey) && decide (x.ev.type = "m.room.member") &&
    decide (x.ev.stateKey = u)).getLast?

/-- State blocks are made of state events. -/
def KeyOk : Store.Op → Prop
  | .init _ _ block => ∀ e ∈ block.filterMap id, e.hasKey = true
  | .acc _ _ _ _ => True

/-! ## Auxiliary -/

/-- What a membership says of being joined. -/
def verdict (cfg : Cfg) (id : String) : Option Bool :=
  if cfg.mem id = "join" then some true else if cfg.mem id = "leave" ∨ cfg.mem id = "ban" then some false else none

def cur (db : DB) (r u : String) : Option String := Store.replay db.rows r Store.always ("m.room.member", u)

theorem says_row (cfg : Cfg) (u : String) (x : Row) : Dispatcher.saysEvent u (toEvent cfg x) =
    if x.ev.hasKey = true ∧ x.ev.key = ("m.room.member", u) then verdict cfg x.ev.id else none := by
  unfold Dispatcher.saysEvent Dispatcher.about toEvent verdict Ev.key
  simp only [Prod.mk.injEq]
  by_cases ht : x.ev.type = "m.room.member"
  · cases hk : x.ev.hasKey <;> by_cases hu : x.ev.stateKey = u <;> simp [ht, hu]
  · simp [ht]

theorem fold_last (l : List Ev) (g : St) (k : Store.Key) :
    l.foldl St.apply g k = match (l.filter fun e => decide (e.key = k)).getLast? with | some e => some e.id | none => g k := by
  induction l using Util.snocRec with
  | nil => rfl
  | append_singleton l e ih =>
    rw [List.foldl_append, List.foldl_cons, List.foldl_nil, List.filter_append]
    by_cases h : e.key = k
    · simp [St.apply, h]
    · have h' : ¬ k = e.key := fun x => h x.symm
      simp only [St.apply, h', if_false, ih]
      simp [h]

theorem last_cur (db : DB) (r u : String) : (lastMember db r u).map (·.ev.id) = cur db r u := by
  unfold cur Store.replay
  rw [fold_last, List.filter_map, List.filter_filter, List.getLast?_map]
  have : (db.rows.filter fun a => ((fun e => decide (e.key = ("m.room.member", u))) ∘ fun x : Row => x.ev) a &&
      (decide (a.room = r) && Store.always a.nid && (a.isState || a.ev.hasKey))) =
      db.rows.filter fun x => decide (x.room = r) && (x.isState || x.ev.hasKey) && decide (x.ev.type = "m.room.member") && decide (x.ev.stateKey = u) := by
    apply List.filter_congr
    intro x _
    rw [Bool.eq_iff_iff]
    simp only [Function.comp, Ev.key, Store.always, Bool.and_true, Bool.and_eq_true, decide_eq_true_eq, Prod.mk.injEq]
    constructor
    · rintro ⟨⟨a, b⟩, c, d⟩; exact ⟨⟨⟨c, d⟩, a⟩, b⟩
    · rintro ⟨⟨⟨c, d⟩, a⟩, b⟩; exact ⟨⟨a, b⟩, c, d⟩
  rw [this]
  unfold lastMember
  cases (db.rows.filter fun x => decide (x.room = r) && (x.isState || x.ev.hasKey) && decide (x.ev.type = "m.room.member") &&
    decide (x.ev.stateKey = u)).getLast? <;> rfl

theorem cur_row {db : DB} {r u id : String} (h : cur db r u = some id) :
    ∃ x ∈ db.rows, x.room = r ∧ (x.isState = true ∨ x.ev.hasKey = true) ∧ x.ev.key = ("m.room.member", u) ∧ x.ev.id = id := by
  rw [← last_cur] at h
  obtain ⟨x, hx, rfl⟩ := Option.map_eq_some_iff.1 h
  have := List.mem_of_getLast? hx
  simp only [List.mem_filter, Bool.and_eq_true, decide_eq_true_eq, Bool.or_eq_true] at this
  exact ⟨x, this.1, this.2.1.1.1, this.2.1.1.2, by simp [Ev.key, this.2.1.2, this.2.2], rfl⟩

/-! ## The store -/

theorem rows_key (ops : List Store.Op) (hok : ∀ o ∈ ops, Store.OkOp o) (hk : ∀ o ∈ ops, KeyOk o) :
    ∀ x ∈ (Store.run ops).rows, x.isState = true → x.ev.hasKey = true := by
  induction ops using Util.snocRec with
  | nil => simp [Store.run]
  | append_singleton ops o ih =>
    have ih := ih (fun o h => hok o (by simp [h])) (fun o h => hk o (by simp [h]))
    have hR := Store.run_spec ops fun o h => hok o (by simp [h])
    rw [show Store.run (ops ++ [o]) = Store.step (Store.run ops) o by simp [Store.run]]
    obtain ⟨_, new, h1, _, _, h4⟩ := Store.step_table (Store.run_table ops) o
    intro x hx hs
    have hx' : x.core ∈ (Store.run ops).rows.map Row.core ++ new := h1 ▸ List.mem_map_of_mem hx
    rcases List.mem_append.1 hx' with hx' | hx'
    · obtain ⟨y, hy, hc⟩ := List.mem_map.1 hx'
      have := Store.core_eq hc
      rw [← this.2.2.1]
      exact ih y hy (this.2.2.2.trans hs)
    · cases o with
      | init room skip block =>
        exact hk (.init room skip block) (by simp) x.ev (h4.subset (List.mem_map.2 ⟨_, hx', rfl⟩))
      | acc room skip limited timeline =>
        obtain ⟨db', post, e1, _, _, e2, e3, _⟩ := Store.accumulate_spec hR room skip limited timeline (hok _ (by simp))
        have : Store.step (Store.run ops) (.acc room skip limited timeline) = db' := by simp [Store.step, e1]
        rw [this] at h1
        have := List.append_cancel_left (h1.symm.trans e2)
        rw [this] at hx'
        obtain ⟨y, hy, hc⟩ := List.mem_map.1 hx'
        have h5 := Store.core_eq hc
        rw [← h5.2.2.2, (e3 y hy).2] at hs
        cases hs

theorem select_find {db : DB} (h : Store.Inv db) {s : Store.Snap} (hs : s ∈ db.snaps) : Store.selectSnap db s.id = some s := by
  have hpos := (h.srange s hs).1
  unfold Store.selectSnap
  rw [if_neg (by omega)]
  cases hf : db.snaps.find? (·.id = s.id) with
  | none => have := List.find?_eq_none.1 hf s hs; simp at this
  | some t =>
    have h1 := List.find?_some hf
    rw [h.snap_unique (List.mem_of_find?_eq_some hf) hs (by simpa using h1)]

theorem mem_members {cfg : Cfg} {ops : List Store.Op} (hok : ∀ o ∈ ops, Store.OkOp o) {r u : String} {p : String → Bool} :
    u ∈ membersWith cfg (Store.run ops) r p ↔ ∃ id, cur (Store.run ops) r u = some id ∧ p (cfg.mem id) = true := by
  have hR := Store.run_spec ops hok
  have hH := Store.C40_current ops hok r
  rw [show (fun _ => true) = Store.always from rfl] at hH
  generalize hdb : Store.run ops = db at hR hH ⊢
  have key : ∀ id, cur db r u = some id ↔ ∃ n, Store.At db (db.cur r) ("m.room.member", u) id n := fun id => (hH.1 _ id).symm
  unfold membersWith
  cases hs : Store.selectSnap db (db.cur r) with
  | none =>
    simp only [List.not_mem_nil, false_iff]
    rintro ⟨id, h1, _⟩
    obtain ⟨n, s, hsm, he, _⟩ := (key id).1 h1
    rw [← he, select_find hR.inv hsm] at hs
    cases hs
  | some s =>
    have hsm : s ∈ db.snaps ∧ s.id = db.cur r := by
      unfold Store.selectSnap at hs
      split at hs
      · cases hs
      · exact ⟨List.mem_of_find?_eq_some hs, by simpa using List.find?_some hs⟩
    simp only [List.mem_map, List.mem_filter, Bool.and_eq_true, decide_eq_true_eq]
    constructor
    · rintro ⟨x, ⟨hx, hm, hp⟩, rfl⟩
      refine ⟨x.ev.id, (key _).2 ⟨x.nid, s, hsm.1, hsm.2, x, hx, ?_, ?_, rfl, rfl⟩, hp⟩
      · simp [Store.Snap.nids, hm]
      · simp [Ev.key, (hR.inv.mem s hsm.1 x hx).1 hm]
    · rintro ⟨id, h1, hp⟩
      obtain ⟨n, s', hs', he, x, hx, hn, hk, rfl, _⟩ := (key id).1 h1
      have : s' = s := hR.inv.snap_unique hs' hsm.1 (he.trans hsm.2.symm)
      subst this
      have hk1 : x.ev.type = "m.room.member" := congrArg Prod.fst hk
      refine ⟨x, ⟨hx, ?_, hp⟩, congrArg Prod.snd hk⟩
      rcases List.mem_append.1 hn with h | h
      · exact h
      · exact absurd hk1 ((hR.inv.mem s' hs' x hx).2 h)

/-! ## What messages say -/

def says (cfg : Cfg) (u : String) (rows : List Row) : Option Bool := (rows.filterMap fun x => Dispatcher.saysEvent u (toEvent cfg x)).getLast?

def sayMsg (cfg : Cfg) (db : DB) (u r : String) : Msg → Option Bool
  | .acc room nids => if room = r then (Store.selectByNIDs db nids).bind (says cfg u) else none
  | .init room snap => if room = r then (Store.stripped db snap).bind (says cfg u) else none
  | .inval room => if room = r then some (decide (u ∈ membersWith cfg db r (· == "join"))) else none

theorem says_core {cfg : Cfg} {u : String} : ∀ {a b : List Row}, a.map Row.core = b.map Row.core → says cfg u a = says cfg u b := by
  have : ∀ {a b : List Row}, a.map Row.core = b.map Row.core →
      (a.filterMap fun x => Dispatcher.saysEvent u (toEvent cfg x)) = b.filterMap fun x => Dispatcher.saysEvent u (toEvent cfg x) := by
    intro a
    induction a with
    | nil => intro b h; cases b with | nil => rfl | cons => simp at h
    | cons x a ih =>
      intro b h
      cases b with
      | nil => simp at h
      | cons y b =>
        simp only [List.map_cons, List.cons.injEq] at h
        obtain ⟨c1, _, c3, _⟩ := Store.core_eq h.1
        have : toEvent cfg x = toEvent cfg y := by simp [toEvent, c1, c3]
        rw [List.filterMap_cons, List.filterMap_cons, this, ih h.2]
  intro a b h
  unfold says
  rw [this h]

theorem select_core {db db' : DB} {new : List Row} (he : db'.rows.map Row.core = db.rows.map Row.core ++ new.map Row.core)
    (hn : ∀ x ∈ new, db.seq < x.nid) {nids : List Nat} (h : ∀ n ∈ nids, n ≤ db.seq) :
    (Store.selectByNIDs db' nids).map (·.map Row.core) = (Store.selectByNIDs db nids).map (·.map Row.core) := by
  have hf : ∀ l : List Row, (l.filter fun r => decide (r.nid ∈ nids)).map Row.core = (l.map Row.core).filter fun c => decide (c.1 ∈ nids) := fun l => by
    rw [List.filter_map]; rfl
  have e : (db'.rows.filter fun r => decide (r.nid ∈ nids)).map Row.core = (db.rows.filter fun r => decide (r.nid ∈ nids)).map Row.core := by
    rw [hf, hf, he, List.filter_append]
    have : (new.map Row.core).filter (fun c => decide (c.1 ∈ nids)) = [] := by
      rw [List.filter_eq_nil_iff]
      intro c hc
      obtain ⟨x, hx, rfl⟩ := List.mem_map.1 hc
      have := hn x hx
      simp only [decide_eq_true_eq]
      intro hm
      have := h _ hm
      simp only [Row.core] at this
      omega
    rw [this, List.append_nil]
  have hl := congrArg List.length e
  rw [List.length_map, List.length_map] at hl
  unfold Store.selectByNIDs
  simp only [hl]
  split
  · rfl
  · simp [e]

theorem bind_core {cfg : Cfg} {u : String} {a b : Option (List Row)} (h : a.map (·.map Row.core) = b.map (·.map Row.core)) :
    a.bind (says cfg u) = b.bind (says cfg u) := by
  cases a <;> cases b <;> simp at h
  · rfl
  · exact says_core h

/-- A message that can be taken, now and later. -/
def Valid (db : DB) : Msg → Prop
  | .acc _ nids => ∀ n ∈ nids, n ≤ db.seq
  | .init _ snap => ∃ s ∈ db.snaps, s.id = snap
  | .inval _ => True

theorem Valid.mono {a b : DB} (h : Store.Ext a b) {m : Msg} (hv : Valid a m) : Valid b m := by
  cases m with
  | acc => exact fun n hn => Nat.le_trans (hv n hn) h.seq
  | init => obtain ⟨s, h1, h2⟩ := hv; exact ⟨s, h.snap_fwd h1, h2⟩
  | inval => trivial

theorem say_stable {cfg : Cfg} {db db' : DB} (hI : Store.Inv db) (hI' : Store.Inv db') (hE : Store.Ext db db') {u r : String} {m : Msg} (hv : Valid db m)
    (hm : m = .inval r → (u ∈ membersWith cfg db' r (· == "join") ↔ u ∈ membersWith cfg db r (· == "join"))) : sayMsg cfg db' u r m = sayMsg cfg db u r m := by
  have hrows : ∃ new : List Row, db'.rows.map Row.core = db.rows.map Row.core ++ new.map Row.core ∧ ∀ x ∈ new, db.seq < x.nid := by
    obtain ⟨new, h1, h2⟩ := hE.rows
    refine ⟨new.map fun c => ⟨c.1, c.2.1, c.2.2.1, c.2.2.2, 0, 0, false⟩, ?_, ?_⟩
    · rw [h1, List.map_map]; congr 1; simp [Function.comp_def, Row.core]
    · intro x hx
      obtain ⟨c, hc, rfl⟩ := List.mem_map.1 hx
      exact h2 c hc
  obtain ⟨new, h1, h2⟩ := hrows
  cases m with
  | acc room nids =>
    simp only [sayMsg]
    split
    · exact bind_core (select_core h1 h2 hv)
    · rfl
  | init room snap =>
    simp only [sayMsg]
    split
    · obtain ⟨s, hs, rfl⟩ := hv
      apply bind_core
      unfold Store.stripped
      rw [select_find hI hs, select_find hI' (hE.snap_fwd hs)]
      apply select_core h1 h2
      intro n hn
      obtain ⟨x, hx, rfl, _⟩ := hI.exist s hs n hn
      exact (hI.range x hx).2
    · rfl
  | inval room =>
    simp only [sayMsg]
    split
    · rename_i hr; subst hr; congr 1; exact decide_eq_decide.2 (hm rfl)
    · rfl

/-! ## Taking a message -/

theorem fold_joined {cfg : Cfg} (room u r : String) (rows : List Row) : ∀ s : State,
    Tracker.isUserJoined ((rows.map fun x => (x, x.nid)).foldl (dispatch cfg room) s).disp.jrt u r =
      ((if room = r then says cfg u rows else none)).getD (Tracker.isUserJoined s.disp.jrt u r) := by
  induction rows using Util.snocRec with
  | nil => intro s; simp [says]
  | append_singleton rows x ih =>
    intro s
    rw [List.map_append, List.foldl_append, List.map_cons, List.map_nil, List.foldl_cons, List.foldl_nil]
    simp only [dispatch]
    rw [Dispatcher.says_event, ih]
    unfold says
    rw [List.filterMap_append]
    by_cases hr : room = r
    · simp only [if_pos hr, List.filterMap_cons, List.filterMap_nil]
      cases Dispatcher.saysEvent u (toEvent cfg x) <;> simp
    · simp [hr]

theorem initial_joined (s : Dispatcher.State) (room : String) (es : List Dispatcher.Event) (hu : Dispatcher.UniqueMembers es) (u r : String) :
    Tracker.isUserJoined (Dispatcher.onNewInitialRoomState s room es).1.jrt u r =
      (if room = r then (es.filterMap (Dispatcher.saysEvent u)).getLast? else none).getD (Tracker.isUserJoined s.jrt u r) := by
  unfold Dispatcher.onNewInitialRoomState
  split
  · exact Dispatcher.says_events _ _ _ _ _
  · rename_i hc
    have hemp : s.jrt.joinedUsers room = [] := by simpa [Tracker.joinedUsersForRoom] using hc
    have := (Tracker.join_fields (Dispatcher.members es "join") room s.jrt).1 u r
    rw [Bool.eq_iff_iff, ← Dispatcher.mem_joined_iff]
    simp only
    show u ∈ (Tracker.usersJoinedRoom s.jrt (Dispatcher.members es "join") room).1.joinedUsers r ↔ _
    rw [this]
    by_cases hr : room = r
    · subst hr
      have hf : Tracker.isUserJoined s.jrt u room = false := by simp [Tracker.isUserJoined, hemp]
      rw [hemp, hf, if_pos rfl, Dispatcher.unique_says hu]
      simp
    · have : ¬ r = room := fun h => hr h.symm
      rw [if_neg hr]
      simp [this, Tracker.isUserJoined]

theorem unique_rows (cfg : Cfg) {rows : List Row} (h : rows.Pairwise fun a b => a.ev.key ≠ b.ev.key) :
    Dispatcher.UniqueMembers (rows.map (toEvent cfg)) := by
  unfold Dispatcher.UniqueMembers
  rw [List.filterMap_map]
  have hab : ∀ x : Row, ∀ y, (Dispatcher.about ∘ toEvent cfg) x = some y → x.ev.key = ("m.room.member", y.1) := by
    intro x y hy
    by_cases ht : x.ev.type = "m.room.member" <;> cases hk : x.ev.hasKey <;> simp [Function.comp, Dispatcher.about, toEvent, ht, hk] at hy
    rw [← hy]; simp [Ev.key, ht]
  induction rows with
  | nil => simp
  | cons x rows ih =>
    rw [List.pairwise_cons] at h
    rw [List.filterMap_cons]
    cases hx : (Dispatcher.about ∘ toEvent cfg) x with
    | none => exact ih h.2
    | some y =>
      simp only [List.map_cons, List.nodup_cons]
      refine ⟨?_, ih h.2⟩
      rintro hm
      obtain ⟨z, hz, he⟩ := List.mem_map.1 hm
      obtain ⟨w, hw, hwz⟩ := List.mem_filterMap.1 hz
      apply h.1 w hw
      rw [hab x y hx, hab w z hwz, he]

theorem handle_joined {cfg : Cfg} {s : State} {m : Msg} {bus : List Msg} (hb : Base s (pend (m :: bus))) (hI : Store.Inv s.db) (hv : Valid s.db m) (u r : String) :
    Tracker.isUserJoined (handle cfg s m).disp.jrt u r = (sayMsg cfg s.db u r m).getD (Tracker.isUserJoined s.disp.jrt u r) := by
  cases m with
  | acc room nids =>
    obtain ⟨rows, h1, h2, _⟩ := select_acc hb.ti hb.bus
    simp only [handle, h1, sayMsg, Option.bind_some]
    rw [← h2, zip_self]
    exact fold_joined room u r rows s
  | init room snap =>
    obtain ⟨x, hx, rfl⟩ := hv
    simp only [handle, sayMsg, Store.stripped_spec hI hx, Option.bind_some]
    rw [initial_joined _ _ _ (unique_rows cfg (Store.stripped_keys hI hx)), List.filterMap_map]
    rfl
  | inval room =>
    simp only [handle, Dispatcher.unregister_jrt, sayMsg]
    have := (Tracker.says_step s.disp.jrt (.reload room (membersWith cfg s.db room (· == "join")) (membersWith cfg s.db room (· == "invite"))) u r).1
    simp only [Tracker.step, Tracker.saysJoined] at this
    rw [Bool.eq_iff_iff, ← Dispatcher.mem_joined_iff]
    simp only [Dispatcher.onInvalidateRoom]
    rw [this]
    by_cases hr : room = r
    · subst hr; simp
    · rw [if_neg hr, if_neg hr]; simp [Tracker.isUserJoined]

/-! ## The invariant -/

/-- Whether the user will be taken as joined when the messages have been taken. -/
def later (cfg : Cfg) (db : DB) (jrt : Tracker.State) (bus : List Msg) (u r : String) : Bool :=
  (bus.filterMap (sayMsg cfg db u r)).getLast?.getD (Tracker.isUserJoined jrt u r)

theorem later_cons (cfg : Cfg) (db : DB) (jrt jrt' : Tracker.State) (m : Msg) (bus : List Msg) (u r : String)
    (h : Tracker.isUserJoined jrt' u r = (sayMsg cfg db u r m).getD (Tracker.isUserJoined jrt u r)) :
    later cfg db jrt' bus u r = later cfg db jrt (m :: bus) u r := by
  unfold later
  rw [List.filterMap_cons, h]
  cases sayMsg cfg db u r m with
  | none => rfl
  | some b => cases hl : bus.filterMap (sayMsg cfg db u r) <;> simp [List.getLast?_cons]

theorem later_snoc (cfg : Cfg) (db : DB) (jrt : Tracker.State) (bus : List Msg) (m : Msg) (u r : String) :
    later cfg db jrt (bus ++ [m]) u r = (sayMsg cfg db u r m).getD (later cfg db jrt bus u r) := by
  unfold later
  rw [List.filterMap_append, List.filterMap_cons, List.filterMap_nil]
  cases sayMsg cfg db u r m <;> simp

/-- What the store has agrees with a value. -/
def Agrees (cfg : Cfg) (c : Option String) (v : Bool) : Prop :=
  (∀ id b, c = some id → verdict cfg id = some b → v = b) ∧ (c = none → v = false)

theorem post_says (cfg : Cfg) (u : String) (post : List Row) (g : St) :
    ((post.filter fun x => x.ev.hasKey).map (·.ev)).foldl St.apply g ("m.room.member", u) = g ("m.room.member", u) ∧ says cfg u post = none ∨
    ∃ id, ((post.filter fun x => x.ev.hasKey).map (·.ev)).foldl St.apply g ("m.room.member", u) = some id ∧
      ∀ b, verdict cfg id = some b → says cfg u post = some b := by
  induction post using Util.snocRec with
  | nil => exact Or.inl ⟨rfl, rfl⟩
  | append_singleton post x ih =>
    unfold says at ih ⊢
    rw [List.filter_append, List.map_append, List.foldl_append, List.filterMap_append]
    simp only [List.filterMap_cons, List.filterMap_nil]
    rw [says_row]
    by_cases hx : x.ev.hasKey = true ∧ x.ev.key = ("m.room.member", u)
    · right
      refine ⟨x.ev.id, by simp [hx.1, St.apply, hx.2], fun b hb => ?_⟩
      rw [if_pos hx, hb]
      simp
    · rw [if_neg hx]
      have he : ∀ g : St, (([x].filter fun x => x.ev.hasKey).map (·.ev)).foldl St.apply g ("m.room.member", u) = g ("m.room.member", u) := by
        intro g
        by_cases hk : x.ev.hasKey = true
        · have : ¬ ("m.room.member", u) = x.ev.key := fun h => hx ⟨hk, h.symm⟩
          simp [hk, St.apply, this]
        · simp [hk]
      rw [he]
      simpa using ih

/-- Which state block events were stored. -/
theorem snap_says {cfg : Cfg} {ops : List Store.Op} (hok : ∀ o ∈ ops, Store.OkOp o) (hk : ∀ o ∈ ops, KeyOk o) {r : String} (h0 : (Store.run ops).cur r ≠ 0) (u : String) :
    (∃ s ∈ (Store.run ops).snaps, s.id = (Store.run ops).cur r) ∧
    (cur (Store.run ops) r u = none → (Store.stripped (Store.run ops) ((Store.run ops).cur r)).bind (says cfg u) = none) ∧
    ∀ id b, cur (Store.run ops) r u = some id → verdict cfg id = some b →
      (Store.stripped (Store.run ops) ((Store.run ops).cur r)).bind (says cfg u) = some b := by
  have hR := Store.run_spec ops hok
  have hH := (Store.C40_current ops hok r).1
  have hkey := rows_key ops hok hk
  rw [show (fun _ => true) = Store.always from rfl] at hH
  generalize Store.run ops = db at *
  obtain ⟨s, hs, he⟩ : ∃ s ∈ db.snaps, s.id = db.cur r := by
    have hc := hR.cur r
    cases hf : (Store.specRun ops).cur r with
    | none => rw [hf] at hc; exact absurd hc h0
    | some g => rw [hf] at hc; obtain ⟨⟨s, h1, h2, _⟩, _⟩ := hc; exact ⟨s, h1, h2⟩
  refine ⟨⟨s, hs, he⟩, ?_⟩
  rw [← he, Store.stripped_spec hR.inv hs, Option.bind_some]
  have hrow : ∀ x ∈ db.rows, x.nid ∈ s.nids → x.ev.key = ("m.room.member", u) → cur db r u = some x.ev.id := fun x hx hn hk =>
    (hH _ _).1 ⟨x.nid, s, hs, he, x, hx, hn, hk, rfl, rfl⟩
  have hmem : ∀ b ∈ ((db.rows.filter fun x => decide (x.nid ∈ s.nids)).filterMap fun x => Dispatcher.saysEvent u (toEvent cfg x)),
      ∃ id, cur db r u = some id ∧ verdict cfg id = some b := by
    intro b hb
    obtain ⟨x, hx, hs⟩ := List.mem_filterMap.1 hb
    simp only [List.mem_filter, decide_eq_true_eq] at hx
    rw [says_row] at hs
    split at hs
    · rename_i h; exact ⟨_, hrow x hx.1 hx.2 h.2, hs⟩
    · cases hs
  constructor
  · intro hn
    unfold says
    rw [List.getLast?_eq_none_iff, List.eq_nil_iff_forall_not_mem]
    intro b hb
    obtain ⟨id, h1, _⟩ := hmem b hb
    rw [hn] at h1; cases h1
  · intro id b hc hv
    obtain ⟨n, s', hs', he', x, hx, hn, hk1, hid, _⟩ := (hH _ _).2 hc
    have : s' = s := hR.inv.snap_unique hs' hs (he'.trans he.symm)
    subst this
    obtain ⟨y, hy, _, hyk, _, hyid⟩ := cur_row hc
    have hxy : x = y := hR.inv.id_unique hx hy (hid.trans hyid.symm)
    subst hxy
    have hxk : x.ev.hasKey = true := hyk.elim (hkey x hx) (fun h => h)
    have hin : b ∈ ((db.rows.filter fun x => decide (x.nid ∈ s'.nids)).filterMap fun x => Dispatcher.saysEvent u (toEvent cfg x)) := by
      refine List.mem_filterMap.2 ⟨x, List.mem_filter.2 ⟨hx, by simpa using hn⟩, ?_⟩
      rw [says_row, if_pos ⟨hxk, hk1⟩, hid, hv]
    unfold says
    cases hl : ((db.rows.filter fun x => decide (x.nid ∈ s'.nids)).filterMap fun x => Dispatcher.saysEvent u (toEvent cfg x)).getLast? with
    | none =>
      rw [List.getLast?_eq_none_iff] at hl
      rw [hl] at hin; cases hin
    | some b' =>
      obtain ⟨id', h1, h2⟩ := hmem b' (List.mem_of_getLast? hl)
      rw [hc] at h1; cases h1
      rw [hv] at h2; cases h2; rfl

structure MI (cfg : Cfg) (s : State) : Prop where
  valid : ∀ m ∈ s.bus, Valid s.db m
  agrees : ∀ u r, Agrees cfg (cur s.db r u) (later cfg s.db s.disp.jrt s.bus u r)

theorem mi_poll {cfg : Cfg} {ops : List Op} {s : State} (hR : Reach s ops) (o : Store.Op) (hok : ∀ o ∈ polls ops, Store.OkOp o) (hk : ∀ o ∈ polls ops, KeyOk o)
    (ho : Store.OkOp o) (hko : KeyOk o) (h : MI cfg s) : MI cfg (step cfg s (.poll o)) := by
  have hok' : ∀ x ∈ polls ops ++ [o], Store.OkOp x := fun x hx => by
    rcases List.mem_append.1 hx with hx | hx
    · exact hok x hx
    · rw [List.mem_singleton] at hx; subst hx; exact ho
  have hk' : ∀ x ∈ polls ops ++ [o], KeyOk x := fun x hx => by
    rcases List.mem_append.1 hx with hx | hx
    · exact hk x hx
    · rw [List.mem_singleton] at hx; subst hx; exact hko
  have hrun : Store.step s.db o = Store.run (polls ops ++ [o]) := by rw [hR.db]; simp [Store.run]
  have hRel := Store.run_spec _ hok
  have hHist := Store.run_hist _ hok
  rw [← hR.db] at hRel hHist
  obtain ⟨hRel', hE⟩ := Store.step_spec hRel o ho
  have hHist' := Store.step_hist hRel hHist o ho
  have hmm : ∀ u r, u ∈ membersWith cfg s.db r (· == "join") ↔ ∃ id, cur s.db r u = some id ∧ cfg.mem id = "join" := fun u r => by
    rw [hR.db]; simpa using mem_members (cfg := cfg) (r := r) (u := u) (p := (· == "join")) hok
  have hmm' : ∀ u r, u ∈ membersWith cfg (Store.step s.db o) r (· == "join") ↔ ∃ id, cur (Store.step s.db o) r u = some id ∧ cfg.mem id = "join" := fun u r => by
    rw [hrun]; simpa using mem_members (cfg := cfg) (r := r) (u := u) (p := (· == "join")) hok'
  -- unchanged for the user: the messages there are say what they said
  have same : ∀ u r, cur (Store.step s.db o) r u = cur s.db r u →
      later cfg (Store.step s.db o) s.disp.jrt s.bus u r = later cfg s.db s.disp.jrt s.bus u r := by
    intro u r hc
    unfold later
    congr 2
    apply Store.filterMap_congr'
    intro m hm
    apply say_stable hRel.inv hRel'.inv hE (h.valid m hm)
    intro _
    rw [hmm, hmm', hc]
  suffices H : (∀ m ∈ publish s.db o, Valid (Store.step s.db o) m) ∧ ∀ u r,
      (cur (Store.step s.db o) r u = cur s.db r u ∧ (publish s.db o).filterMap (sayMsg cfg (Store.step s.db o) u r) = []) ∨
      ∃ m, publish s.db o = [m] ∧ (∀ id b, cur (Store.step s.db o) r u = some id → verdict cfg id = some b → sayMsg cfg (Store.step s.db o) u r m = some b) ∧
        (cur (Store.step s.db o) r u = none → sayMsg cfg (Store.step s.db o) u r m = some false ∨
          cur s.db r u = none ∧ sayMsg cfg (Store.step s.db o) u r m = none) by
    refine ⟨fun m hm => ?_, fun u r => ?_⟩
    · rcases List.mem_append.1 hm with hm | hm
      · exact (h.valid m hm).mono hE
      · exact H.1 m hm
    · simp only [step]
      rcases H.2 u r with ⟨h1, h2⟩ | ⟨m, h1, h2, h3⟩
      · have : later cfg (Store.step s.db o) s.disp.jrt (s.bus ++ publish s.db o) u r = later cfg (Store.step s.db o) s.disp.jrt s.bus u r := by
          unfold later; rw [List.filterMap_append, h2, List.append_nil]
        rw [this, same u r h1, h1]
        exact h.agrees u r
      · rw [h1, later_snoc]
        refine ⟨fun id b hc hv => by rw [h2 id b hc hv]; rfl, fun hc => ?_⟩
        rcases h3 hc with h3 | ⟨h3, h4⟩
        · rw [h3]; rfl
        · rw [h4, Option.getD_none, same u r (hc.trans h3.symm)]
          exact (h.agrees u r).2 h3
  cases o with
  | acc room skip limited timeline =>
    obtain ⟨db', post, e1, _, _, e2, e3, _⟩ := Store.accumulate_spec hRel room skip limited timeline ho
    have hdb : Store.step s.db (.acc room skip limited timeline) = db' := by simp [Store.step, e1]
    have hpub : publish s.db (.acc room skip limited timeline) = if post.length ≠ 0 then [.acc room (post.map (·.nid))] else [] := by
      simp only [publish, e1]
    rw [hdb] at hRel' hE hHist' ⊢
    have hcur : ∀ u r, cur db' r u = if r = room then ((post.filter fun x => x.ev.hasKey).map (·.ev)).foldl St.apply (Store.replay s.db.rows r Store.always) ("m.room.member", u)
        else cur s.db r u := by
      intro u r
      unfold cur
      by_cases hr : r = room
      · subst hr
        rw [if_pos rfl, Store.replay_core, e2, Store.replayC_append, ← Store.replay_core]
        have : ((post.map Row.core).filter fun c => decide (c.2.1 = r) && Store.always c.1 && (c.2.2.2 || c.2.2.1.hasKey)).map (·.2.2.1) =
            (post.filter fun x => x.ev.hasKey).map (·.ev) := by
          rw [List.filter_map, List.map_map]
          have hf : post.filter ((fun c => decide (c.2.1 = r) && Store.always c.1 && (c.2.2.2 || c.2.2.1.hasKey)) ∘ Row.core) = post.filter fun x => x.ev.hasKey := by
            apply List.filter_congr
            intro x hx
            simp [Row.core, (e3 x hx).1, (e3 x hx).2, Store.always]
          rw [hf]; rfl
        rw [this]
      · rw [if_neg hr, Store.replay_core, e2, Store.replayC_other _ _ _ _ (fun c hc h' => ?_), ← Store.replay_core]
        obtain ⟨x, hx, rfl⟩ := List.mem_map.1 hc
        exact absurd (h'.symm.trans (e3 x hx).1) hr
    have hgt : ∀ x ∈ post, s.db.seq < x.nid := fun x hx => by
      obtain ⟨new, n1, n2⟩ := hE.rows
      rw [List.append_cancel_left (n1.symm.trans e2)] at n2
      exact n2 _ (List.mem_map_of_mem hx)
    have hsel : ∃ rows, Store.selectByNIDs db' (post.map (·.nid)) = some rows ∧ rows.map Row.core = post.map Row.core := by
      have hf : (db'.rows.filter fun x => decide (x.nid ∈ post.map (·.nid))).map Row.core = post.map Row.core := by
        have h1 : (db'.rows.filter fun x => decide (x.nid ∈ post.map (·.nid))).map Row.core =
            (db'.rows.map Row.core).filter fun c => decide (c.1 ∈ post.map (·.nid)) := by rw [List.filter_map]; rfl
        rw [h1, e2, List.filter_append]
        have h2 : (s.db.rows.map Row.core).filter (fun c => decide (c.1 ∈ post.map (·.nid))) = [] := by
          rw [List.filter_eq_nil_iff]
          intro c hc
          obtain ⟨x, hx, rfl⟩ := List.mem_map.1 hc
          simp only [decide_eq_true_eq]
          intro hm
          obtain ⟨y, hy, he⟩ := List.mem_map.1 hm
          have := hgt y hy
          have := (hRel.inv.range x hx).2
          simp only [Row.core] at he
          omega
        have h3 : (post.map Row.core).filter (fun c => decide (c.1 ∈ post.map (·.nid))) = post.map Row.core := by
          rw [List.filter_eq_self]
          intro c hc
          obtain ⟨x, hx, rfl⟩ := List.mem_map.1 hc
          simp only [decide_eq_true_eq]
          exact List.mem_map.2 ⟨x, hx, rfl⟩
        rw [h2, h3, List.nil_append]
      refine ⟨_, ?_, hf⟩
      have hl := congrArg List.length hf
      rw [List.length_map, List.length_map] at hl
      unfold Store.selectByNIDs
      rw [if_neg]
      rw [List.length_map, hl]; simp
    rw [hpub]
    by_cases hp : post = []
    · subst hp
      refine ⟨by simp, fun u r => Or.inl ⟨?_, by simp⟩⟩
      rw [hcur]
      split
      · rfl
      · rfl
    · have hlen : post.length ≠ 0 := by simpa using hp
      rw [if_pos hlen]
      obtain ⟨rows, hs1, hs2⟩ := hsel
      constructor
      · intro m hm
        rw [List.mem_singleton] at hm; subst hm
        intro n hn
        obtain ⟨x, hx, rfl⟩ := List.mem_map.1 hn
        have : x.core ∈ db'.rows.map Row.core := by rw [e2]; exact List.mem_append_right _ (List.mem_map_of_mem hx)
        obtain ⟨y, hy, hc⟩ := List.mem_map.1 this
        rw [← (Store.core_eq hc).1]
        exact (hRel'.inv.range y hy).2
      · intro u r
        by_cases hr : r = room
        · subst hr
          have hsay : sayMsg cfg db' u r (.acc r (post.map (·.nid))) = says cfg u post := by
            simp only [sayMsg, if_pos, hs1, Option.bind_some]
            exact says_core hs2
          have hc := hcur u r
          rw [if_pos rfl] at hc
          rcases post_says cfg u post (Store.replay s.db.rows r Store.always) with ⟨p1, p2⟩ | ⟨id, p1, p2⟩
          · left
            exact ⟨hc.trans p1, by simp [hsay, p2]⟩
          · right
            refine ⟨_, rfl, fun id' b hi hv => ?_, fun hn => ?_⟩
            · rw [hc, p1] at hi; cases hi
              rw [hsay]; exact p2 b hv
            · rw [hc, p1] at hn; cases hn
        · left
          have : ¬ room = r := fun h => hr h.symm
          exact ⟨by rw [hcur, if_neg hr], by simp [sayMsg, this]⟩
  | init room skip block =>
    obtain ⟨_, _, new, e2, e3, e4, _⟩ := Store.initialise_spec hRel room skip block ho
    have hother : ∀ u r, r ≠ room → cur (Store.step s.db (.init room skip block)) r u = cur s.db r u := by
      intro u r hr
      unfold cur
      rw [Store.replay_core, e2, Store.replayC_other _ _ _ _ (fun c hc h' => ?_), ← Store.replay_core]
      obtain ⟨x, hx, rfl⟩ := List.mem_map.1 hc
      exact absurd (h'.symm.trans (e3 x hx).1) hr
    have hsame : (Store.step s.db (.init room skip block)).cur room = s.db.cur room → ∀ u, cur (Store.step s.db (.init room skip block)) room u = cur s.db room u := by
      intro he u
      have k1 := (Store.C40_current _ hok room).1
      have k2 := (Store.C40_current _ hok' room).1
      rw [← hR.db, show (fun _ => true) = Store.always from rfl] at k1
      rw [← hrun, show (fun _ => true) = Store.always from rfl, he] at k2
      have hle := (hRel.cur room).le hRel.inv
      apply Option.ext
      intro id
      unfold cur
      rw [← k1, ← k2]
      simp only [hE.at hRel.inv hle]
    have hkeep : ∀ u, cur (Store.step s.db (.init room skip block)) room u = none → cur s.db room u = none := by
      intro u hn
      unfold cur at hn ⊢
      rw [Store.replay_core, e2, Store.replayC_append, ← Store.replay_core, fold_last] at hn
      split at hn
      · cases hn
      · exact hn
    have hrest : ∀ m, (publish s.db (.init room skip block) = [m] ∧ ∀ r u, r ≠ room → sayMsg cfg (Store.step s.db (.init room skip block)) u r m = none) → ∀ u r, r ≠ room →
        (publish s.db (.init room skip block)).filterMap (sayMsg cfg (Store.step s.db (.init room skip block)) u r) = [] := by
      intro m hm u r hr
      simp [hm.1, hm.2 r u hr]
    have hpub : publish s.db (.init room skip block) = if (Store.step s.db (.init room skip block)).cur room = s.db.cur room then []
        else if s.db.cur room ≠ 0 then [.inval room] else [.init room ((Store.step s.db (.init room skip block)).cur room)] := by
      cases hi : Store.initialise s.db room skip block with
      | none => simp [publish, Store.step, hi]
      | some db' => simp only [publish, Store.step, hi, Option.getD_some]
    by_cases hc : (Store.step s.db (.init room skip block)).cur room = s.db.cur room
    · rw [if_pos hc] at hpub
      rw [hpub]
      refine ⟨by simp, fun u r => Or.inl ⟨?_, by simp⟩⟩
      by_cases hr : r = room
      · subst hr; exact hsame hc u
      · exact hother u r hr
    · rw [if_neg hc] at hpub
      by_cases h0 : s.db.cur room = 0
      · rw [if_neg (by simpa using h0)] at hpub
        have hne : (Store.run (polls ops ++ [.init room skip block])).cur room ≠ 0 := by
          rw [← hrun]; exact fun h => hc (h.trans h0.symm)
        have hsn := snap_says (cfg := cfg) hok' hk' hne
        rw [← hrun] at hsn
        refine ⟨?_, fun u r => ?_⟩
        · intro m hm
          rw [hpub, List.mem_singleton] at hm; subst hm
          exact (hsn "").1
        · by_cases hr : r = room
          · subst hr
            right
            refine ⟨_, hpub, fun id b hi hv => ?_, fun hn => Or.inr ⟨hkeep u hn, ?_⟩⟩
            · simp only [sayMsg, if_pos]; exact (hsn u).2.2 id b hi hv
            · simp only [sayMsg, if_pos]; exact (hsn u).2.1 hn
          · left
            refine ⟨hother u r hr, hrest _ ⟨hpub, fun r u hr => ?_⟩ u r hr⟩
            simp [sayMsg, Ne.symm hr]
      · rw [if_pos h0] at hpub
        refine ⟨?_, fun u r => ?_⟩
        · intro m hm
          rw [hpub, List.mem_singleton] at hm; subst hm
          trivial
        · by_cases hr : r = room
          · subst hr
            right
            refine ⟨_, hpub, fun id b hi hv => ?_, fun hn => Or.inl ?_⟩
            · simp only [sayMsg, if_pos]
              congr 1
              unfold verdict at hv
              by_cases hj : cfg.mem id = "join"
              · rw [if_pos hj] at hv; cases hv
                exact decide_eq_true ((hmm' u r).2 ⟨id, hi, hj⟩)
              · rw [if_neg hj] at hv
                split at hv
                · cases hv
                  apply decide_eq_false
                  rw [hmm']
                  rintro ⟨id', h1, h2⟩
                  rw [hi] at h1; cases h1; exact hj h2
                · cases hv
            · simp only [sayMsg, if_pos]
              congr 1
              apply decide_eq_false
              rw [hmm']
              rintro ⟨id', h1, _⟩
              rw [hn] at h1; cases h1
          · left
            refine ⟨hother u r hr, hrest _ ⟨hpub, fun r u hr => ?_⟩ u r hr⟩
            simp [sayMsg, Ne.symm hr]

theorem mi_restart {cfg : Cfg} {ops : List Op} {s : State} (hR : Reach s ops) (hok : ∀ o ∈ polls ops, Store.OkOp o) : MI cfg (step cfg s .restart) := by
  have hmm : ∀ u r, u ∈ membersWith cfg s.db r (· == "join") ↔ ∃ id, cur s.db r u = some id ∧ cfg.mem id = "join" := fun u r => by
    rw [hR.db]; simpa using mem_members (cfg := cfg) (r := r) (u := u) (p := (· == "join")) hok
  have hnd : (((s.db.rows.map (·.room)).eraseDups.map fun room => (room, membersWith cfg s.db room (· == "join"))).map (·.1)).Nodup := by
    rw [List.map_map, show ((fun x : String × List String => x.1) ∘ fun room => (room, membersWith cfg s.db room (· == "join"))) = id from rfl,
      List.map_id]
    exact eraseDups_nodup _ _ (Nat.le_refl _)
  refine ⟨fun m hm => by simp [step, restart] at hm, fun u r => ?_⟩
  have hj : later cfg s.db (restart cfg s).disp.jrt [] u r = true ↔ ∃ id, cur s.db r u = some id ∧ cfg.mem id = "join" := by
    unfold later
    simp only [List.filterMap_nil, List.getLast?_nil, Option.getD_none]
    rw [← Dispatcher.mem_joined_iff]
    show u ∈ (Tracker.startup _).joinedUsers r ↔ _
    rw [(Tracker.startup_fields _ hnd).1, ← hmm]
    unfold Tracker.listed
    constructor
    · rintro ⟨us, hm, hu⟩
      obtain ⟨room, _, he⟩ := List.mem_map.1 hm
      cases he
      exact hu
    · intro hu
      obtain ⟨id, hc, _⟩ := (hmm u r).1 hu
      obtain ⟨x, hx, hr, _⟩ := cur_row hc
      exact ⟨_, List.mem_map.2 ⟨r, List.mem_eraseDups.2 (List.mem_map.2 ⟨x, hx, hr⟩), rfl⟩, hu⟩
  show Agrees cfg (cur s.db r u) (later cfg s.db (restart cfg s).disp.jrt [] u r)
  constructor
  · intro id b hc hv
    unfold verdict at hv
    by_cases h : cfg.mem id = "join"
    · rw [if_pos h] at hv; cases hv
      exact hj.2 ⟨id, hc, h⟩
    · rw [if_neg h] at hv
      split at hv
      · cases hv
        rw [Bool.eq_false_iff]
        intro hl
        obtain ⟨id', h1, h2⟩ := hj.1 hl
        rw [hc] at h1; cases h1; exact h h2
      · cases hv
  · intro hc
    rw [Bool.eq_false_iff]
    intro hl
    obtain ⟨id', h1, _⟩ := hj.1 hl
    rw [hc] at h1; cases h1

theorem mi_run (cfg : Cfg) (ops : List Op) (hok : ∀ o ∈ polls ops, Store.OkOp o) (hk : ∀ o ∈ polls ops, KeyOk o) : MI cfg (run cfg {} ops) := by
  induction ops using Util.snocRec with
  | nil => exact ⟨by simp [run], fun u r => ⟨by simp [run, cur, Store.replay, St.none], fun _ => by simp [later, run, Tracker.isUserJoined, Tracker.empty]⟩⟩
  | append_singleton ops o ih =>
    have hR := reach cfg ops
    have hsub : ∀ x ∈ polls ops, x ∈ polls (ops ++ [o]) := fun x hx => by rw [polls_append]; exact List.mem_append_left _ hx
    have hok' : ∀ o ∈ polls ops, Store.OkOp o := fun x hx => hok x (hsub x hx)
    have ih := ih hok' fun x hx => hk x (hsub x hx)
    rw [show run cfg {} (ops ++ [o]) = step cfg (run cfg {} ops) o by simp [run]]
    generalize run cfg {} ops = s at *
    cases o with
    | poll o =>
      have ho : o ∈ polls (ops ++ [.poll o]) := by simp [polls]
      exact mi_poll hR o hok' (fun x hx => hk x (hsub x hx)) (hok o ho) (hk o ho) ih
    | recv =>
      cases hb : s.bus with
      | nil => rw [show step cfg s .recv = s by simp [step, hb]]; exact ih
      | cons m rest =>
        have hstep : step cfg s .recv = handle cfg { s with bus := rest } m := by simp [step, hb]
        have hB : Base { s with bus := rest } (pend (m :: rest)) := by rw [← hb]; exact ⟨hR.base.ti, hR.base.bus, hR.base.jrt⟩
        obtain ⟨_, h2, h3⟩ := handle_base (cfg := cfg) hB
        have hI : Store.Inv s.db := by rw [hR.db]; exact (Store.run_spec _ hok').inv
        have hv := ih.valid
        have ha := ih.agrees
        rw [hb] at hv ha
        have hj := handle_joined (cfg := cfg) hB hI (hv m (by simp))
        rw [hstep]
        refine ⟨fun x hx => ?_, fun u r => ?_⟩
        · rw [h3] at hx; rw [h2]; exact hv x (List.mem_cons_of_mem _ hx)
        · rw [h2, h3]
          have := later_cons cfg s.db s.disp.jrt (handle cfg { s with bus := rest } m).disp.jrt m rest u r (hj u r)
          show Agrees cfg (cur s.db r u) (later cfg s.db (handle cfg { s with bus := rest } m).disp.jrt rest u r)
          rw [this]; exact ha u r
    | «open» => exact ⟨ih.valid, ih.agrees⟩
    | request xs => exact ⟨ih.valid, ih.agrees⟩
    | take vis xs => exact ⟨ih.valid, ih.agrees⟩
    | restart => exact mi_restart hR hok'

/-! ## C115 -/

/-- C115 (partial): once the handler has taken all messages, the users it tells about new events in a room (`Tracker.isUserJoined`, which
`dispatcher.go:170-214` asks) are right for what the pollers stored: a user whose last stored member event is a join is among them, a user whose last
member event is a leave or a ban, or without any, is not — for all orders of poller responses, restarts, and times at which messages are taken.
Missing: other memberships, see `C115_violated_invite`. -/
theorem C115_tracker_partial (cfg : Cfg) (ops : List Op) (hok : ∀ o ∈ polls ops, Store.OkOp o) (hk : ∀ o ∈ polls ops, KeyOk o) (r u : String)
    (hbus : (run cfg {} ops).bus = []) :
    match lastMember (run cfg {} ops).db r u with
    | none => Tracker.isUserJoined (run cfg {} ops).disp.jrt u r = false
    | some x =>
      (cfg.mem x.ev.id = "join" → Tracker.isUserJoined (run cfg {} ops).disp.jrt u r = true) ∧
      (cfg.mem x.ev.id = "leave" ∨ cfg.mem x.ev.id = "ban" → Tracker.isUserJoined (run cfg {} ops).disp.jrt u r = false) := by
  have h := (mi_run cfg ops hok hk).agrees u r
  rw [hbus, ← last_cur] at h
  unfold later at h
  simp only [List.filterMap_nil, List.getLast?_nil, Option.getD_none] at h
  cases hl : lastMember (run cfg {} ops).db r u with
  | none => rw [hl] at h; exact h.2 rfl
  | some x =>
    rw [hl] at h
    refine ⟨fun hj => h.1 x.ev.id true rfl (by simp [verdict, hj]), fun hj => h.1 x.ev.id false rfl ?_⟩
    unfold verdict
    rw [if_neg, if_pos hj]
    rcases hj with hj | hj <;> rw [hj] <;> decide

end Verif.EndToEnd
