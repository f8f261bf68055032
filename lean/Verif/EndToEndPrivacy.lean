import Verif.EndToEndMembers
/-!
# C127: a client is given only events of rooms its user was in when they were stored
-/
namespace Verif.EndToEnd
open Verif.Store (DB Row TI St Ev)

/-! ## Specification -/

/-- A member event of the user in the room. -/
def Member (cfg : Cfg) (r : String) (x : Row) : Prop := x.room = r ∧ x.ev.type = "m.room.member" ∧ x.ev.stateKey = cfg.user

/-- Of the user's member events up to the position, a join is not followed by a leave or a ban. -/
def JoinedThen (cfg : Cfg) (db : DB) (r : String) (n : Nat) : Prop :=
  ∃ x ∈ db.rows, Member cfg r x ∧ cfg.mem x.ev.id = "join" ∧ x.nid ≤ n ∧
    ∀ y ∈ db.rows, Member cfg r y → x.nid < y.nid → y.nid ≤ n → cfg.mem y.ev.id ≠ "leave" ∧ cfg.mem y.ev.id ≠ "ban"

/-- The last member event of the user up to the position is a join. -/
def InRoom (cfg : Cfg) (db : DB) (r : String) (n : Nat) : Prop :=
  ∃ x ∈ db.rows, Member cfg r x ∧ cfg.mem x.ev.id = "join" ∧ x.nid ≤ n ∧ ∀ y ∈ db.rows, Member cfg r y → y.nid ≤ n → y.nid ≤ x.nid

/-- The event is a member event of the user. -/
def Own (cfg : Cfg) (db : DB) (r : String) (n : Nat) : Prop := ∃ x ∈ db.rows, Member cfg r x ∧ x.nid = n

/-- After a join, the next member event that is stored is again a join, a leave or a ban: no leave was missed. -/
def NoneMissed (cfg : Cfg) (db : DB) (r : String) : Prop :=
  ∀ x ∈ db.rows, ∀ y ∈ db.rows, Member cfg r x → Member cfg r y → cfg.mem x.ev.id = "join" → x.nid < y.nid →
    (∀ z ∈ db.rows, Member cfg r z → z.nid ≤ x.nid ∨ y.nid ≤ z.nid) →
    cfg.mem y.ev.id = "join" ∨ cfg.mem y.ev.id = "leave" ∨ cfg.mem y.ev.id = "ban"

/-- When the room's members are read anew, no event of the room that was stored before is still in a message. -/
def Calm (cfg : Cfg) (r : String) (ops : List Op) : Prop :=
  ∀ pre post rest nids, ops = pre ++ .recv :: post → (run cfg {} pre).bus = .inval r :: rest → .acc r nids ∉ rest

/-! ## Positions -/

theorem JoinedThen.on {cfg : Cfg} {db : DB} {r : String} {p q : Nat} (h : JoinedThen cfg db r p) (hpq : p ≤ q)
    (hn : ∀ y ∈ db.rows, Member cfg r y → p < y.nid → y.nid ≤ q → cfg.mem y.ev.id ≠ "leave" ∧ cfg.mem y.ev.id ≠ "ban") :
    JoinedThen cfg db r q := by
  obtain ⟨x, hx, h1, h2, h3, h4⟩ := h
  refine ⟨x, hx, h1, h2, by omega, fun y hy hm hlt hle => ?_⟩
  by_cases hp : y.nid ≤ p
  · exact h4 y hy hm hlt hp
  · exact hn y hy hm (by omega) hle

theorem joined_at {cfg : Cfg} {db : DB} {r : String} {n : Nat} : Visibility.JoinedAt (mrows cfg db) r n ↔ JoinedThen cfg db r n := by
  constructor
  · rintro ⟨e, he, h1, h2, h3, h4⟩
    obtain ⟨x, hx, ht, hk, rfl⟩ := mem_mrows.1 he
    refine ⟨x, hx, ⟨h1, ht, hk⟩, h2, by simpa using h3, fun y hy hm hlt hle => ?_⟩
    have := h4 ⟨y.room, y.nid, cfg.mem y.ev.id⟩ (mem_mrows.2 ⟨y, hy, hm.2.1, hm.2.2, rfl⟩) hm.1
    constructor
    · intro h; exact this (Or.inl h) (by simpa using hlt) (by simpa using hle)
    · intro h; exact this (Or.inr h) (by simpa using hlt) (by simpa using hle)
  · rintro ⟨x, hx, h1, h2, h3, h4⟩
    refine ⟨⟨x.room, x.nid, cfg.mem x.ev.id⟩, mem_mrows.2 ⟨x, hx, h1.2.1, h1.2.2, rfl⟩, h1.1, h2, by simpa using h3, ?_⟩
    intro e he hr hm hlt hle
    obtain ⟨y, hy, ht, hk, rfl⟩ := mem_mrows.1 he
    have := h4 y hy ⟨hr, ht, hk⟩ (by simpa using hlt) (by simpa using hle)
    exact hm.elim this.1 this.2

/-- The store after more was stored. -/
structure Grown (db db' : DB) : Prop where
  fwd : ∀ x ∈ db.rows, ∃ y ∈ db'.rows, y.core = x.core
  back : ∀ y ∈ db'.rows, y.nid ≤ db.seq → ∃ x ∈ db.rows, x.core = y.core
  seq : db.seq ≤ db'.seq

theorem grown {db db' : DB} {new : List Row} (he : db'.rows.map Row.core = db.rows.map Row.core ++ new.map Row.core)
    (hn : ∀ x ∈ new, db.seq < x.nid) (hs : db.seq ≤ db'.seq) : Grown db db' := by
  refine ⟨fun x hx => EndToEnd.fwd he hx, fun y hy hle => ?_, hs⟩
  have hy' : y.core ∈ db.rows.map Row.core ++ new.map Row.core := by rw [← he]; exact List.mem_map_of_mem hy
  rcases List.mem_append.1 hy' with h | h
  · obtain ⟨x, hx, hc⟩ := List.mem_map.1 h; exact ⟨x, hx, hc⟩
  · obtain ⟨x, hx, hc⟩ := List.mem_map.1 h
    have := hn x hx
    have := (Store.core_eq hc).1
    omega

theorem Member.core {cfg : Cfg} {r : String} {x y : Row} (h : Member cfg r x) (hc : y.core = x.core) : Member cfg r y := by
  obtain ⟨_, c2, c3, _⟩ := Store.core_eq hc
  exact ⟨by rw [c2]; exact h.1, by rw [c3]; exact h.2.1, by rw [c3]; exact h.2.2⟩

theorem JoinedThen.grow {cfg : Cfg} {db db' : DB} (hg : Grown db db') {r : String} {n : Nat} (hn : n ≤ db.seq) (h : JoinedThen cfg db r n) :
    JoinedThen cfg db' r n := by
  obtain ⟨x, hx, h1, h2, h3, h4⟩ := h
  obtain ⟨x', hx', hc⟩ := hg.fwd x hx
  obtain ⟨c1, _, c3, _⟩ := Store.core_eq hc
  refine ⟨x', hx', h1.core hc, by rw [c3]; exact h2, by omega, fun y hy hm hlt hle => ?_⟩
  obtain ⟨w, hw, hwc⟩ := hg.back y hy (by omega)
  obtain ⟨w1, _, w3, _⟩ := Store.core_eq hwc
  have := h4 w hw (hm.core hwc) (by omega) (by omega)
  rwa [w3] at this

theorem Own.grow {cfg : Cfg} {db db' : DB} (hg : Grown db db') {r : String} {n : Nat} (h : Own cfg db r n) : Own cfg db' r n := by
  obtain ⟨x, hx, h1, h2⟩ := h
  obtain ⟨y, hy, hc⟩ := hg.fwd x hx
  exact ⟨y, hy, h1.core hc, (Store.core_eq hc).1.trans h2⟩

/-- The event may be seen, and is stored. -/
def Ok (cfg : Cfg) (db : DB) (r : String) (n : Nat) : Prop := n ≤ db.seq ∧ (JoinedThen cfg db r n ∨ Own cfg db r n)

theorem Ok.grow {cfg : Cfg} {db db' : DB} (hg : Grown db db') {r : String} {n : Nat} (h : Ok cfg db r n) : Ok cfg db' r n :=
  ⟨Nat.le_trans h.1 hg.seq, h.2.elim (fun k => Or.inl (k.grow hg h.1)) fun k => Or.inr (k.grow hg)⟩

/-- The last member event is a join. -/
theorem cur_join {cfg : Cfg} {db : DB} (hI : TI db) (hk : ∀ x ∈ db.rows, x.ev.stateKey = cfg.user → x.ev.hasKey = true) {r id : String}
    (h : cur db r cfg.user = some id) (hj : cfg.mem id = "join") {n : Nat} (hn : db.seq ≤ n) : JoinedThen cfg db r n := by
  rw [← last_cur] at h
  obtain ⟨x, hx, rfl⟩ := Option.map_eq_some_iff.1 h
  have hm := List.mem_of_getLast? hx
  simp only [List.mem_filter, Bool.and_eq_true, decide_eq_true_eq, Bool.or_eq_true] at hm
  refine ⟨x, hm.1, ⟨hm.2.1.1.1, hm.2.1.2, hm.2.2⟩, hj, by have := (hI.range x hm.1).2; omega, fun y hy hym hlt _ => ?_⟩
  exfalso
  unfold lastMember at hx
  have hasc := hI.asc.filter fun x => decide (x.room = r) && (x.isState || x.ev.hasKey) && decide (x.ev.type = "m.room.member") &&
    decide (x.ev.stateKey = cfg.user)
  have hym' : y ∈ db.rows.filter fun x => decide (x.room = r) && (x.isState || x.ev.hasKey) && decide (x.ev.type = "m.room.member") &&
      decide (x.ev.stateKey = cfg.user) := by
    simp only [List.mem_filter, Bool.and_eq_true, decide_eq_true_eq, Bool.or_eq_true]
    exact ⟨hy, ⟨⟨hym.1, Or.inr (hk y hy hym.2.2)⟩, hym.2.1⟩, hym.2.2⟩
  generalize db.rows.filter (fun x => decide (x.room = r) && (x.isState || x.ev.hasKey) && decide (x.ev.type = "m.room.member") &&
    decide (x.ev.stateKey = cfg.user)) = l at hx hasc hym'
  rcases List.eq_nil_or_concat l with rfl | ⟨l, z, rfl⟩
  · cases hym'
  · rw [List.concat_eq_append] at *
    rw [List.getLast?_concat] at hx
    cases hx
    rw [List.pairwise_append] at hasc
    rcases List.mem_append.1 hym' with h | h
    · have := hasc.2.2 y h x (by simp); omega
    · rw [List.mem_singleton] at h; subst h; omega

/-- If the last member event is the same, no other was stored. -/
theorem cur_same {cfg : Cfg} {db db' : DB} (hI : TI db) (hI' : TI db') (hg : Grown db db') (hk : ∀ x ∈ db'.rows, x.ev.stateKey = cfg.user → x.ev.hasKey = true)
    {r : String} (h : cur db' r cfg.user = cur db r cfg.user) {y : Row} (hy : y ∈ db'.rows) (hm : Member cfg r y) : y.nid ≤ db.seq := by
  have hym' : y ∈ db'.rows.filter fun x => decide (x.room = r) && (x.isState || x.ev.hasKey) && decide (x.ev.type = "m.room.member") &&
      decide (x.ev.stateKey = cfg.user) := by
    simp only [List.mem_filter, Bool.and_eq_true, decide_eq_true_eq, Bool.or_eq_true]
    exact ⟨hy, ⟨⟨hm.1, Or.inr (hk y hy hm.2.2)⟩, hm.2.1⟩, hm.2.2⟩
  have hasc := hI'.asc.filter fun x => decide (x.room = r) && (x.isState || x.ev.hasKey) && decide (x.ev.type = "m.room.member") &&
    decide (x.ev.stateKey = cfg.user)
  obtain ⟨z, hz⟩ : ∃ z, lastMember db' r cfg.user = some z := by
    unfold lastMember
    rcases Option.eq_none_or_eq_some (db'.rows.filter fun x => decide (x.room = r) && (x.isState || x.ev.hasKey) && decide (x.ev.type = "m.room.member") &&
      decide (x.ev.stateKey = cfg.user)).getLast? with h | h
    · rw [List.getLast?_eq_none_iff] at h; rw [h] at hym'; cases hym'
    · exact h
  have hzy : y.nid ≤ z.nid := by
    unfold lastMember at hz
    generalize db'.rows.filter (fun x => decide (x.room = r) && (x.isState || x.ev.hasKey) && decide (x.ev.type = "m.room.member") &&
      decide (x.ev.stateKey = cfg.user)) = l at hz hasc hym'
    rcases List.eq_nil_or_concat l with rfl | ⟨l, w, rfl⟩
    · cases hym'
    · rw [List.concat_eq_append] at *
      rw [List.getLast?_concat] at hz
      cases hz
      rw [List.pairwise_append] at hasc
      rcases List.mem_append.1 hym' with h | h
      · have := hasc.2.2 y h z (by simp); omega
      · rw [List.mem_singleton] at h; subst h; omega
  have hzr : z ∈ db'.rows := (List.mem_filter.1 (List.mem_of_getLast? hz)).1
  rw [← last_cur, hz] at h
  obtain ⟨x, hx, _, _, _, hid⟩ := cur_row h.symm
  obtain ⟨x', hx', hc⟩ := hg.fwd x hx
  obtain ⟨c1, _, c3, _⟩ := Store.core_eq hc
  have hxz : x' = z := by
    have := hI'.ids
    have hid' : x'.ev.id = z.ev.id := by rw [c3]; exact hid
    generalize db'.rows = l at this hx' hzr
    induction l with
    | nil => cases hx'
    | cons a l ih =>
      rw [List.map_cons, List.nodup_cons] at this
      rcases List.mem_cons.1 hx' with e1 | hx1 <;> rcases List.mem_cons.1 hzr with e2 | hz1
      · rw [e1, e2]
      · exact absurd (List.mem_map.2 ⟨z, hz1, by rw [← hid', e1]⟩) this.1
      · exact absurd (List.mem_map.2 ⟨x', hx1, by rw [hid', e2]⟩) this.1
      · exact ih this.2 hx1 hz1
  have := (hI.range x hx).2
  rw [hxz] at c1
  omega

/-! ## The rows of a message -/

/-- Whenever the user is taken as joined after a row, the user was joined at its position. -/
def walk (cfg : Cfg) (db : DB) (r : String) : Bool → List Row → Prop
  | _, [] => True
  | v, x :: xs =>
    (((Dispatcher.saysEvent cfg.user (toEvent cfg x)).getD v = true → JoinedThen cfg db r x.nid) ∧
      walk cfg db r ((Dispatcher.saysEvent cfg.user (toEvent cfg x)).getD v) xs)

theorem says_cons (cfg : Cfg) (u : String) (x : Row) (xs : List Row) (v : Bool) :
    (says cfg u (x :: xs)).getD v = (says cfg u xs).getD ((Dispatcher.saysEvent u (toEvent cfg x)).getD v) := by
  unfold says
  rw [List.filterMap_cons]
  cases Dispatcher.saysEvent u (toEvent cfg x) with
  | none => rfl
  | some b => cases hl : xs.filterMap fun x => Dispatcher.saysEvent u (toEvent cfg x) <;> simp [List.getLast?_cons]

theorem walk_grow {cfg : Cfg} {db db' : DB} (hg : Grown db db') {r : String} : ∀ (a b : List Row) (v : Bool), a.map Row.core = b.map Row.core →
    (∀ x ∈ a, x.nid ≤ db.seq) → walk cfg db r v a → walk cfg db' r v b
  | [], [], _, _, _, _ => trivial
  | [], _ :: _, _, h, _, _ => by simp at h
  | _ :: _, [], _, h, _, _ => by simp at h
  | x :: a, y :: b, v, h, hle, hw => by
    simp only [List.map_cons, List.cons.injEq] at h
    obtain ⟨c1, _, c3, _⟩ := Store.core_eq h.1
    have he : toEvent cfg y = toEvent cfg x := by simp [toEvent, c1, c3]
    unfold walk at hw ⊢
    rw [he, ← c1]
    exact ⟨fun hv => (hw.1 hv).grow hg (hle x (by simp)), walk_grow hg a b _ h.2 (fun z hz => hle z (by simp [hz])) hw.2⟩

/-- Rows that are all the room has after a position. -/
theorem walk_rows {cfg : Cfg} {db : DB} (hk : ∀ x ∈ db.rows, x.ev.stateKey = cfg.user → x.ev.hasKey = true) {r : String} :
    ∀ (l : List Row) (p : Nat) (v : Bool), (v = true → JoinedThen cfg db r p) → (∀ x ∈ l, ∃ y ∈ db.rows, y.core = x.core) → (∀ x ∈ l, x.room = r) →
      (l.Pairwise fun a b => a.nid < b.nid) → (∀ x ∈ l, p < x.nid) → (∀ y ∈ db.rows, y.room = r → p < y.nid → ∃ x ∈ l, x.core = y.core) →
      walk cfg db r v l ∧ ((says cfg cfg.user l).getD v = true → ∀ q, p ≤ q → (∀ x ∈ l, x.nid ≤ q) → JoinedThen cfg db r q)
  | [], p, v, hv, _, _, _, _, hall => by
    refine ⟨trivial, fun h q hq _ => (hv (by simpa [says] using h)).on hq fun y hy hm hlt _ => ?_⟩
    obtain ⟨x, hx, _⟩ := hall y hy hm.1 hlt
    cases hx
  | x :: l, p, v, hv, hin, hr, hasc, hgt, hall => by
    obtain ⟨x', hx', hc⟩ := hin x (by simp)
    obtain ⟨c1, c2, c3, _⟩ := Store.core_eq hc
    rw [List.pairwise_cons] at hasc
    have hpx := hgt x (by simp)
    have honly : ∀ y ∈ db.rows, Member cfg r y → p < y.nid → y.nid ≤ x.nid → y.ev = x.ev := by
      intro y hy hm hlt hle
      obtain ⟨z, hz, hzc⟩ := hall y hy hm.1 hlt
      obtain ⟨z1, _, z3, _⟩ := Store.core_eq hzc
      rcases List.mem_cons.1 hz with rfl | hz
      · exact z3.symm
      · have := hasc.1 z hz; omega
    have hstep : (Dispatcher.saysEvent cfg.user (toEvent cfg x)).getD v = true → JoinedThen cfg db r x.nid := by
      intro hs
      rw [says_row] at hs
      by_cases hxk : x.ev.hasKey = true ∧ x.ev.key = ("m.room.member", cfg.user)
      · rw [if_pos hxk] at hs
        have hm : Member cfg r x' := by
          have h1 : x.ev.type = "m.room.member" := congrArg Prod.fst hxk.2
          have h2 : x.ev.stateKey = cfg.user := congrArg Prod.snd hxk.2
          exact ⟨by rw [c2]; exact hr x (by simp), by rw [c3]; exact h1, by rw [c3]; exact h2⟩
        cases hvd : verdict cfg x.ev.id with
        | some b =>
          rw [hvd] at hs
          simp only [Option.getD_some] at hs
          subst hs
          have hj : cfg.mem x.ev.id = "join" := by
            unfold verdict at hvd
            split at hvd
            · assumption
            · split at hvd <;> cases hvd
          exact ⟨x', hx', hm, by rw [c3]; exact hj, by omega, fun y _ _ h1 h2 => by omega⟩
        | none =>
          rw [hvd] at hs
          refine (hv hs).on (by omega) fun y hy hym hlt hle => ?_
          rw [honly y hy hym hlt hle]
          unfold verdict at hvd
          split at hvd
          · cases hvd
          · split at hvd
            · cases hvd
            · rename_i h; exact ⟨fun k => h (Or.inl k), fun k => h (Or.inr k)⟩
      · rw [if_neg hxk] at hs
        refine (hv hs).on (by omega) fun y hy hym hlt hle => ?_
        exfalso
        have he := honly y hy hym hlt hle
        apply hxk
        rw [← he]
        exact ⟨hk y hy hym.2.2, by simp [Ev.key, hym.2.1, hym.2.2]⟩
    obtain ⟨h1, h2⟩ := walk_rows hk l x.nid _ hstep (fun z hz => hin z (by simp [hz])) (fun z hz => hr z (by simp [hz])) hasc.2 hasc.1
      (fun y hy hyr hlt => by
        obtain ⟨z, hz, hzc⟩ := hall y hy hyr (by omega)
        rcases List.mem_cons.1 hz with rfl | hz
        · have := (Store.core_eq hzc).1; omega
        · exact ⟨z, hz, hzc⟩)
    refine ⟨⟨hstep, h1⟩, fun hs q hq hle => ?_⟩
    rw [says_cons] at hs
    exact h2 hs q (hle x (by simp)) fun z hz => hle z (by simp [hz])

/-! ## The messages -/

/-- As `walk`, for the messages up to one that makes the handler read the members anew. -/
def Good (cfg : Cfg) (db : DB) (r : String) : Bool → List Msg → Prop
  | _, [] => True
  | v, .acc room nids :: ms =>
    (room = r → ∀ rows, Store.selectByNIDs db nids = some rows → walk cfg db r v rows) ∧
      Good cfg db r ((sayMsg cfg db cfg.user r (.acc room nids)).getD v) ms
  | v, .init room snap :: ms => Good cfg db r ((sayMsg cfg db cfg.user r (.init room snap)).getD v) ms
  | v, .inval room :: ms => room = r ∨ Good cfg db r v ms

theorem good_idle {cfg : Cfg} {db : DB} {r : String} : ∀ (ms : List Msg) (v : Bool), (∀ nids, .acc r nids ∉ ms) → Good cfg db r v ms
  | [], _, _ => trivial
  | .acc room nids :: ms, v, h => by
    refine ⟨fun hr => ?_, good_idle ms _ fun n hn => h n (by simp [hn])⟩
    subst hr
    exact absurd (by simp) (h nids)
  | .init _ _ :: ms, v, h => good_idle ms _ fun n hn => h n (by simp [hn])
  | .inval _ :: ms, v, h => Or.inr (good_idle ms _ fun n hn => h n (by simp [hn]))

theorem good_grow {cfg : Cfg} {db db' : DB} (hI : Store.Inv db) (hI' : Store.Inv db') (hE : Store.Ext db db') (hg : Grown db db') {new : List Row}
    (he : db'.rows.map Row.core = db.rows.map Row.core ++ new.map Row.core) (hn : ∀ x ∈ new, db.seq < x.nid) {r : String} :
    ∀ (ms : List Msg) (v : Bool), (∀ m ∈ ms, Valid db m) → Good cfg db r v ms → Good cfg db' r v ms
  | [], _, _, _ => trivial
  | .acc room nids :: ms, v, hv, h => by
    have hs : sayMsg cfg db' cfg.user r (.acc room nids) = sayMsg cfg db cfg.user r (.acc room nids) :=
      say_stable hI hI' hE (hv _ (by simp)) (fun h => by cases h)
    refine ⟨fun hr rows' hsel => ?_, ?_⟩
    · have hva : ∀ n ∈ nids, n ≤ db.seq := hv _ (List.mem_cons_self)
      have hc := select_core he hn hva
      rw [hsel] at hc
      obtain ⟨rows, h1, h2⟩ := Option.map_eq_some_iff.1 hc.symm
      refine walk_grow hg rows rows' v h2 (fun x hx => ?_) (h.1 hr rows h1)
      unfold Store.selectByNIDs at h1
      simp only at h1
      split at h1
      · cases h1
      · simp only [Option.some.injEq] at h1
        rw [← h1] at hx
        have := (List.mem_filter.1 hx).2
        simp only [decide_eq_true_eq] at this
        exact hva _ this
    · rw [hs]
      exact good_grow hI hI' hE hg he hn ms _ (fun m hm => hv m (by simp [hm])) h.2
  | .init room snap :: ms, v, hv, h => by
    have hs : sayMsg cfg db' cfg.user r (.init room snap) = sayMsg cfg db cfg.user r (.init room snap) :=
      say_stable hI hI' hE (hv _ (by simp)) (fun h => by cases h)
    unfold Good
    rw [hs]
    exact good_grow hI hI' hE hg he hn ms _ (fun m hm => hv m (by simp [hm])) h
  | .inval room :: ms, v, hv, h => h.imp (fun k => k) (good_grow hI hI' hE hg he hn ms _ fun m hm => hv m (by simp [hm]))

/-- Whether the user will be taken as joined when the messages have been taken. -/
def after (cfg : Cfg) (db : DB) (r : String) (v : Bool) (ms : List Msg) : Bool := (ms.filterMap (sayMsg cfg db cfg.user r)).getLast?.getD v

theorem after_cons (cfg : Cfg) (db : DB) (r : String) (v : Bool) (m : Msg) (ms : List Msg) :
    after cfg db r v (m :: ms) = after cfg db r ((sayMsg cfg db cfg.user r m).getD v) ms := by
  unfold after
  rw [List.filterMap_cons]
  cases sayMsg cfg db cfg.user r m with
  | none => rfl
  | some b => cases hl : ms.filterMap (sayMsg cfg db cfg.user r) <;> simp [List.getLast?_cons]

theorem good_snoc {cfg : Cfg} {db : DB} {r : String} (m : Msg) : ∀ (ms : List Msg) (v : Bool), Good cfg db r v ms →
    (.inval r ∉ ms → Good cfg db r (after cfg db r v ms) [m]) → Good cfg db r v (ms ++ [m])
  | [], v, _, h => h (by simp)
  | .acc room nids :: ms, v, hg, h => by
    refine ⟨hg.1, good_snoc m ms _ hg.2 fun hn => ?_⟩
    rw [← after_cons]
    exact h (by simpa using hn)
  | .init room snap :: ms, v, hg, h => by
    refine good_snoc m ms ((sayMsg cfg db cfg.user r (.init room snap)).getD v) hg fun hn => ?_
    rw [← after_cons]
    exact h (by simpa using hn)
  | .inval room :: ms, v, hg, h => by
    by_cases hr : room = r
    · exact Or.inl hr
    · refine Or.inr (good_snoc m ms v (hg.resolve_left hr) fun hn => ?_)
      have := after_cons cfg db r v (.inval room) ms
      rw [show sayMsg cfg db cfg.user r (.inval room) = none by simp [sayMsg, hr]] at this
      rw [Option.getD_none] at this
      rw [← this]
      refine h ?_
      simp only [List.mem_cons, Msg.inval.injEq, not_or]
      exact ⟨fun e => hr e.symm, hn⟩

/-- What was stored since says no more of the messages than who is joined now. -/
theorem later_grow {cfg : Cfg} {db db' : DB} (hI : Store.Inv db) (hI' : Store.Inv db') (hE : Store.Ext db db') {r : String} (jrt : Tracker.State) (bus : List Msg)
    (hv : ∀ m ∈ bus, Valid db m) :
    (later cfg db' jrt bus cfg.user r = true → later cfg db jrt bus cfg.user r = true ∨ cfg.user ∈ membersWith cfg db' r (· == "join")) ∧
    (.inval r ∉ bus → later cfg db' jrt bus cfg.user r = later cfg db jrt bus cfg.user r) := by
  induction bus using Util.snocRec with
  | nil => exact ⟨fun h => Or.inl h, fun _ => rfl⟩
  | append_singleton bus m ih =>
    have ih := ih fun x hx => hv x (by simp [hx])
    rw [later_snoc, later_snoc]
    by_cases hm : m = .inval r
    · subst hm
      refine ⟨fun h => Or.inr ?_, fun h => absurd (by simp) h⟩
      simpa [sayMsg] using h
    · rw [say_stable hI hI' hE (hv m (by simp)) (fun h => absurd h hm)]
      cases sayMsg cfg db cfg.user r m with
      | some b => exact ⟨fun h => Or.inl h, fun _ => rfl⟩
      | none => exact ⟨ih.1, fun h => ih.2 fun h' => h (by simp [h'])⟩

end Verif.EndToEnd
