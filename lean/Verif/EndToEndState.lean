import Verif.EndToEndMembers
import Verif.StoreState
/-!
# C116: the state a client has of a room is the current one
-/
namespace Verif.EndToEnd
open Verif.Store (DB Row TI St Ev)

/-! ## Specification -/

/-- The event is (or was) the room's state under the key. -/
def Keyed (r : String) (k : Store.Key) (x : Row) : Prop :=
  x.room = r ∧ (x.isState = true ∨ x.ev.hasKey = true) ∧ x.ev.type = k.1 ∧ x.ev.stateKey = k.2

instance (r : String) (k : Store.Key) (x : Row) : Decidable (Keyed r k x) := by unfold Keyed; infer_instance

/-- The event stored last for the room under the key. -/
def lastState (db : DB) (r : String) (k : Store.Key) : Option Row := (db.rows.filter fun x => decide (Keyed r k x)).getLast?

/-- What a client takes as the state of a room under a key: the last state event with the key it was given since the room was loaded, in the order
given; or, if there is none, what the state it was given then has. -/
def clientState (db : DB) (live : List Nat) (base : List Row) (k : Store.Key) : List String :=
  match ((live.filterMap fun n => db.rows.find? fun x => decide (x.nid = n)).filter fun x => x.ev.hasKey && decide (x.ev.type = k.1 ∧ x.ev.stateKey = k.2)).getLast? with
  | some x => [x.ev.id]
  | none => (base.filter fun x => decide (x.ev.type = k.1 ∧ x.ev.stateKey = k.2)).map (·.ev.id)

/-- Events without a state key have an empty one in the table (`state/event_table.go`). -/
def NoKey (o : Store.Op) : Prop := ∀ e ∈ o.events, e.hasKey = false → e.stateKey = ""

/-! ## The state given with the room -/

theorem key_iff (x : Row) (k : Store.Key) : x.ev.key = k ↔ x.ev.type = k.1 ∧ x.ev.stateKey = k.2 := by
  cases k; simp [Ev.key]

theorem replay_last (rows : List Row) (r : String) (p : Nat → Bool) (k : Store.Key) :
    Store.replay rows r p k = (rows.filter fun x => p x.nid && decide (Keyed r k x)).getLast?.map (·.ev.id) := by
  unfold Store.replay
  rw [fold_last, List.filter_map, List.filter_filter, List.getLast?_map]
  have : (rows.filter fun a => ((fun e => decide (e.key = k)) ∘ fun x : Row => x.ev) a &&
      (decide (a.room = r) && p a.nid && (a.isState || a.ev.hasKey))) = rows.filter fun x => p x.nid && decide (Keyed r k x) := by
    apply List.filter_congr
    intro x _
    rw [Bool.eq_iff_iff]
    simp only [Function.comp, key_iff, Bool.and_eq_true, decide_eq_true_eq, Bool.or_eq_true]
    constructor
    · rintro ⟨a, ⟨b, c⟩, d⟩; exact ⟨c, b, d, a⟩
    · rintro ⟨c, b, d, a⟩; exact ⟨a, ⟨b, c⟩, d⟩
  rw [this]
  cases (rows.filter fun x => p x.nid && decide (Keyed r k x)).getLast? <;> rfl

theorem last_state (db : DB) (r : String) (k : Store.Key) : Store.replay db.rows r Store.always k = (lastState db r k).map (·.ev.id) := by
  rw [replay_last]
  simp only [Store.always, Bool.true_and]
  rfl

/-- The state `b` of the room holds what is stored up to `a`, under the keys without later events. -/
def BaseOk (db : DB) (r : String) (a : Nat) (b : List Row) : Prop :=
  ∀ k, (∀ x ∈ db.rows, Keyed r k x → x.nid ≤ a) → ∀ id, (∃ y ∈ b, y.ev.key = k ∧ y.ev.id = id) ↔ Store.replay db.rows r Store.always k = some id

theorem base_ok {ops : List Store.Op} (hok : ∀ o ∈ ops, Store.OkOp o) {room : String} {pos : Nat} {r : Row} (hr : Store.LastAt (Store.run ops) room pos r)
    (hcur : (Store.run ops).cur room ≠ 0) : BaseOk (Store.run ops) room pos (stateOf (Store.run ops) room pos) := by
  intro k hk
  by_cases hb0 : r.before = 0
  · have h := Store.run_spec ops hok
    have hH := (Store.C40_current ops hok room).1
    rw [show (fun _ => true) = Store.always from rfl] at hH
    unfold stateOf
    generalize Store.run ops = db at *
    have hI := h.inv
    obtain ⟨h1, h2, h3, h4⟩ := hr
    unfold Store.stateAfter
    rw [Store.latestEvent_spec h ⟨h1, h2, h3, h4⟩]
    simp only [hb0, if_true]
    obtain ⟨s, hs, hsi⟩ : ∃ s ∈ db.snaps, s.id = db.cur room := by
      have hc := h.cur room
      cases hsp : (Store.specRun ops).cur room with
      | none => rw [hsp] at hc; exact absurd hc hcur
      | some g => rw [hsp] at hc; obtain ⟨⟨s, hs, hsi, _⟩, _⟩ := hc; exact ⟨s, hs, hsi⟩
    rw [← hsi] at hH ⊢
    have hrows := Store.snap_rows hI hs hH
    simp only [Store.selectSnap_spec hI hs]
    have hr0 : r.replaces = 0 := by
      cases hst : r.isState with
      | true => exact (h.inits r h1 hst).2
      | false =>
        obtain ⟨o, _, _, hro⟩ := h.befs r h1 hst
        unfold Store.RepOk at hro
        split at hro
        · rcases hro with hro | ⟨id, hro⟩
          · exact hro.1
          · rw [hb0] at hro; exact absurd hro (Store.snap_zero hI _ _ _)
        · exact hro
    simp only [hr0, ne_eq, not_true, if_false]
    have hex : ∀ n ∈ s.nids, ∃ x ∈ db.rows, x.nid = n := fun n hn => (hI.exist s hs n hn).imp fun x hx => ⟨hx.1, hx.2.1⟩
    by_cases hin : r.ev.hasKey = true ∧ r.nid ∉ s.nids
    · simp only [hin.1, if_true, hin.2, if_false]
      have hn : (s.nids ++ [r.nid]).Nodup := List.nodup_append.2 ⟨hI.nodup s hs, by simp, fun a ha b hb hab => by
        simp only [List.mem_singleton] at hb; subst hb; subst hab; exact hin.2 ha⟩
      rw [Store.selectByNIDs_spec hI.asc hn (fun n hn => by
        rcases List.mem_append.1 hn with hn | hn
        · exact hex n hn
        · simp only [List.mem_singleton] at hn; exact ⟨r, h1, hn.symm⟩)]
      intro id
      rw [← hrows k id]
      simp only [Option.getD_some, List.mem_filter, decide_eq_true_eq, List.mem_append, List.mem_singleton, and_assoc]
      constructor
      · rintro ⟨y, hy, hn | hn, hyk, hyi⟩
        · exact ⟨y, hy, hn, hyk, hyi⟩
        · -- the last event at the position would be the last with its key
          exfalso
          have hyr : y = r := Store.row_unique hI.asc hy h1 hn
          subst hyr
          have hkd : Keyed room k y := ⟨h2, Or.inr hin.1, (key_iff y k).1 hyk⟩
          have hl : lastState db room k = some y := by
            unfold lastState
            have hmem : y ∈ db.rows.filter fun x => decide (Keyed room k x) := List.mem_filter.2 ⟨hy, by simpa using hkd⟩
            cases hgl : (db.rows.filter fun x => decide (Keyed room k x)).getLast? with
            | none => rw [List.getLast?_eq_none_iff] at hgl; rw [hgl] at hmem; cases hmem
            | some z =>
              have hz := List.mem_filter.1 (List.mem_of_getLast? hgl)
              have hz2 : Keyed room k z := by simpa using hz.2
              have hle := h4 z hz.1 hz2.1 (hk z hz.1 hz2)
              have hge : y.nid ≤ z.nid := by
                have hasc : ((db.rows.filter fun x => decide (Keyed room k x)).map (·.nid)).Pairwise (· < ·) := by
                  rw [List.pairwise_map]; exact hI.asc.filter _
                have := (ConnLoad.getLast_max _ hasc).1 y.nid (List.mem_map_of_mem hmem)
                rw [List.getLast?_map, hgl] at this
                exact this
              rw [Store.row_unique hI.asc hz.1 hy (by omega)]
          have := last_state db room k
          rw [hl] at this
          obtain ⟨x, hx, hxn, _, hxi⟩ := (hrows k y.ev.id).2 this
          rw [hI.id_unique hx hy hxi] at hxn
          exact hin.2 hxn
      · rintro ⟨y, hy, hn, hyk, hyi⟩
        exact ⟨y, hy, Or.inl hn, hyk, hyi⟩
    · have hn : (if r.ev.hasKey = true then if r.nid ∈ s.nids then s.nids else s.nids ++ [r.nid] else s.nids) = s.nids := by
        split
        · rename_i hk1
          rw [if_pos]
          exact Classical.byContradiction fun h => hin ⟨hk1, h⟩
        · rfl
      rw [hn]
      obtain ⟨l, e1, e2⟩ := Store.select_is hI (hI.nodup s hs) hex hrows
      rw [e1]
      exact e2.1 k
  · obtain ⟨l, h1, h2⟩ := Store.C41_state_partial ops hok hr (fun h => absurd h hb0) (Or.inl hb0)
    intro id
    rw [stateOf, h1, Option.getD_some, h2.1 k id, replay_last, replay_last]
    have : ((Store.run ops).rows.filter fun x => decide (x.nid ≤ pos) && decide (Keyed room k x)) = (Store.run ops).rows.filter fun x => Store.always x.nid && decide (Keyed room k x) := by
      apply List.filter_congr
      intro x hx
      by_cases hkd : Keyed room k x
      · simp [hk x hx hkd, Store.always]
      · simp [hkd]
    rw [this]

theorem BaseOk.grow {db db' : DB} {new : List Row} (he : db'.rows.map Row.core = db.rows.map Row.core ++ new.map Row.core) (hn : ∀ x ∈ new, db.seq < x.nid)
    {r : String} {a : Nat} (ha : a ≤ db.seq) {b : List Row} (h : BaseOk db r a b) : BaseOk db' r a b := by
  have hk1 : ∀ {x y : Row} {k : Store.Key}, x.core = y.core → Keyed r k x → Keyed r k y := fun hc hx => by
    obtain ⟨_, c2, c3, c4⟩ := Store.core_eq hc
    unfold Keyed at *
    rw [← c2, ← c3, ← c4]; exact hx
  intro k hk id
  have hold : ∀ x ∈ db.rows, Keyed r k x → x.nid ≤ a := fun x hx hkd => by
    obtain ⟨y, hy, hc⟩ := fwd he hx
    rw [← (Store.core_eq hc).1]
    exact hk y hy (hk1 hc.symm hkd)
  have hnew : ∀ x ∈ new, ¬ Keyed r k x := fun x hx hkd => by
    have : x.core ∈ db'.rows.map Row.core := by rw [he]; exact List.mem_append_right _ (List.mem_map_of_mem hx)
    obtain ⟨y, hy, hc⟩ := List.mem_map.1 this
    have h1 := hk y hy (hk1 hc.symm hkd)
    have h2 := (Store.core_eq hc).1
    have := hn x hx
    omega
  rw [h k hold id, Store.replay_core, Store.replay_core, he, Store.replayC_append, fold_last]
  have : (((new.map Row.core).filter fun c => decide (c.2.1 = r) && Store.always c.1 && (c.2.2.2 || c.2.2.1.hasKey)).map (·.2.2.1)).filter
      (fun e => decide (e.key = k)) = [] := by
    rw [List.filter_eq_nil_iff]
    intro e hee hke
    obtain ⟨c, hc, rfl⟩ := List.mem_map.1 hee
    obtain ⟨hc1, hc2⟩ := List.mem_filter.1 hc
    obtain ⟨x, hx, rfl⟩ := List.mem_map.1 hc1
    simp only [Row.core, Bool.and_eq_true, Bool.or_eq_true] at hc2 hke
    exact hnew x hx ⟨of_decide_eq_true hc2.1.1, hc2.2, (key_iff x k).1 (of_decide_eq_true hke)⟩
  rw [this]
  rfl

/-! ## The user's room has a state -/

theorem rows_event (ops : List Store.Op) : ∀ x ∈ (Store.run ops).rows, ∃ o ∈ ops, x.ev ∈ o.events := by
  induction ops using Util.snocRec with
  | nil => simp [Store.run]
  | append_singleton ops o ih =>
    rw [show Store.run (ops ++ [o]) = Store.step (Store.run ops) o by simp [Store.run]]
    obtain ⟨_, new, h1, _, _, h4⟩ := Store.step_table (Store.run_table ops) o
    intro x hx
    have hx' : x.core ∈ (Store.run ops).rows.map Row.core ++ new := h1 ▸ List.mem_map_of_mem hx
    rcases List.mem_append.1 hx' with hx' | hx'
    · obtain ⟨y, hy, hc⟩ := List.mem_map.1 hx'
      obtain ⟨o', ho', he⟩ := ih y hy
      exact ⟨o', List.mem_append_left _ ho', by rw [← (Store.core_eq hc).2.2.1]; exact he⟩
    · exact ⟨o, by simp, h4.subset (List.mem_map.2 ⟨_, hx', rfl⟩)⟩

theorem in_base {cfg : Cfg} (hu : cfg.user ≠ "") {ops : List Store.Op} (hok : ∀ o ∈ ops, Store.OkOp o) (hnk : ∀ o ∈ ops, NoKey o) {r : String} {d a : Nat}
    (hin : In cfg (Store.run ops) r d) (hd : d ≤ a) : BaseOk (Store.run ops) r a (stateOf (Store.run ops) r a) := by
  obtain ⟨e, he, hr, _, hle, _⟩ := hin.joined
  obtain ⟨x, hx, ht, hk, rfl⟩ := mem_mrows.1 he
  simp only at hr hle
  have hI := Store.run_table ops
  -- the last event up to the position
  obtain ⟨y, hy⟩ : ∃ y, Store.LastAt (Store.run ops) r a y := by
    have hmem : x ∈ (Store.run ops).rows.filter fun z => decide (z.room = r) && decide (z.nid ≤ a) :=
      List.mem_filter.2 ⟨hx, by simp only [Bool.and_eq_true, decide_eq_true_eq]; exact ⟨hr, by omega⟩⟩
    have hasc : (((Store.run ops).rows.filter fun z => decide (z.room = r) && decide (z.nid ≤ a)).map (·.nid)).Pairwise (· < ·) := by
      rw [List.pairwise_map]; exact hI.asc.filter _
    have hmax := (ConnLoad.getLast_max _ hasc).1
    rw [List.getLast?_map] at hmax
    cases hg : ((Store.run ops).rows.filter fun z => decide (z.room = r) && decide (z.nid ≤ a)).getLast? with
    | none => rw [List.getLast?_eq_none_iff] at hg; rw [hg] at hmem; cases hmem
    | some y =>
      have hy := List.mem_filter.1 (List.mem_of_getLast? hg)
      simp only [Bool.and_eq_true, decide_eq_true_eq] at hy
      refine ⟨y, hy.1, hy.2.1, hy.2.2, fun q hq hqr hqa => ?_⟩
      rw [hg] at hmax
      exact hmax q.nid (List.mem_map_of_mem (List.mem_filter.2 ⟨hq, by simp only [Bool.and_eq_true, decide_eq_true_eq]; exact ⟨hqr, hqa⟩⟩))
  apply base_ok hok hy
  -- the member event is part of the state
  obtain ⟨o, ho, heo⟩ := rows_event ops x hx
  have hkey : x.ev.hasKey = true := by
    cases h : x.ev.hasKey with
    | true => rfl
    | false => exact absurd (hk.symm.trans (hnk o ho _ heo h)) hu
  have hkd : Keyed r ("m.room.member", cfg.user) x := ⟨hr, Or.inr hkey, ht, hk⟩
  intro h0
  have hR := Store.run_spec ops hok
  have hz := ((hR.cur r).zero hR.inv).1 h0
  have hc := (Store.run_hist ops hok).cur r
  rw [hz] at hc
  have hl := last_state (Store.run ops) r ("m.room.member", cfg.user)
  rw [← hc] at hl
  cases hls : lastState (Store.run ops) r ("m.room.member", cfg.user) with
  | none =>
    unfold lastState at hls
    rw [List.getLast?_eq_none_iff] at hls
    have : x ∈ (Store.run ops).rows.filter fun x => decide (Keyed r ("m.room.member", cfg.user) x) := List.mem_filter.2 ⟨hx, by simpa using hkd⟩
    rw [hls] at this; cases this
  | some z => rw [hls] at hl; simp [St.none] at hl

/-! ## The invariant -/

structure SI (db : DB) (r : String) (d : Nat) (c : Conn) : Prop where
  fresh : c.anchor = 0 → c.base r = none
  state : c.anchor ≠ 0 → ∀ x ∈ db.rows, x.room = r → x.isState = true → x.nid ≤ c.anchor
  base : ∀ b, c.base r = some b → ∃ a l0, d ≤ a ∧ a ≤ db.seq ∧ (∀ x ∈ db.rows, x.room = r → x.isState = true → x.nid ≤ a) ∧ BaseOk db r a b ∧
    c.view r = some (l0 ++ c.live r) ∧ (∀ x ∈ l0, x ≤ a) ∧ (∀ x ∈ c.live r, a < x) ∧
    (l0 ++ c.live r ≠ [] → ∀ e ∈ posOf db r, (∀ x ∈ l0 ++ c.live r, e < x) → e ≤ a) ∧
    ∀ e ∈ posOf db r, d < e → e ≤ a → e ≤ c.lp r

theorem loads_base (cfg : Cfg) (db : DB) (r : String) (xs : List (String × Nat)) : ∀ c : Conn,
    (loads cfg db c xs).anchor = c.anchor ∧
    ((xs.any (·.1 = r) = false ∧ (loads cfg db c xs).base r = c.base r ∧ (loads cfg db c xs).live r = c.live r) ∨
     (xs.any (·.1 = r) = true ∧ (loads cfg db c xs).base r = some (stateOf db r c.anchor) ∧ (loads cfg db c xs).live r = [])) := by
  induction xs with
  | nil => intro c; exact ⟨rfl, Or.inl ⟨rfl, rfl, rfl⟩⟩
  | cons x xs ih =>
    intro c
    have h1 : (load1 cfg db c x).anchor = c.anchor ∧
        ((x.1 ≠ r ∧ (load1 cfg db c x).base r = c.base r ∧ (load1 cfg db c x).live r = c.live r) ∨
         (x.1 = r ∧ (load1 cfg db c x).base r = some (stateOf db r c.anchor) ∧ (load1 cfg db c x).live r = [])) := by
      unfold load1
      by_cases hr : x.1 = r
      · split
        · exact ⟨rfl, Or.inr ⟨hr, by simp [set, hr], by simp [set, hr]⟩⟩
        · exact ⟨rfl, Or.inr ⟨hr, by simp [set, hr], by simp [set, hr]⟩⟩
      · have hr' : r ≠ x.1 := fun h => hr h.symm
        split
        · exact ⟨rfl, Or.inl ⟨hr, by simp [set, hr'], by simp [set, hr']⟩⟩
        · exact ⟨rfl, Or.inl ⟨hr, by simp [set, hr'], by simp [set, hr']⟩⟩
    obtain ⟨k1, k2⟩ := ih (load1 cfg db c x)
    rw [show loads cfg db c (x :: xs) = loads cfg db (load1 cfg db c x) xs from rfl]
    refine ⟨k1.trans h1.1, ?_⟩
    rw [h1.1] at k2
    rcases k2 with ⟨k2, k3, k4⟩ | ⟨k2, k3, k4⟩
    · rcases h1.2 with ⟨h2, h3, h4⟩ | ⟨h2, h3, h4⟩
      · exact Or.inl ⟨by simp [h2, k2], k3.trans h3, k4.trans h4⟩
      · exact Or.inr ⟨by simp [h2], k3.trans h3, k4.trans h4⟩
    · exact Or.inr ⟨by simp [k2], k3, k4⟩

/-- A room just loaded. -/
theorem si_loaded {db : DB} {r : String} {d : Nat} {c : Conn} {l : List Nat} (ha : c.anchor ≠ 0) (hseq : c.anchor ≤ db.seq) (hd : d ≤ c.anchor)
    (hst : ∀ x ∈ db.rows, x.room = r → x.isState = true → x.nid ≤ c.anchor) (hb : BaseOk db r c.anchor (stateOf db r c.anchor))
    (h1 : c.base r = some (stateOf db r c.anchor)) (h2 : c.live r = []) (h3 : c.view r = some l) (h4 : Loaded (posOf db r) d c.anchor (c.lp r) l) :
    SI db r d c := by
  refine ⟨fun h => absurd h ha, fun _ => hst, fun b hbe => ?_⟩
  rw [h1] at hbe
  cases hbe
  have hl : ∀ x ∈ l, x ≤ c.anchor := fun x hx => by
    have := (List.mem_filter.1 (h4.suffix.subset hx)).2
    have := h4.le
    simp only [decide_eq_true_eq] at *
    omega
  refine ⟨c.anchor, l, hd, hseq, hst, hb, by rw [h2, List.append_nil]; exact h3, hl, by rw [h2]; simp, fun h0 e he hall => ?_, h4.all⟩
  rw [h2, List.append_nil] at h0 hall
  cases l with
  | nil => exact absurd rfl h0
  | cons x l =>
    have := hall x (by simp)
    have := hl x (by simp)
    omega

theorem SI.grow {db db' : DB} {new : List Row} (he : db'.rows.map Row.core = db.rows.map Row.core ++ new.map Row.core) (hn : ∀ x ∈ new, db.seq < x.nid)
    (hs : db.seq ≤ db'.seq) {r : String} (hnew : ∀ x ∈ new, x.room = r → x.isState = false) {d : Nat} {c : Conn}
    (hview : ∀ l, c.view r = some l → ∀ x ∈ l, x ≤ db.seq) (h : SI db r d c) : SI db' r d c := by
  have hrow : ∀ x ∈ db'.rows, (∃ y ∈ db.rows, y.core = x.core) ∨ ∃ y ∈ new, y.core = x.core := fun x hx => by
    have : x.core ∈ db.rows.map Row.core ++ new.map Row.core := by rw [← he]; exact List.mem_map_of_mem hx
    rcases List.mem_append.1 this with h | h
    · exact Or.inl (List.mem_map.1 h)
    · exact Or.inr (List.mem_map.1 h)
  have hstate : ∀ a, (∀ x ∈ db.rows, x.room = r → x.isState = true → x.nid ≤ a) → ∀ x ∈ db'.rows, x.room = r → x.isState = true → x.nid ≤ a := by
    intro a h x hx hxr hxs
    rcases hrow x hx with ⟨y, hy, hc⟩ | ⟨y, hy, hc⟩
    · obtain ⟨c1, c2, _, c4⟩ := Store.core_eq hc
      rw [← c1]; exact h y hy (c2.trans hxr) (c4.trans hxs)
    · obtain ⟨_, c2, _, c4⟩ := Store.core_eq hc
      have := hnew y hy (c2.trans hxr)
      rw [c4, hxs] at this; cases this
  have hpos : ∀ e ∈ posOf db' r, e ∈ posOf db r ∨ db.seq < e := by
    intro e hep
    obtain ⟨x, hx, hxr, hxs, rfl⟩ := mem_posOf.1 hep
    rcases hrow x hx with ⟨y, hy, hc⟩ | ⟨y, hy, hc⟩
    · obtain ⟨c1, c2, _, c4⟩ := Store.core_eq hc
      left; rw [← c1]; exact mem_posOf.2 ⟨y, hy, c2.trans hxr, c4.trans hxs, rfl⟩
    · right; rw [← (Store.core_eq hc).1]; exact hn y hy
  refine ⟨h.fresh, fun h0 => hstate _ (h.state h0), fun b hb => ?_⟩
  obtain ⟨a, l0, h1, h2, h3, h4, h5, h6, h7, h8, h9⟩ := h.base b hb
  refine ⟨a, l0, h1, by omega, hstate a h3, h4.grow he hn h2, h5, h6, h7, fun h0 e hep hall => ?_, fun e hep hd hle => ?_⟩
  · rcases hpos e hep with hp | hp
    · exact h8 h0 e hp hall
    · exfalso
      cases hl : l0 ++ c.live r with
      | nil => exact h0 hl
      | cons x l =>
        have := hall x (by rw [hl]; simp)
        have := hview _ h5 x (by rw [hl]; simp)
        omega
  · rcases hpos e hep with hp | hp
    · exact h9 e hp hd hle
    · omega

theorem poll_rows {ops : List Store.Op} (hok : ∀ o ∈ ops, Store.OkOp o) {o : Store.Op} (hoo : Store.OkOp o) {r : String} (ho : OkOp r (.poll o)) :
    (Store.run ops).seq ≤ (Store.step (Store.run ops) o).seq ∧ ∃ new : List Row,
      (Store.step (Store.run ops) o).rows.map Row.core = (Store.run ops).rows.map Row.core ++ new.map Row.core ∧
      (∀ x ∈ new, (Store.run ops).seq < x.nid) ∧ ∀ x ∈ new, x.room = r → x.isState = false := by
  obtain ⟨_, hs, new, h1, h2, _⟩ := poll_new (Store.run_table ops) o
  refine ⟨hs, new, h1, h2, ?_⟩
  have hR := Store.run_spec ops hok
  obtain ⟨new', h3, h4⟩ : ∃ new' : List Row, (Store.step (Store.run ops) o).rows.map Row.core = (Store.run ops).rows.map Row.core ++ new'.map Row.core ∧
      ∀ x ∈ new', x.room = r → x.isState = false := by
    cases o with
    | acc room skip limited timeline =>
      obtain ⟨db', post, k1, _, _, k4, k5, _⟩ := Store.accumulate_spec hR room skip limited timeline hoo
      exact ⟨post, by simp only [Store.step, k1]; exact k4, fun x hx _ => (k5 x hx).2⟩
    | init room skip block =>
      obtain ⟨_, _, new', k1, k2, _⟩ := Store.initialise_spec hR room skip block hoo
      exact ⟨new', k1, fun x hx hxr => absurd ((k2 x hx).1.symm.trans hxr) ho⟩
  have he : new.map Row.core = new'.map Row.core := List.append_cancel_left (h1.symm.trans h3)
  intro x hx hxr
  have : x.core ∈ new'.map Row.core := by rw [← he]; exact List.mem_map_of_mem hx
  obtain ⟨y, hy, hc⟩ := List.mem_map.1 this
  obtain ⟨_, c2, _, c4⟩ := Store.core_eq hc
  rw [← c4]
  exact h4 y hy (c2.trans hxr)

theorem view_le {db : DB} {r : String} {d h : Nat} {c : Conn} (hc : COk db r d h c) : ∀ l, c.view r = some l → ∀ x ∈ l, x ≤ db.seq := by
  intro l hl x hx
  rcases hc with hf | ⟨q, A, hc⟩
  · rw [hf.view] at hl; cases hl
  · have h1 := (List.mem_filter.1 ((hc.ri.suffix l hl).subset hx)).2
    simp only [decide_eq_true_eq] at h1
    have := hc.lpA r
    have := hc.anchor
    omega

/-- The rooms of a request or an update are loaded. -/
theorem loads_si {cfg : Cfg} {db : DB} (hI : TI db) {r : String} {d : Nat} (hin : In cfg db r d)
    (hb : ∀ a, d ≤ a → BaseOk db r a (stateOf db r a)) {c : Conn} (h : SI db r d c) (hd : d ≤ c.anchor) (ha : c.anchor ≠ 0) (hseq : c.anchor ≤ db.seq)
    (hlp : ∀ ρ, c.lp ρ ≤ c.anchor) (xs : List (String × Nat)) (hx : ∀ x ∈ xs, 1 ≤ x.2) :
    SI db r d (loads cfg db c xs) := by
  obtain ⟨b1, _, _, b4⟩ := loads_spec hI hin xs hd hx hlp
  obtain ⟨_, k2⟩ := loads_base cfg db r xs c
  generalize loads cfg db c xs = c1 at *
  rcases k2 with ⟨k2, k3, k4⟩ | ⟨k2, k3, k4⟩
  · rcases b4 with ⟨_, e1, e2⟩ | ⟨e0, _⟩
    · refine ⟨fun h0 => absurd (b1.symm.trans h0) ha, fun _ => by rw [b1]; exact h.state ha, fun b hb => ?_⟩
      rw [e1, e2, k4]
      exact h.base b (k3.symm.trans hb)
    · rw [k2] at e0; cases e0
  · rcases b4 with ⟨e0, _⟩ | ⟨_, l, e1, e2⟩
    · rw [k2] at e0; cases e0
    · refine si_loaded (l := l) (by rw [b1]; exact ha) (by rw [b1]; exact hseq) (by rw [b1]; exact hd) (by rw [b1]; exact h.state ha)
        (by rw [b1]; exact hb _ hd) (by rw [b1]; exact k3) k4 e1 (by rw [b1]; exact e2)

theorem take_si {cfg : Cfg} {db : DB} (hI : TI db) {r : String} {d h : Nat} (hin : In cfg db r d) (hh : h ≤ db.seq) {c : Conn} (hc : COk db r d h c)
    (hb : ∀ a, d ≤ a → BaseOk db r a (stateOf db r a)) (hs : SI db r d c) (vis : Bool) (xs : List (String × Nat)) (hx : ∀ x ∈ xs, 1 ≤ x.2) :
    SI db r d (take cfg db c vis xs) := by
  rcases hc with hf | ⟨q, A, hc⟩
  · unfold take
    rw [if_pos hf.anchor]
    exact hs
  · unfold take
    rw [if_neg (by have := hc.anchor; omega)]
    cases hq : c.queue with
    | nil => exact hs
    | cons u queue =>
      have hqi := hc.queue
      rw [hq] at hqi
      obtain ⟨t1, t2, t3, t4, t5, t6, t7⟩ := hqi.tail
      obtain ⟨⟨hd, _⟩, _, ⟨ha1, ha2, ha3, ha4, ha5⟩, hlpA, hri⟩ := hc
      simp only
      unfold deliver
      by_cases hskip : 0 < c.lp u.room ∧ u.nid < c.lp u.room
      · rw [if_pos hskip]
        exact ⟨hs.fresh, hs.state, hs.base⟩
      · rw [if_neg hskip]
        have hmax : c.anchor ≤ max c.anchor u.nid ∧ u.nid ≤ max c.anchor u.nid ∧ max c.anchor u.nid ≤ db.seq ∧
            (max c.anchor u.nid = u.nid ∨ (max c.anchor u.nid = A)) := by
          rcases Nat.le_total c.anchor u.nid with h' | h'
          · rw [Nat.max_eq_right h']; omega
          · rw [Nat.max_eq_left h']; omega
        obtain ⟨m1, m2, m3, m4⟩ := hmax
        have hlp' : ∀ ρ, ({ c with queue := queue, anchor := max c.anchor u.nid } : Conn).lp ρ ≤ max c.anchor u.nid := by
          intro ρ; have := hlpA ρ; simp only; omega
        have hs0 : SI db r d { c with queue := queue, anchor := max c.anchor u.nid } := by
          refine ⟨fun h0 => ?_, fun _ x hx hxr hxs => ?_, hs.base⟩
          · simp only at h0; omega
          · have := hs.state (by omega) x hx hxr hxs
            simp only; omega
        have hs1 := loads_si hI hin hb hs0 (by simp only; omega) (by simp only; omega) (by simp only; omega) hlp' xs hx
        obtain ⟨b1, b2, b3, b4⟩ := loads_spec hI hin xs (c := { c with queue := queue, anchor := max c.anchor u.nid }) (by simp only; omega) hx hlp'
        simp only at b1 b2 b3 b4
        have k2 := (loads_base cfg db r xs { c with queue := queue, anchor := max c.anchor u.nid }).2
        simp only at k2
        generalize loads cfg db { c with queue := queue, anchor := max c.anchor u.nid } xs = c1 at b1 b2 b3 b4 hs1 k2
        generalize max c.anchor u.nid = a at *
        have hri1 : RI (posOf db r) d q A (c1.lp r) (c1.view r) := by
          rcases b4 with ⟨_, k2, k3⟩ | ⟨_, l, k2, k3⟩
          · rw [k2, k3]; exact hri
          · rw [k2]; exact RI.load k3 hd (by omega) (by omega)
        cases vis with
        | true =>
          simp only [if_true]
          by_cases hr : u.room = r
          · have hle : c1.lp r ≤ u.nid := by
              have hold : c.lp r ≤ u.nid := by rw [← hr]; omega
              rcases b4 with ⟨_, k2, _⟩ | ⟨_, l, _, k3⟩
              · rw [k2]; exact hold
              · rcases m4 with m4 | m4
                · have := k3.le; omega
                · rcases k3.mem with h0 | h0
                  · omega
                  · apply Classical.byContradiction
                    intro hlt
                    have := hri.known _ h0 (by omega) (by have := k3.le; omega)
                    omega
            refine ⟨hs1.fresh, hs1.state, fun b hbe => ?_⟩
            obtain ⟨a0, l0, p1, p2, p3, p4, p5, p6, p7, p8, p9⟩ := hs1.base b hbe
            have hlp : (append c1 u).lp r = u.nid := by simp [append, set, hr]
            by_cases hn : u.nid ≤ c1.lp r
            · have hv : (append c1 u).view r = c1.view r := by simp [append, hr, hn]
              have hl : (append c1 u).live r = c1.live r := by simp [append, hr, hn]
              refine ⟨a0, l0, p1, p2, p3, p4, ?_, p6, by rw [hl]; exact p7, by rw [hl]; exact p8, fun e he h1 h2 => ?_⟩
              · rw [hv, hl]; exact p5
              · have := p9 e he h1 h2; rw [hlp]; omega
            · have hv : (append c1 u).view r = some (l0 ++ (c1.live r ++ [u.nid])) := by
                simp [append, set, hr, hn, p5, t4]
              have hl : (append c1 u).live r = c1.live r ++ [u.nid] := by simp [append, set, hr, hn, t4]
              have hgt : a0 < u.nid := by
                apply Classical.byContradiction
                intro h0
                have := p9 u.nid (t5 hr) (by omega) (by omega)
                omega
              refine ⟨a0, l0, p1, p2, p3, p4, by rw [hv, hl], p6, ?_, ?_, fun e he h1 h2 => ?_⟩
              · rw [hl]
                intro x hx
                rcases List.mem_append.1 hx with hx | hx
                · exact p7 x hx
                · rw [List.mem_singleton.1 hx]; exact hgt
              · rw [hl]
                intro _ e he hall
                by_cases h0 : l0 ++ c1.live r = []
                · rw [h0] at p5
                  have h1 := (hri1.empty p5).2 e he
                  have h2 := t6 e he (hall u.nid (by simp))
                  omega
                · refine p8 h0 e he fun x hx => hall x ?_
                  rw [← List.append_assoc]
                  exact List.mem_append_left _ hx
              · have := p9 e he h1 h2; rw [hlp]; omega
          · have hr' : r ≠ u.room := fun h => hr h.symm
            have hv : (append c1 u).view r = c1.view r := by
              simp only [append]; split
              · rfl
              · simp [set, hr']
            have hl : (append c1 u).live r = c1.live r := by
              simp only [append]; split
              · rfl
              · simp [set, hr']
            have hlp : (append c1 u).lp r = c1.lp r := by simp [append, set, hr']
            refine ⟨hs1.fresh, hs1.state, fun b hbe => ?_⟩
            rw [hv, hl, hlp]
            exact hs1.base b hbe
        | false =>
          simp only [Bool.false_eq_true, if_false]
          by_cases hany : xs.any (·.1 = u.room) = true
          · rw [if_pos hany]; exact hs1
          · rw [if_neg hany]
            by_cases hr : u.room = r
            · refine ⟨fun _ => by simp [set, hr], hs1.state, fun b hbe => ?_⟩
              simp [set, hr] at hbe
            · have hr' : r ≠ u.room := fun h => hr h.symm
              refine ⟨fun h0 => by simp only [set, hr', if_false]; exact hs1.fresh h0, hs1.state, fun b hbe => ?_⟩
              simp only [set, hr', if_false] at hbe ⊢
              exact hs1.base b hbe

theorem request_si {cfg : Cfg} {ops : List Store.Op} (hok : ∀ o ∈ ops, Store.OkOp o) {r : String} {d h : Nat} (hin : In cfg (Store.run ops) r d)
    (hd : d ≤ h) (hh : h = 0 ∨ ∃ x ∈ (Store.run ops).rows, x.nid = h) {c : Conn} (hc : COk (Store.run ops) r d h c)
    (hb : ∀ a, d ≤ a → BaseOk (Store.run ops) r a (stateOf (Store.run ops) r a)) (hs : SI (Store.run ops) r d c)
    (xs : List (String × Nat)) (hx : ∀ x ∈ xs, 1 ≤ x.2) : SI (Store.run ops) r d (request cfg (Store.run ops) c xs) := by
  obtain ⟨⟨q, A, h1⟩, h2⟩ : (∃ q A, CI (Store.run ops) r d h q A (if c.anchor = 0 then load cfg (Store.run ops) c else c)) ∧
      SI (Store.run ops) r d (if c.anchor = 0 then load cfg (Store.run ops) c else c) := by
    rcases hc with hf | ⟨q, A, hc⟩
    · rw [if_pos hf.anchor]
      refine ⟨⟨_, _, load_ok hok hin hd hh hf⟩, fun _ => hs.fresh hf.anchor, fun _ x hx _ _ => Store.highest_ge _ x hx, fun b hbe => ?_⟩
      have h0 : (load cfg (Store.run ops) c).base r = none := hs.fresh hf.anchor
      rw [h0] at hbe; cases hbe
    · rw [if_neg (by have := hc.anchor; omega)]; exact ⟨⟨q, A, hc⟩, hs⟩
  unfold request
  obtain ⟨⟨k1, k2⟩, _, k4, k5, _⟩ := h1
  exact loads_si (Store.run_table ops) hin hb h2 (by omega) (by omega) (by omega) k5 xs hx

/-! ## Messages change only the queue -/

theorem SI.queue {db : DB} {r : String} {d : Nat} {c : Conn} (h : SI db r d c) (q : List Upd) : SI db r d { c with queue := q } :=
  ⟨h.fresh, h.state, h.base⟩

theorem fold_conn {cfg : Cfg} {room : String} (xs : List (Row × Nat)) : ∀ {s : State} {c' : Conn},
    (xs.foldl (dispatch cfg room) s).conn = some c' → ∃ c q, s.conn = some c ∧ c' = { c with queue := q } := by
  induction xs with
  | nil => intro s c' h; exact ⟨c', c'.queue, h, rfl⟩
  | cons x xs ih =>
    intro s c' h
    obtain ⟨c1, q1, h1, rfl⟩ := ih h
    simp only [dispatch, Option.map_eq_some_iff] at h1
    obtain ⟨c, hc, rfl⟩ := h1
    exact ⟨c, q1, hc, rfl⟩

theorem handle_conn {cfg : Cfg} {s : State} {m : Msg} {c' : Conn} (h : (handle cfg s m).conn = some c') :
    ∃ c q, s.conn = some c ∧ c' = { c with queue := q } := by
  cases m with
  | acc room nids =>
    simp only [handle] at h
    split at h
    · exact ⟨c', c'.queue, h, rfl⟩
    · exact fold_conn _ h
  | init room snap =>
    simp only [handle] at h
    split at h
    · exact ⟨c', c'.queue, h, rfl⟩
    · simp only [Option.map_eq_some_iff] at h
      obtain ⟨c, hc, rfl⟩ := h
      exact ⟨c, _, hc, rfl⟩
  | inval room =>
    simp only [handle] at h
    split at h
    · cases h
    · exact ⟨c', c'.queue, h, rfl⟩

theorem main_si {cfg : Cfg} (hu : cfg.user ≠ Dispatcher.allUsers) (hu0 : cfg.user ≠ "") {pre : List Op} {r : String}
    (hbus : ∀ m ∈ (run cfg {} pre).bus, ¬ resets r m) (hj : cfg.user ∈ (run cfg {} pre).disp.jrt.joinedUsers r) (post : List Op) :
    (∀ o ∈ polls (pre ++ .open :: post), Store.OkOp o) → (∀ o ∈ polls (pre ++ .open :: post), NoKey o) → (∀ o ∈ post, OkOp r o) →
    In cfg (run cfg {} (pre ++ .open :: post)).db r (run cfg {} pre).handed →
    ∀ c, (run cfg {} (pre ++ .open :: post)).conn = some c →
      SI (run cfg {} (pre ++ .open :: post)).db r (run cfg {} pre).handed c := by
  induction post using Util.snocRec with
  | nil =>
    intro _ _ _ _ c hc
    rw [show run cfg {} (pre ++ [Op.open]) = step cfg (run cfg {} pre) .open by simp [run]] at hc ⊢
    simp only [step, Option.some.injEq] at hc
    subst hc
    exact ⟨fun _ => rfl, fun h => absurd rfl h, nofun⟩
  | append_singleton post o ih =>
    intro hok hnk hpost hin c' hc'
    have hR := reach cfg (pre ++ .open :: post)
    have he : pre ++ .open :: (post ++ [o]) = (pre ++ .open :: post) ++ [o] := by simp
    rw [he] at hok hnk hin hc' ⊢
    have hrun : run cfg {} ((pre ++ .open :: post) ++ [o]) = step cfg (run cfg {} (pre ++ .open :: post)) o := by simp [run]
    rw [hrun] at hin hc' ⊢
    have hok' : ∀ o ∈ polls (pre ++ .open :: post), Store.OkOp o := fun x hx => hok x (by rw [polls_append]; exact List.mem_append_left _ hx)
    have hnk' : ∀ o ∈ polls (pre ++ .open :: post), NoKey o := fun x hx => hnk x (by rw [polls_append]; exact List.mem_append_left _ hx)
    have hpost' : ∀ o ∈ post, OkOp r o := fun x hx => hpost x (List.mem_append_left _ hx)
    have hm := main hu hbus hj post hok' hpost'
    have ih := ih hok' hnk' hpost'
    have ho := hpost o (by simp)
    have hds : (run cfg {} pre).handed ≤ (run cfg {} (pre ++ .open :: post)).db.seq :=
      Nat.le_trans ((reach cfg pre).base.bus.le_seq (reach cfg pre).base.ti) (seq_mono cfg pre _)
    generalize run cfg {} (pre ++ .open :: post) = s at ih hR hin hds hm hc'
    generalize (run cfg {} pre).handed = d at ih hin hds hm
    have hhs := hR.base.bus.le_seq hR.base.ti
    cases o with
    | poll o =>
      have hoo : Store.OkOp o := hok o (by rw [polls_append]; exact List.mem_append_right _ (by simp [polls]))
      obtain ⟨_, _, new, k1, k2, _⟩ := poll_new hR.base.ti o
      have hin' : In cfg s.db r d := In.back k1 k2 hds hin
      obtain ⟨_, _, e3⟩ := (hm hin').1.2 c' hc'
      have hsi := ih hin' c' hc'
      simp only [step]
      have hv := view_le e3
      rw [hR.db] at hsi hv ⊢
      obtain ⟨g1, new, g2, g3, g4⟩ := poll_rows hok' hoo ho
      exact hsi.grow g2 g3 g1 g4 hv
    | recv =>
      cases hb : s.bus with
      | nil =>
        have hstep : step cfg s .recv = s := by simp only [step, hb]
        rw [hstep] at hin hc' ⊢
        exact ih hin c' hc'
      | cons m rest =>
        have hstep : step cfg s .recv = handle cfg { s with bus := rest } m := by simp only [step, hb]
        rw [hstep] at hin hc' ⊢
        have hB : Base { s with bus := rest } (pend (m :: rest)) := by rw [← hb]; exact ⟨hR.base.ti, hR.base.bus, hR.base.jrt⟩
        obtain ⟨_, h2, _⟩ := handle_base (cfg := cfg) hB
        rw [h2] at hin ⊢
        obtain ⟨c, q, hc, rfl⟩ := handle_conn hc'
        exact (ih hin c hc).queue q
    | «open» => exact ho.elim
    | restart => exact ho.elim
    | request xs =>
      simp only [step, Option.map_eq_some_iff] at hc'
      obtain ⟨c, hc, rfl⟩ := hc'
      have hin : In cfg s.db r d := hin
      obtain ⟨h1, _⟩ := hm hin
      obtain ⟨_, _, e3⟩ := h1.2 c hc
      have hsi := ih hin c hc
      have hh := hR.base.bus.handed
      simp only [step]
      rw [hR.db] at hin e3 hh hsi ⊢
      exact request_si hok' hin h1.1 hh e3 (fun a ha => in_base hu0 hok' hnk' hin ha) hsi xs ho
    | take vis xs =>
      simp only [step, Option.map_eq_some_iff] at hc'
      obtain ⟨c, hc, rfl⟩ := hc'
      have hin : In cfg s.db r d := hin
      obtain ⟨h1, _⟩ := hm hin
      obtain ⟨_, _, e3⟩ := h1.2 c hc
      have hsi := ih hin c hc
      have hb : ∀ a, d ≤ a → BaseOk s.db r a (stateOf s.db r a) := by
        rw [hR.db] at hin ⊢
        exact fun a ha => in_base hu0 hok' hnk' hin ha
      exact take_si hR.base.ti hin hhs e3 hb hsi vis xs ho

/-! ## The property -/

theorem last_max {db : DB} (hI : TI db) {r : String} {k : Store.Key} {x : Row} (h : lastState db r k = some x) :
    x ∈ db.rows ∧ Keyed r k x ∧ ∀ y ∈ db.rows, Keyed r k y → y.nid ≤ x.nid := by
  unfold lastState at h
  obtain ⟨h1, h2⟩ := List.mem_filter.1 (List.mem_of_getLast? h)
  refine ⟨h1, of_decide_eq_true h2, fun y hy hk => ?_⟩
  have hasc : ((db.rows.filter fun x => decide (Keyed r k x)).map (·.nid)).Pairwise (· < ·) := by rw [List.pairwise_map]; exact hI.asc.filter _
  have hmax := (ConnLoad.getLast_max _ hasc).1 y.nid (List.mem_map_of_mem (List.mem_filter.2 ⟨hy, decide_eq_true hk⟩))
  rw [List.getLast?_map, h] at hmax
  exact hmax

theorem last_none {db : DB} {r : String} {k : Store.Key} (h : lastState db r k = none) : ∀ x ∈ db.rows, ¬ Keyed r k x := by
  intro x hx hk
  unfold lastState at h
  rw [List.getLast?_eq_none_iff] at h
  have : x ∈ db.rows.filter fun x => decide (Keyed r k x) := List.mem_filter.2 ⟨hx, decide_eq_true hk⟩
  rw [h] at this; cases this

/-- The state events given since the room was loaded. -/
theorem mem_live {db : DB} {r : String} {live : List Nat} (hl : ∀ n ∈ live, n ∈ posOf db r) {k : Store.Key} {x : Row}
    (h : x ∈ (live.filterMap fun n => db.rows.find? fun x => decide (x.nid = n)).filter
      fun x => x.ev.hasKey && decide (x.ev.type = k.1 ∧ x.ev.stateKey = k.2)) (hI : TI db) :
    x ∈ db.rows ∧ x.nid ∈ live ∧ Keyed r k x := by
  obtain ⟨h1, h2⟩ := List.mem_filter.1 h
  obtain ⟨n, hn, hf⟩ := List.mem_filterMap.1 h1
  have hx := List.mem_of_find?_eq_some hf
  have he := List.find?_some hf
  simp only [decide_eq_true_eq] at he
  simp only [Bool.and_eq_true, decide_eq_true_eq] at h2
  subst he
  obtain ⟨y, hy, hyr, _, hyn⟩ := mem_posOf.1 (hl _ hn)
  have : y = x := Store.row_unique hI.asc hy hx hyn
  subst this
  exact ⟨hx, hn, hyr, Or.inr h2.1, h2.2.1, h2.2.2⟩

/-- The last state event with the key came since the room was loaded. -/
theorem live_last {db : DB} (hI : TI db) {r : String} {live : List Nat} (hlive : ∀ n ∈ live, n ∈ posOf db r) (hlasc : live.Pairwise (· < ·))
    {k : Store.Key} {x : Row} (hls : lastState db r k = some x) (hxl : x.nid ∈ live) (hkey : x.ev.hasKey = true) {b : List Row} :
    ∀ id, id ∈ clientState db live b k ↔ (some x).map (·.ev.id) = some id := by
  obtain ⟨hx, hk, hmax⟩ := last_max hI hls
  unfold clientState
  have hin' : x ∈ (live.filterMap fun n => db.rows.find? fun x => decide (x.nid = n)).filter
      (fun x => x.ev.hasKey && decide (x.ev.type = k.1 ∧ x.ev.stateKey = k.2)) := by
    refine List.mem_filter.2 ⟨List.mem_filterMap.2 ⟨x.nid, hxl, ?_⟩, by
      simp only [Bool.and_eq_true, decide_eq_true_eq]; exact ⟨hkey, hk.2.2⟩⟩
    cases hf : db.rows.find? fun y => decide (y.nid = x.nid) with
    | none => have := List.find?_eq_none.1 hf x hx; simp at this
    | some y =>
      have h1 := List.find?_some hf
      simp only [decide_eq_true_eq] at h1
      rw [Store.row_unique hI.asc (List.mem_of_find?_eq_some hf) hx h1]
  have hfasc : (((live.filterMap fun n => db.rows.find? fun x => decide (x.nid = n)).filter
      (fun x => x.ev.hasKey && decide (x.ev.type = k.1 ∧ x.ev.stateKey = k.2))).map (·.nid)).Pairwise (· < ·) := by
    rw [List.pairwise_map]
    refine List.Pairwise.filter _ (List.Pairwise.filterMap _ (fun n m hnm y hy z hz => ?_) hlasc)
    have h1 := List.find?_some hy
    have h2 := List.find?_some hz
    simp only [decide_eq_true_eq] at h1 h2
    omega
  have hlmax := (ConnLoad.getLast_max _ hfasc).1 x.nid (List.mem_map_of_mem hin')
  rw [List.getLast?_map] at hlmax
  generalize hL : (live.filterMap fun n => db.rows.find? fun x => decide (x.nid = n)).filter
      (fun x => x.ev.hasKey && decide (x.ev.type = k.1 ∧ x.ev.stateKey = k.2)) = L at *
  cases hg : L.getLast? with
  | none => rw [List.getLast?_eq_none_iff] at hg; rw [hg] at hin'; cases hin'
  | some y =>
    rw [hg] at hlmax
    have hyL := List.mem_of_getLast? hg
    rw [← hL] at hyL
    obtain ⟨hy1, _, hy3⟩ := mem_live hlive hyL hI
    have h1 := hmax y hy1 hy3
    have : x = y := Store.row_unique hI.asc hx hy1 (by simp only [Option.map_some, Option.getD_some] at hlmax; omega)
    subst this
    intro id
    simp [eq_comm]

theorem si_state {s : State} {ops : List Op} (hR : Reach s ops) {r : String} {d : Nat} {c : Conn} (hsi : SI s.db r d c)
    (hst : ∀ l, c.view r = some l → ∃ before after, posOf s.db r = before ++ l ++ after ∧ (∀ e ∈ after, (l = [] → d < e) → Pending s c r e) ∧
      (l = [] → before = [])) {b : List Row} (hb : c.base r = some b) (k : Store.Key) :
    (∃ x, lastState s.db r k = some x ∧ Pending s c r x.nid) ∨
    ∀ id, id ∈ clientState s.db (c.live r) b k ↔ (lastState s.db r k).map (·.ev.id) = some id := by
  have hI := hR.base.ti
  obtain ⟨a, l0, p1, _, p3, p4, p5, p6, p7, p8, _⟩ := hsi.base b hb
  obtain ⟨before, after, q1, q2, q3⟩ := hst _ p5
  have hlive : ∀ n ∈ c.live r, n ∈ posOf s.db r := fun n hn => by rw [q1]; simp [hn]
  have hbase : (∀ x ∈ s.db.rows, Keyed r k x → x.nid ≤ a) → ∀ id, id ∈ clientState s.db (c.live r) b k ↔
      (lastState s.db r k).map (·.ev.id) = some id := by
    intro hk id
    have hnone : ((c.live r).filterMap fun n => s.db.rows.find? fun x => decide (x.nid = n)).filter
        (fun x => x.ev.hasKey && decide (x.ev.type = k.1 ∧ x.ev.stateKey = k.2)) = [] := by
      rw [List.eq_nil_iff_forall_not_mem]
      intro x hx
      obtain ⟨h1, h2, h3⟩ := mem_live hlive hx hI
      have := hk x h1 h3
      have := p7 _ h2
      omega
    unfold clientState
    rw [hnone]
    simp only [List.getLast?_nil]
    rw [← last_state, ← p4 k hk id]
    constructor
    · intro h
      obtain ⟨y, hy, rfl⟩ := List.mem_map.1 h
      obtain ⟨hy1, hy2⟩ := List.mem_filter.1 hy
      exact ⟨y, hy1, (key_iff y k).2 (by simpa using hy2), rfl⟩
    · rintro ⟨y, hy, hyk, rfl⟩
      exact List.mem_map.2 ⟨y, List.mem_filter.2 ⟨hy, by simpa using (key_iff y k).1 hyk⟩, rfl⟩
  cases hls : lastState s.db r k with
  | none =>
    right
    rw [← hls]
    exact hbase fun x hx hk => absurd hk (last_none hls x hx)
  | some x =>
    obtain ⟨hx, hk, hmax⟩ := last_max hI hls
    by_cases hxa : x.nid ≤ a
    · right
      rw [← hls]
      exact hbase fun y hy hky => Nat.le_trans (hmax y hy hky) hxa
    · -- the event came after the room was loaded
      have hns : x.isState = false := by
        cases h : x.isState with
        | false => rfl
        | true => exact absurd (p3 x hx hk.1 h) hxa
      have hkey : x.ev.hasKey = true := by
        rcases hk.2.1 with h | h
        · rw [hns] at h; cases h
        · exact h
      have hpos : x.nid ∈ posOf s.db r := mem_posOf.2 ⟨x, hx, hk.1, hns, rfl⟩
      have hasc := posOf_asc hI r
      rw [q1] at hasc
      have hpos' := hpos
      rw [q1, List.mem_append, List.mem_append] at hpos'
      rcases hpos' with (hp | hp) | hp
      · exfalso
        by_cases h0 : l0 ++ c.live r = []
        · rw [q3 h0] at hp; cases hp
        · refine hxa (p8 h0 _ hpos fun y hy => ?_)
          exact (List.pairwise_append.1 (List.pairwise_append.1 hasc).1).2.2 _ hp _ hy
      · right
        have hxl : x.nid ∈ c.live r := by
          rcases List.mem_append.1 hp with hp | hp
          · exact absurd (p6 _ hp) hxa
          · exact hp
        have hlasc : (c.live r).Pairwise (· < ·) :=
          (List.pairwise_append.1 (List.pairwise_append.1 (List.pairwise_append.1 hasc).1).2.1).2.1
        exact live_last hI hlive hlasc hls hxl hkey
      · left
        exact ⟨x, rfl, q2 _ hp fun _ => by omega⟩

/-- **C116.** A client that is given the state of a room and replaces it by the state events that come later (all of them, as it asks for
`["*", "*"]`) has the room's current state: under every key, the state event stored last for the room is what the client has, or that event
is in a message not yet taken or in the connection's queue. This holds whatever the pollers store and in whatever order messages are taken,
requests are handled and updates are taken.

Partial: under the conditions of C114. -/
theorem C116_state_partial (cfg : Cfg) (hu : cfg.user ≠ Dispatcher.allUsers) (hu0 : cfg.user ≠ "") (pre post : List Op)
    (hok : ∀ o ∈ polls (pre ++ .open :: post), Store.OkOp o) (hnk : ∀ o ∈ polls (pre ++ .open :: post), NoKey o)
    (r : String) (hpost : ∀ o ∈ post, OkOp r o)
    (hbus : ∀ m ∈ (run cfg {} pre).bus, ¬ resets r m) (hj : cfg.user ∈ (run cfg {} pre).disp.jrt.joinedUsers r)
    (hin : In cfg (run cfg {} (pre ++ .open :: post)).db r (run cfg {} pre).handed)
    (c : Conn) (hc : (run cfg {} (pre ++ .open :: post)).conn = some c) (b : List Row) (hb : c.base r = some b) (k : Store.Key) :
    (∃ x, lastState (run cfg {} (pre ++ .open :: post)).db r k = some x ∧ Pending (run cfg {} (pre ++ .open :: post)) c r x.nid) ∨
    ∀ id, id ∈ clientState (run cfg {} (pre ++ .open :: post)).db (c.live r) b k ↔
      (lastState (run cfg {} (pre ++ .open :: post)).db r k).map (·.ev.id) = some id := by
  exact si_state (reach cfg (pre ++ .open :: post)) (main_si hu hu0 hbus hj post hok hnk hpost hin c hc)
    (fun l hl => C114_end_to_end_partial cfg hu pre post hok r hpost hbus hj hin c hc l hl) hb k

/-- When all messages and updates are taken, the client has exactly the current state. -/
theorem C116_up_to_date (cfg : Cfg) (hu : cfg.user ≠ Dispatcher.allUsers) (hu0 : cfg.user ≠ "") (pre post : List Op)
    (hok : ∀ o ∈ polls (pre ++ .open :: post), Store.OkOp o) (hnk : ∀ o ∈ polls (pre ++ .open :: post), NoKey o)
    (r : String) (hpost : ∀ o ∈ post, OkOp r o)
    (hbus : ∀ m ∈ (run cfg {} pre).bus, ¬ resets r m) (hj : cfg.user ∈ (run cfg {} pre).disp.jrt.joinedUsers r)
    (hin : In cfg (run cfg {} (pre ++ .open :: post)).db r (run cfg {} pre).handed)
    (c : Conn) (hc : (run cfg {} (pre ++ .open :: post)).conn = some c) (b : List Row) (hb : c.base r = some b)
    (he : (run cfg {} (pre ++ .open :: post)).bus = []) (hq : c.queue = []) (k : Store.Key) (id : String) :
    id ∈ clientState (run cfg {} (pre ++ .open :: post)).db (c.live r) b k ↔
      (lastState (run cfg {} (pre ++ .open :: post)).db r k).map (·.ev.id) = some id := by
  rcases C116_state_partial cfg hu hu0 pre post hok hnk r hpost hbus hj hin c hc b hb k with ⟨x, _, h⟩ | h
  · rcases h with ⟨y, hy, _⟩ | ⟨n, hn, _⟩
    · rw [hq] at hy; cases hy
    · rw [he] at hn; cases hn
  · exact h id

end Verif.EndToEnd
