import Verif.StoreHist
/-!
# C41: the state of a room at a position
-/
namespace Verif.Store

/-- The list of events is the state `f`: exactly its events, one per key. -/
def ListIs (l : List Row) (f : St) : Prop :=
  (∀ k id, (∃ x ∈ l, x.ev.key = k ∧ x.ev.id = id) ↔ f k = some id) ∧ l.Pairwise (fun a b => a.ev.key ≠ b.ev.key)

/-- The last event of the room up to the position. -/
def LastAt (db : DB) (room : String) (pos : Nat) (r : Row) : Prop :=
  r ∈ db.rows ∧ r.room = room ∧ r.nid ≤ pos ∧ ∀ q ∈ db.rows, q.room = room → q.nid ≤ pos → q.nid ≤ r.nid

theorem latestEvent_spec {db : DB} {sp : Spec} (h : Rel db sp) {room : String} {pos : Nat} {r : Row} (hr : LastAt db room pos r) :
    latestEvent db room pos = some (some (r, if r.before = 0 then db.cur room else r.before)) := by
  obtain ⟨h1, h2, h3, h4⟩ := hr
  have hl := (h.latest room).1 r h1 h2
  have hpos := (h.inv.range r h1).1
  unfold latestEvent
  rw [if_neg (by omega)]
  by_cases hlt : db.latest room > pos
  · simp only [hlt, if_true]
    have hlast : (db.rows.filter fun q => decide (q.room = room) && decide (q.nid ≤ pos)).getLast? = some r := by
      have hm : r ∈ db.rows.filter fun q => decide (q.room = room) && decide (q.nid ≤ pos) :=
        List.mem_filter.2 ⟨h1, by simp [h2, h3]⟩
      have hasc := h.inv.asc.filter fun q => decide (q.room = room) && decide (q.nid ≤ pos)
      have hmax : ∀ q ∈ db.rows.filter (fun q => decide (q.room = room) && decide (q.nid ≤ pos)), q.nid ≤ r.nid := by
        intro q hq
        simp only [List.mem_filter, Bool.and_eq_true, decide_eq_true_eq] at hq
        exact h4 q hq.1 hq.2.1 hq.2.2
      generalize db.rows.filter (fun q => decide (q.room = room) && decide (q.nid ≤ pos)) = l at hm hasc hmax
      rcases List.eq_nil_or_concat l with h0 | ⟨l', x, h0⟩
      · rw [h0] at hm; simp at hm
      · rw [List.concat_eq_append] at h0
        subst h0
        rw [List.getLast?_append]
        simp only [List.getLast?_singleton, Option.some_or, Option.some.injEq]
        rcases List.mem_append.1 hm with hm | hm
        · have := (List.pairwise_append.1 hasc).2.2 r hm x (by simp)
          have := hmax x (by simp); omega
        · simpa using (List.mem_singleton.1 hm).symm
    simp only [hlast, h2]
  · simp only [hlt, if_false]
    obtain ⟨q, hq, hqn, hqr⟩ := (h.latest room).2 (by omega)
    have hqr' : q = r := row_unique h.inv.asc hq h1 (by
      have := h4 q hq hqr (by omega); omega)
    subst hqr'
    have hf : db.rows.find? (·.nid = db.latest room) = some q := by
      cases hf : db.rows.find? (·.nid = db.latest room) with
      | none => have := List.find?_eq_none.1 hf q hq; simp [hqn] at this
      | some x =>
        have hx := List.find?_some hf
        rw [row_unique h.inv.asc (List.mem_of_find?_eq_some hf) hq (by rw [hqn]; simpa using hx)]
    simp only [hf, hqr]

/-- An event of a replayed state is one of those replayed. -/
theorem replay_mem {rows : List Row} {room : String} {p : Nat → Bool} {k : Key} {id : String} (h : replay rows room p k = some id) :
    ∃ r ∈ rows, r.room = room ∧ p r.nid = true ∧ r.ev.key = k ∧ r.ev.id = id := by
  rw [replay, C40_last] at h
  simp only [St.none, Option.or_none, Option.map_eq_some_iff] at h
  obtain ⟨e, he, rfl⟩ := h
  have := List.mem_of_getLast? he
  simp only [List.mem_filter, List.mem_map, decide_eq_true_eq, Bool.and_eq_true] at this
  obtain ⟨⟨r, ⟨hr, ⟨hroom, hp⟩, _⟩, rfl⟩, hk⟩ := this
  exact ⟨r, hr, hroom, hp, hk, rfl⟩

/-- Up to the last event is before it, and then it. -/
theorem replay_last {db : DB} (hI : Inv db) {room : String} {pos : Nat} {r : Row} (hr : LastAt db room pos r) :
    replay db.rows room (fun n => decide (n ≤ pos)) =
      if r.isState || r.ev.hasKey then (replay db.rows room fun n => decide (n < r.nid)).apply r.ev
      else replay db.rows room fun n => decide (n < r.nid) := by
  obtain ⟨h1, h2, h3, h4⟩ := hr
  obtain ⟨a, b, hab⟩ := List.append_of_mem h1
  have hasc := hI.asc
  rw [hab] at hasc
  have ha := (List.pairwise_append.1 hasc).2.2
  have hb := (List.pairwise_cons.1 (List.pairwise_append.1 hasc).2.1).1
  have hbr : ∀ c ∈ b, c.room = room → ¬ c.nid ≤ pos := by
    intro c hc hcr hle
    have := h4 c (by rw [hab]; simp [hc]) hcr hle
    have := hb c hc; omega
  have hsplit : ∀ p : Nat → Bool, replay db.rows room p = replayC (a.map Row.core ++ (r.core :: b.map Row.core)) room p := by
    intro p; rw [replay_core, hab]; simp
  rw [hsplit, hsplit]
  have hA : replayC (a.map Row.core) room (fun n => decide (n ≤ pos)) = replayC (a.map Row.core) room (fun n => decide (n < r.nid)) := by
    refine replayC_congr _ _ _ _ fun c hc _ => ?_
    obtain ⟨x, hx, rfl⟩ := List.mem_map.1 hc
    have := ha x hx r (by simp)
    have e1 : decide (x.core.1 ≤ pos) = true := decide_eq_true (by show x.nid ≤ pos; omega)
    have e2 : decide (x.core.1 < r.nid) = true := decide_eq_true (by show x.nid < r.nid; omega)
    rw [e1, e2]
  rw [replayC_other (a.map Row.core) (r.core :: b.map Row.core) room (fun n => decide (n < r.nid)) (fun c hc _ => by
      rcases List.mem_cons.1 hc with rfl | hc
      · simp [Row.core]
      · obtain ⟨x, hx, rfl⟩ := List.mem_map.1 hc
        have := hb x hx
        exact decide_eq_false (by show ¬ x.nid < r.nid; omega))]
  rw [show r.core :: b.map Row.core = [r.core] ++ b.map Row.core from rfl, ← List.append_assoc,
    replayC_other (a.map Row.core ++ [r.core]) (b.map Row.core) room _ (fun c hc hcr => by
      obtain ⟨x, hx, rfl⟩ := List.mem_map.1 hc
      exact decide_eq_false (hbr x hx hcr)), replayC_append, hA]
  simp only [List.filter_cons, Row.core, h2, h3, decide_true, Bool.true_and, List.filter_nil]
  split <;> rfl

/-- Selecting by numbers. -/
theorem select_is {db : DB} (hI : Inv db) {nids : List Nat} (hn : nids.Nodup) (hex : ∀ n ∈ nids, ∃ r ∈ db.rows, r.nid = n)
    {f : St} (hf : ∀ k id, (∃ x ∈ db.rows, x.nid ∈ nids ∧ x.ev.key = k ∧ x.ev.id = id) ↔ f k = some id) :
    ∃ l, selectByNIDs db nids = some l ∧ ListIs l f := by
  refine ⟨_, selectByNIDs_spec hI.asc hn hex, fun k id => ?_, ?_⟩
  · rw [← hf]
    simp only [List.mem_filter, decide_eq_true_eq, and_assoc]
  · refine List.Pairwise.imp_of_mem ?_ (hI.asc.filter _)
    intro a b ha hb hab hk
    simp only [List.mem_filter, decide_eq_true_eq] at ha hb
    have h1 := (hf a.ev.key a.ev.id).1 ⟨a, ha.1, ha.2, rfl, rfl⟩
    have h2 := (hf a.ev.key b.ev.id).1 ⟨b, hb.1, hb.2, hk.symm, rfl⟩
    rw [h1, Option.some.injEq] at h2
    have := hI.id_unique ha.1 hb.1 h2
    subst this; omega

theorem selectSnap_spec {db : DB} (hI : Inv db) {s : Snap} (hs : s ∈ db.snaps) : selectSnap db s.id = some s := by
  have hpos := (hI.srange s hs).1
  simp only [selectSnap]
  rw [if_neg (by omega)]
  cases hf : db.snaps.find? (·.id = s.id) with
  | none => have := List.find?_eq_none.1 hf s hs; simp at this
  | some t =>
    have h1 := List.find?_some hf
    rw [hI.snap_unique (List.mem_of_find?_eq_some hf) hs (by simpa using h1)]

/-- The snapshot's rows, as a state. -/
theorem snap_rows {db : DB} (hI : Inv db) {s : Snap} (hs : s ∈ db.snaps) {f : St} (hf : ∀ k id, (∃ n, At db s.id k id n) ↔ f k = some id) :
    ∀ k id, (∃ x ∈ db.rows, x.nid ∈ s.nids ∧ x.ev.key = k ∧ x.ev.id = id) ↔ f k = some id := by
  intro k id
  rw [← hf]
  constructor
  · rintro ⟨x, hx, hn, hk, hid⟩; exact ⟨x.nid, s, hs, rfl, x, hx, hn, hk, hid, rfl⟩
  · rintro ⟨n, t, ht, hts, x, hx, hn, hk, hid, _⟩
    rw [hI.snap_unique ht hs hts] at hn
    exact ⟨x, hx, hn, hk, hid⟩

/-- The facts about an event with a before-state. -/
theorem before_facts {db : DB} {sp : Spec} (h : Rel db sp) (hh : Hist db sp) {r : Row} (hr : r ∈ db.rows) (hb : r.before ≠ 0) :
    r.isState = false ∧ ∃ s ∈ db.snaps, s.id = r.before ∧
      (∀ k id, (∃ n, At db s.id k id n) ↔ replay db.rows r.room (fun n => decide (n < r.nid)) k = some id) ∧ RepOk db r ∧
      (∀ n ∈ s.nids, n < r.nid) := by
  have hs : r.isState = false := by
    cases hst : r.isState with
    | false => rfl
    | true => exact absurd (h.inits r hr hst).1 hb
  obtain ⟨o, ho, hc, hrep⟩ := h.befs r hr hs
  obtain ⟨o', ho', hoe⟩ := hh.befs r hr hs
  rw [ho, Option.some.injEq] at ho'
  subst ho'
  cases o with
  | none => exact absurd hc hb
  | some g =>
    obtain ⟨⟨s, hsm, hsi, hsr⟩, hg⟩ := hc
    simp only [Option.getD_some] at hoe
    rw [hoe] at hg
    refine ⟨hs, s, hsm, hsi, by rw [hsi]; exact hg, hrep, fun n hn => ?_⟩
    obtain ⟨q, hq, hqn, hqr⟩ := h.inv.exist s hsm n hn
    have := (hg q.ev.key q.ev.id).1 ⟨n, s, hsm, hsi, q, hq, hqn ▸ hn, rfl, rfl, hqn⟩
    obtain ⟨y, hy, _, hyn, _, hyi⟩ := replay_mem this
    rw [h.inv.id_unique hy hq hyi, hqn] at hyn
    simpa using hyn

/-- **C41.** The state of a room at a position is the state made by the events stored for the room up to it –
provided the last of these is a timeline event with a before-state, or the last event of the room. -/
theorem C41_state_partial (ops : List Op) (hok : ∀ o ∈ ops, OkOp o) {room : String} {pos : Nat} {r : Row}
    (hr : LastAt (run ops) room pos r) (hcur : r.before = 0 → (run ops).cur room ≠ 0)
    (hb : r.before ≠ 0 ∨ ∀ q ∈ (run ops).rows, q.room = room → q.nid ≤ pos) :
    ∃ l, stateAfter (run ops) room pos = some l ∧ ListIs l (replay (run ops).rows room fun n => decide (n ≤ pos)) := by
  have h := run_spec ops hok
  have hh := run_hist ops hok
  generalize run ops = db at *
  generalize specRun ops = sp at *
  have hI := h.inv
  obtain ⟨h1, h2, h3, h4⟩ := hr
  have hrep' := replay_last hI ⟨h1, h2, h3, h4⟩
  unfold stateAfter
  rw [latestEvent_spec h ⟨h1, h2, h3, h4⟩]
  by_cases hb0 : r.before = 0
  · have hall : ∀ q ∈ db.rows, q.room = room → q.nid ≤ pos := hb.resolve_left fun hh => hh hb0
    simp only [hb0, if_true]
    obtain ⟨s, hs, hsi, hsg⟩ : ∃ s ∈ db.snaps, s.id = db.cur room ∧
        ∀ k id, (∃ n, At db s.id k id n) ↔ replay db.rows room (fun n => decide (n ≤ pos)) k = some id := by
      have hc := h.cur room
      have hcr := hh.cur room
      cases hsp : sp.cur room with
      | none => rw [hsp] at hc; exact absurd hc (hcur hb0)
      | some g =>
        rw [hsp] at hc hcr
        obtain ⟨⟨s, hs, hsi, _⟩, hg⟩ := hc
        refine ⟨s, hs, hsi, ?_⟩
        rw [hsi]
        have : replay db.rows room (fun n => decide (n ≤ pos)) = g := by
          rw [← show (some g).getD St.none = g from rfl, hcr, replay_core, replay_core]
          refine replayC_congr _ _ _ _ fun c hc hcr => ?_
          obtain ⟨x, hx, rfl⟩ := List.mem_map.1 hc
          exact (decide_eq_true (hall x hx hcr)).trans rfl
        rw [this]; exact hg
    have hrows := snap_rows hI hs hsg
    rw [← hsi]
    simp only [selectSnap_spec hI hs]
    have hr0 : r.replaces = 0 := by
      cases hst : r.isState with
      | true => exact (h.inits r h1 hst).2
      | false =>
        obtain ⟨o, _, _, hro⟩ := h.befs r h1 hst
        unfold RepOk at hro
        split at hro
        · rcases hro with hro | ⟨id, hro⟩
          · exact hro.1
          · rw [hb0] at hro; exact absurd hro (snap_zero hI _ _ _)
        · exact hro
    have hn : (if r.ev.hasKey = true then if r.replaces ≠ 0 then s.nids.map (fun n => if n = r.replaces then r.nid else n)
        else if r.nid ∈ s.nids then s.nids else s.nids ++ [r.nid] else s.nids) = s.nids := by
      split
      · rename_i hk
        simp only [hr0, ne_eq, not_true, if_false]
        rw [if_pos]
        have : replay db.rows room (fun n => decide (n ≤ pos)) r.ev.key = some r.ev.id := by
          rw [hrep']; simp [hk, St.apply]
        obtain ⟨x, hx, hxn, _, hxi⟩ := (hrows _ _).2 this
        rw [hI.id_unique hx h1 hxi] at hxn; exact hxn
      · rfl
    rw [hn]
    exact select_is hI (hI.nodup s hs) (fun n hn => (hI.exist s hs n hn).imp fun x hx => ⟨hx.1, hx.2.1⟩) hrows
  · simp only [hb0, if_false]
    obtain ⟨hst, s, hs, hsi, hsg, hro, hlt⟩ := before_facts h hh h1 hb0
    rw [h2] at hsg
    have hrows := snap_rows hI hs hsg
    have hex : ∀ n ∈ s.nids, ∃ x ∈ db.rows, x.nid = n := fun n hn => (hI.exist s hs n hn).imp fun x hx => ⟨hx.1, hx.2.1⟩
    rw [← hsi]
    simp only [selectSnap_spec hI hs]
    rw [hst, Bool.false_or] at hrep'
    by_cases hk : r.ev.hasKey = true
    · simp only [hk, if_true] at hrep' ⊢
      unfold RepOk at hro
      rw [if_pos hk] at hro
      have hrnot : r.nid ∉ s.nids := fun hn => by have := hlt _ hn; omega
      by_cases hr0 : r.replaces = 0
      · have hno : ∀ id n, ¬ At db r.before r.ev.key id n := by
          rcases hro with hro | ⟨id, hro⟩
          · exact hro.2
          · rw [hr0] at hro
            obtain ⟨_, _, _, x, hx, _, _, _, hx0⟩ := hro
            have := (hI.range x hx).1; omega
        simp only [hr0, ne_eq, not_true, if_false, hrnot]
        refine select_is hI ?_ ?_ ?_
        · exact List.nodup_append.2 ⟨hI.nodup s hs, by simp, fun a ha b hb hab => by
            simp only [List.mem_singleton] at hb; subst hb; subst hab; exact hrnot ha⟩
        · intro n hn
          rcases List.mem_append.1 hn with hn | hn
          · exact hex n hn
          · simp only [List.mem_singleton] at hn; exact ⟨r, h1, hn.symm⟩
        · intro k id
          rw [hrep']
          simp only [St.apply, List.mem_append, List.mem_singleton]
          by_cases hkk : k = r.ev.key
          · simp only [hkk, if_true, Option.some.injEq]
            constructor
            · rintro ⟨x, hx, hn | hn, hxk, hxi⟩
              · exact absurd ⟨s, hs, hsi, x, hx, hn, hxk, hxi, rfl⟩ (hno id x.nid)
              · rw [row_unique hI.asc hx h1 hn] at hxi; exact hxi
            · intro he; exact ⟨r, h1, Or.inr rfl, rfl, he⟩
          · simp only [hkk, if_false]
            rw [← hrows]
            constructor
            · rintro ⟨x, hx, hn | hn, hxk, hxi⟩
              · exact ⟨x, hx, hn, hxk, hxi⟩
              · rw [row_unique hI.asc hx h1 hn] at hxk; exact absurd hxk.symm hkk
            · rintro ⟨x, hx, hn, hrest⟩; exact ⟨x, hx, Or.inl hn, hrest⟩
      · obtain ⟨id0, hat⟩ := hro.resolve_left fun hh => hr0 hh.1
        obtain ⟨t, ht, hts, y, hy, hyn, hyk, _, hy0⟩ := hat
        have hts' := hI.snap_unique ht hs (hts.trans hsi.symm)
        subst hts'
        rw [hy0] at hyn
        simp only [hr0, ne_eq, not_false_eq_true, if_true]
        have hmm : ∀ n, n ∈ t.nids.map (fun n => if n = r.replaces then r.nid else n) ↔ n = r.nid ∨ (n ∈ t.nids ∧ n ≠ r.replaces) := by
          intro n
          simp only [List.mem_map]
          constructor
          · rintro ⟨m, hm, he⟩
            split at he
            · exact Or.inl he.symm
            · rename_i hne; subst he; exact Or.inr ⟨hm, hne⟩
          · rintro (rfl | ⟨hn, hne⟩)
            · exact ⟨r.replaces, hyn, by simp⟩
            · exact ⟨n, hn, by simp [hne]⟩
        refine select_is hI ?_ ?_ ?_
        · rw [List.Nodup, List.pairwise_map]
          refine List.Pairwise.imp_of_mem ?_ (hI.nodup t ht)
          intro a b ha hb hab
          by_cases haa : a = r.replaces
          · have hbb : ¬ b = r.replaces := fun hh => hab (haa.trans hh.symm)
            rw [if_pos haa, if_neg hbb]
            exact fun he => hrnot (he ▸ hb)
          · rw [if_neg haa]
            by_cases hbb : b = r.replaces
            · rw [if_pos hbb]; exact fun he => hrnot (he ▸ ha)
            · rw [if_neg hbb]; exact hab
        · intro n hn
          rcases (hmm n).1 hn with rfl | ⟨hn, _⟩
          · exact ⟨r, h1, rfl⟩
          · exact hex n hn
        · intro k id
          rw [hrep']
          simp only [St.apply, hmm]
          by_cases hkk : k = r.ev.key
          · simp only [hkk, if_true, Option.some.injEq]
            constructor
            · rintro ⟨x, hx, hn | ⟨hn, hne⟩, hxk, hxi⟩
              · rw [row_unique hI.asc hx h1 hn] at hxi; exact hxi
              · have := hI.keys t ht x hx y hy hn (hy0 ▸ hyn) (hxk.trans hyk.symm)
                subst this; exact absurd hy0 hne
            · intro he; exact ⟨r, h1, Or.inl rfl, rfl, he⟩
          · simp only [hkk, if_false]
            rw [← hrows]
            constructor
            · rintro ⟨x, hx, hn | hn, hxk, hxi⟩
              · rw [row_unique hI.asc hx h1 hn] at hxk; exact absurd hxk.symm hkk
              · exact ⟨x, hx, hn.1, hxk, hxi⟩
            · rintro ⟨x, hx, hn, hxk, hxi⟩
              refine ⟨x, hx, Or.inr ⟨hn, fun he => hkk ?_⟩, hxk, hxi⟩
              rw [row_unique hI.asc hx hy (he.trans hy0.symm)] at hxk
              exact hxk.symm.trans hyk
    · simp only [hk, Bool.false_eq_true, if_false] at hrep' ⊢
      rw [hrep']
      exact select_is hI (hI.nodup s hs) hex hrows

/-- **C41.** A room with nothing stored up to the position has no state there. -/
theorem C41_empty (ops : List Op) (hok : ∀ o ∈ ops, OkOp o) {room : String} {pos : Nat}
    (hno : ∀ q ∈ (run ops).rows, q.room = room → ¬ q.nid ≤ pos) : stateAfter (run ops) room pos = some [] := by
  have h := run_spec ops hok
  generalize run ops = db at *
  unfold stateAfter latestEvent
  by_cases h0 : db.latest room = 0
  · simp [h0]
  · obtain ⟨q, hq, hqn, hqr⟩ := (h.latest room).2 h0
    have := hno q hq hqr
    have hlt : db.latest room > pos := by omega
    have he : (db.rows.filter fun r => decide (r.room = room) && decide (r.nid ≤ pos)) = [] := by
      rw [List.filter_eq_nil_iff]
      intro x hx hh
      simp only [Bool.and_eq_true, decide_eq_true_eq] at hh
      exact hno x hx hh.1 hh.2
    simp [h0, hlt, he]

/-! ### With a filter -/

def matchesK (f : Filter) (k : Key) : Bool := f.any fun t => t.1 = k.1 && (t.2.isEmpty || decide (k.2 ∈ t.2))

theorem matchesF_key (f : Filter) (e : Ev) : matchesF f e = matchesK f e.key := rfl

/-- A filtered list is the matching part of a state. -/
def FilteredIs (l : List Row) (f : Filter) (g : St) : Prop :=
  (∀ k id, (∃ x ∈ l, x.ev.key = k ∧ x.ev.id = id) ↔ g k = some id ∧ matchesK f k = true) ∧ l.Pairwise (fun a b => a.ev.key ≠ b.ev.key)

theorem columns_spec {db : DB} (hI : Inv db) {s : Snap} (hs : s ∈ db.snaps) (f : Filter) {x : Row} (hx : x ∈ db.rows) (hm : matchesF f x.ev = true) :
    x.nid ∈ columns f s ↔ x.nid ∈ s.nids := by
  obtain ⟨m1, m2⟩ := hI.mem s hs x hx
  obtain ⟨t, ht, htx⟩ := List.any_eq_true.1 hm
  simp only [Bool.and_eq_true, decide_eq_true_eq] at htx
  unfold columns
  simp only [Snap.nids, List.mem_append]
  split
  · rename_i hc
    simp only [Bool.and_eq_true, Bool.not_eq_true', List.any_eq_false] at hc
    have hmem : x.ev.type = "m.room.member" := by
      refine Classical.byContradiction fun hne => ?_
      exact hc.2 t ht (by simpa using htx.1 ▸ hne)
    exact ⟨Or.inl, fun hh => hh.elim id fun hh => absurd hmem (m2 hh)⟩
  · split
    · rename_i hc
      simp only [Bool.and_eq_true, Bool.not_eq_true', List.any_eq_false] at hc
      have hmem : ¬ x.ev.type = "m.room.member" := fun he => hc.1 t ht (by simpa [← htx.1] using he)
      exact ⟨Or.inr, fun hh => hh.elim (fun hh => absurd (m1 hh) hmem) id⟩
    · rw [List.mem_append]; exact Or.comm

/-- **C41.** With a filter the matching part of that state is returned – provided the last event has a
before-state, and is a state event or does not match. -/
theorem C41_filtered_partial (ops : List Op) (hok : ∀ o ∈ ops, OkOp o) {room : String} {pos : Nat} {r : Row}
    (hr : LastAt (run ops) room pos r) (hb : r.before ≠ 0) (f : Filter) (hf : (f.map (·.1)).Nodup)
    (hk : r.ev.hasKey = true ∨ matchesF f r.ev = false) :
    ∃ l, stateAfterFiltered (run ops) room pos f = some l ∧ FilteredIs l f (replay (run ops).rows room fun n => decide (n ≤ pos)) := by
  have h := run_spec ops hok
  have hh := run_hist ops hok
  generalize run ops = db at *
  generalize specRun ops = sp at *
  have hI := h.inv
  have hrep' := replay_last hI hr
  have hlat := latestEvent_spec h hr
  obtain ⟨h1, h2, h3, h4⟩ := hr
  unfold stateAfterFiltered
  rw [hlat]
  simp only [hb, if_false]
  obtain ⟨hst, s, hs, hsi, hsg, hro, hlt⟩ := before_facts h hh h1 hb
  rw [h2] at hsg
  have hrows := snap_rows hI hs hsg
  rw [hst, Bool.false_or] at hrep'
  have hfind : db.snaps.find? (·.id = r.before) = some s := by
    have := selectSnap_spec hI hs
    unfold selectSnap at this
    rw [if_neg (by have := (hI.srange s hs).1; omega)] at this
    rw [← hsi]; exact this
  simp only [hfind]
  -- the matching rows of the snapshot
  have hfound : ∀ x, x ∈ db.rows.filter (fun x => matchesF f x.ev && decide (x.nid ∈ columns f s)) ↔
      x ∈ db.rows ∧ x.nid ∈ s.nids ∧ matchesF f x.ev = true := by
    intro x
    simp only [List.mem_filter, Bool.and_eq_true, decide_eq_true_eq]
    constructor
    · rintro ⟨hx, hm, hc⟩; exact ⟨hx, (columns_spec hI hs f hx hm).1 hc, hm⟩
    · rintro ⟨hx, hn, hm⟩; exact ⟨hx, hm, (columns_spec hI hs f hx hm).2 hn⟩
  have hfpw : (db.rows.filter fun x => matchesF f x.ev && decide (x.nid ∈ columns f s)).Pairwise fun a b => a.ev.key ≠ b.ev.key := by
    refine List.Pairwise.imp_of_mem ?_ (hI.asc.filter _)
    intro a b ha hb hab hkk
    obtain ⟨a1, a2, _⟩ := (hfound a).1 ha
    obtain ⟨b1, b2, _⟩ := (hfound b).1 hb
    have := hI.keys s hs a a1 b b1 a2 b2 hkk
    subst this; omega
  -- what is appended
  have hadd : ∀ f : Filter, (f.map (·.1)).Nodup →
      (f.filter fun t => decide (t.1 = r.ev.type) && (t.2.isEmpty || decide (r.ev.stateKey ∈ t.2))).map (fun _ => r) =
        if matchesF f r.ev then [r] else [] := by
    intro f
    induction f with
    | nil => intro _; rfl
    | cons t ts ih =>
      intro hn
      simp only [List.map_cons, List.nodup_cons] at hn
      have ih := ih hn.2
      simp only [List.filter_cons, matchesF, List.any_cons] at ih ⊢
      by_cases ht : (decide (t.1 = r.ev.type) && (t.2.isEmpty || decide (r.ev.stateKey ∈ t.2))) = true
      · simp only [ht, if_true, Bool.true_or]
        have hz : (ts.filter fun t => decide (t.1 = r.ev.type) && (t.2.isEmpty || decide (r.ev.stateKey ∈ t.2))) = [] := by
          rw [List.filter_eq_nil_iff]
          intro u hu hh
          simp only [Bool.and_eq_true, decide_eq_true_eq] at hh ht
          exact hn.1 (List.mem_map.2 ⟨u, hu, hh.1.trans ht.1.symm⟩)
        rw [hz]; rfl
      · simp only [ht, Bool.false_eq_true, if_false, Bool.false_or]
        exact ih
  rw [hadd f hf]
  by_cases hkey : r.ev.hasKey = true
  · rw [if_pos hkey] at hrep'
    unfold RepOk at hro
    rw [if_pos hkey] at hro
    by_cases hr0 : r.replaces = 0
    · have hno : ∀ id n, ¬ At db r.before r.ev.key id n := by
        rcases hro with hro | ⟨id, hro⟩
        · exact hro.2
        · rw [hr0] at hro
          obtain ⟨_, _, _, x, hx, _, _, _, hx0⟩ := hro
          have := (hI.range x hx).1; omega
      have hmap : (db.rows.filter fun x => matchesF f x.ev && decide (x.nid ∈ columns f s)).map (fun x => if r.replaces = x.nid then r else x) =
          db.rows.filter fun x => matchesF f x.ev && decide (x.nid ∈ columns f s) := by
        conv => rhs; rw [← List.map_id (db.rows.filter fun x => matchesF f x.ev && decide (x.nid ∈ columns f s))]
        refine List.map_congr_left fun x hx => ?_
        have := (hI.range x ((hfound x).1 hx).1).1
        rw [if_neg (by omega)]; rfl
      rw [hmap]
      simp only [hr0, if_true]
      have hnok : ∀ x ∈ db.rows.filter (fun x => matchesF f x.ev && decide (x.nid ∈ columns f s)), x.ev.key ≠ r.ev.key := by
        intro x hx hxk
        obtain ⟨x1, x2, _⟩ := (hfound x).1 hx
        exact hno x.ev.id x.nid ⟨s, hs, hsi, x, x1, x2, hxk, rfl, rfl⟩
      refine ⟨_, rfl, fun k id => ?_, ?_⟩
      · rw [hrep']
        simp only [St.apply, List.mem_append]
        by_cases hkk : k = r.ev.key
        · subst hkk
          simp only [if_true, Option.some.injEq, ← matchesF_key]
          constructor
          · rintro ⟨x, hx | hx, hxk, hxi⟩
            · exact absurd hxk (hnok x hx)
            · split at hx
              · rename_i hm; simp only [List.mem_singleton] at hx; subst hx; exact ⟨hxi, hm⟩
              · simp at hx
          · rintro ⟨he, hm⟩
            exact ⟨r, Or.inr (by simp [hm]), rfl, he⟩
        · simp only [hkk, if_false]
          rw [← hrows]
          constructor
          · rintro ⟨x, hx | hx, hxk, hxi⟩
            · obtain ⟨x1, x2, x3⟩ := (hfound x).1 hx
              exact ⟨⟨x, x1, x2, hxk, hxi⟩, hxk ▸ x3⟩
            · split at hx
              · simp only [List.mem_singleton] at hx; subst hx; exact absurd hxk.symm hkk
              · simp at hx
          · rintro ⟨⟨x, x1, x2, hxk, hxi⟩, hm⟩
            exact ⟨x, Or.inl ((hfound x).2 ⟨x1, x2, by rw [matchesF_key, hxk]; exact hm⟩), hxk, hxi⟩
      · refine List.pairwise_append.2 ⟨hfpw, by split <;> simp, fun a ha b hb => ?_⟩
        split at hb
        · simp only [List.mem_singleton] at hb; subst hb; exact hnok a ha
        · simp at hb
    · obtain ⟨id0, hat⟩ := hro.resolve_left fun hh => hr0 hh.1
      obtain ⟨t, ht, hts, y, hy, hyn, hyk, _, hy0⟩ := hat
      have hts' := hI.snap_unique ht hs (hts.trans hsi.symm)
      subst hts'
      simp only [hr0, if_false, List.append_nil]
      have hsame : ∀ x, x ∈ db.rows.filter (fun x => matchesF f x.ev && decide (x.nid ∈ columns f t)) →
          (x.ev.key = r.ev.key ↔ r.replaces = x.nid) := by
        intro x hx
        obtain ⟨x1, x2, _⟩ := (hfound x).1 hx
        constructor
        · intro he
          have := hI.keys t ht x x1 y hy x2 hyn (he.trans hyk.symm)
          rw [this, hy0]
        · intro he
          rw [row_unique hI.asc x1 hy (he.symm.trans hy0.symm)]; exact hyk
      refine ⟨_, rfl, fun k id => ?_, ?_⟩
      · rw [hrep']
        simp only [St.apply, List.mem_map]
        by_cases hkk : k = r.ev.key
        · subst hkk
          simp only [if_true, Option.some.injEq, ← matchesF_key]
          constructor
          · rintro ⟨z, ⟨x, hx, hxz⟩, hzk, hzi⟩
            split at hxz
            · rename_i he
              subst hxz
              have hxk := (hsame x hx).2 he
              exact ⟨hzi, by rw [matchesF_key, ← hxk, ← matchesF_key]; exact ((hfound x).1 hx).2.2⟩
            · rename_i he; subst hxz; exact absurd ((hsame x hx).1 hzk) he
          · rintro ⟨he, hm⟩
            refine ⟨r, ⟨y, (hfound y).2 ⟨hy, hyn, by rw [matchesF_key, hyk, ← matchesF_key]; exact hm⟩, by simp [hy0]⟩, rfl, he⟩
        · simp only [hkk, if_false]
          rw [← hrows]
          constructor
          · rintro ⟨z, ⟨x, hx, hxz⟩, hzk, hzi⟩
            split at hxz
            · subst hxz; exact absurd hzk.symm hkk
            · subst hxz
              obtain ⟨x1, x2, x3⟩ := (hfound x).1 hx
              exact ⟨⟨x, x1, x2, hzk, hzi⟩, hzk ▸ x3⟩
          · rintro ⟨⟨x, x1, x2, hxk, hxi⟩, hm⟩
            have hx := (hfound x).2 ⟨x1, x2, by rw [matchesF_key, hxk]; exact hm⟩
            refine ⟨x, ⟨x, hx, ?_⟩, hxk, hxi⟩
            rw [if_neg fun he => hkk (hxk.symm.trans ((hsame x hx).2 he))]
      · rw [List.pairwise_map]
        refine List.Pairwise.imp_of_mem ?_ hfpw
        intro a b ha hb hab
        by_cases haa : r.replaces = a.nid
        · rw [if_pos haa]
          have hak := (hsame a ha).2 haa
          have hbk : ¬ b.ev.key = r.ev.key := fun hh => hab (hak.trans hh.symm)
          rw [if_neg fun he => hbk ((hsame b hb).2 he)]
          exact fun hh => hbk hh.symm
        · rw [if_neg haa]
          have hak : ¬ a.ev.key = r.ev.key := fun hh => haa ((hsame a ha).1 hh)
          by_cases hbb : r.replaces = b.nid
          · rw [if_pos hbb]; exact hak
          · rw [if_neg hbb]; exact hab
  · rw [if_neg hkey] at hrep'
    have hm := hk.resolve_left hkey
    have hr0 : r.replaces = 0 := by simpa [RepOk, hkey] using hro
    have hmap : (db.rows.filter fun x => matchesF f x.ev && decide (x.nid ∈ columns f s)).map (fun x => if r.replaces = x.nid then r else x) =
        db.rows.filter fun x => matchesF f x.ev && decide (x.nid ∈ columns f s) := by
      conv => rhs; rw [← List.map_id (db.rows.filter fun x => matchesF f x.ev && decide (x.nid ∈ columns f s))]
      refine List.map_congr_left fun x hx => ?_
      have := (hI.range x ((hfound x).1 hx).1).1
      rw [if_neg (by omega)]; rfl
    rw [hmap, hm]
    simp only [Bool.false_eq_true, if_false, ite_self, List.append_nil]
    refine ⟨_, rfl, fun k id => ?_, hfpw⟩
    rw [hrep', ← hrows]
    constructor
    · rintro ⟨x, hx, hxk, hxi⟩
      obtain ⟨x1, x2, x3⟩ := (hfound x).1 hx
      exact ⟨⟨x, x1, x2, hxk, hxi⟩, hxk ▸ x3⟩
    · rintro ⟨⟨x, x1, x2, hxk, hxi⟩, hmk⟩
      exact ⟨x, (hfound x).2 ⟨x1, x2, by rw [matchesF_key, hxk]; exact hmk⟩, hxk, hxi⟩

/-- Non-vacuity: position 5, a message after the first name change. -/
example : ∃ r, LastAt (run exRun) "!r" 5 r ∧ r.before ≠ 0 ∧
    (stateAfter (run exRun) "!r" 5).map (·.map (·.ev.id)) = some ["$c", "$n2"] ∧
    (stateAfterFiltered (run exRun) "!r" 4 [("m.room.name", [])]).map (·.map (·.ev.id)) = some ["$n2"] := by
  refine ⟨{ nid := 5, room := "!r", ev := exMsg "$b", isState := false, before := 2 }, ⟨?_, rfl, by decide, ?_⟩, by decide,
    by decide +kernel, by decide +kernel⟩
  · decide +kernel
  · decide +kernel

/-- **C41 fails at a position whose last event is part of the initial state.** The current snapshot is used,
so the state includes later events: here there are two names, one of them set at position 6 although the
position is 2. -/
theorem C41_violated_initial :
    (stateAfter (run exRun) "!r" 2).map (·.map (·.ev.id)) = some ["$c", "$n1", "$n3"] ∧
    replay (run exRun).rows "!r" (fun n => decide (n ≤ 2)) ("m.room.name", "") = some "$n1" := by decide +kernel

/-- **C41 fails with a filter for a last event without a state key whose type matches**: a message is returned
as state. -/
theorem C41_violated_message :
    (stateAfterFiltered (run exRun) "!r" 5 [("m.room.message", [])]).map (·.map (·.ev.id)) = some ["$b"] := by decide +kernel

/-- **C41 fails with a filter if the last event is part of the initial state**: it is returned twice. -/
theorem C41_violated_twice :
    (stateAfterFiltered (run [exInit]) "!r" 2 [("m.room.name", [])]).map (·.map (·.ev.id)) = some ["$n1", "$n1"] := by decide +kernel

end Verif.Store
