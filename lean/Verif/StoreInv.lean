import Verif.StoreLemmas
/-!
# Invariants of the events and snapshots tables
-/
namespace Verif.Store

/-- What never changes about a row. -/
def Row.core (r : Row) : Nat × String × Ev × Bool := (r.nid, r.room, r.ev, r.isState)

theorem core_eq {a b : Row} (h : a.core = b.core) : a.nid = b.nid ∧ a.room = b.room ∧ a.ev = b.ev ∧ a.isState = b.isState := by
  simpa [Row.core] using h

/-- `b` has everything `a` has; what is new has larger numbers. -/
structure Ext (a b : DB) : Prop where
  rows : ∃ new, b.rows.map Row.core = a.rows.map Row.core ++ new ∧ ∀ c ∈ new, a.seq < c.1
  snaps : ∃ ns, b.snaps = a.snaps ++ ns ∧ ∀ s ∈ ns, a.sseq < s.id
  seq : a.seq ≤ b.seq
  sseq : a.sseq ≤ b.sseq

theorem Ext.refl (a : DB) : Ext a a := ⟨⟨[], by simp⟩, ⟨[], by simp⟩, Nat.le_refl _, Nat.le_refl _⟩

theorem Ext.trans {a b c : DB} (h : Ext a b) (h' : Ext b c) : Ext a c := by
  obtain ⟨⟨n, hn, hn'⟩, ⟨s, hs, hs'⟩, h1, h2⟩ := h
  obtain ⟨⟨m, hm, hm'⟩, ⟨t, ht, ht'⟩, h3, h4⟩ := h'
  refine ⟨⟨n ++ m, by rw [hm, hn, List.append_assoc], fun c hc => ?_⟩, ⟨s ++ t, by rw [ht, hs, List.append_assoc], fun x hx => ?_⟩,
    by omega, by omega⟩
  · rcases List.mem_append.1 hc with hc | hc
    · exact hn' c hc
    · have := hm' c hc; omega
  · rcases List.mem_append.1 hx with hx | hx
    · exact hs' x hx
    · have := ht' x hx; omega

/-- A row of the new database that is numbered as an old one is an old one. -/
theorem Ext.back {a b : DB} (h : Ext a b) {r : Row} (hr : r ∈ b.rows) (hn : r.nid ≤ a.seq) : ∃ r' ∈ a.rows, r'.core = r.core := by
  obtain ⟨new, h1, h2⟩ := h.rows
  have : r.core ∈ a.rows.map Row.core ++ new := h1 ▸ List.mem_map_of_mem hr
  rcases List.mem_append.1 this with hm | hm
  · obtain ⟨r', hr', he⟩ := List.mem_map.1 hm; exact ⟨r', hr', he⟩
  · have := h2 _ hm; simp only [Row.core] at this; omega

theorem Ext.fwd {a b : DB} (h : Ext a b) {r : Row} (hr : r ∈ a.rows) : ∃ r' ∈ b.rows, r'.core = r.core := by
  obtain ⟨new, h1, h2⟩ := h.rows
  have : r.core ∈ b.rows.map Row.core := by rw [h1]; exact List.mem_append_left _ (List.mem_map_of_mem hr)
  obtain ⟨r', hr', he⟩ := List.mem_map.1 this; exact ⟨r', hr', he⟩

theorem Ext.snap_back {a b : DB} (h : Ext a b) {s : Snap} (hs : s ∈ b.snaps) (hn : s.id ≤ a.sseq) : s ∈ a.snaps := by
  obtain ⟨ns, h1, h2⟩ := h.snaps
  rw [h1] at hs
  rcases List.mem_append.1 hs with hm | hm
  · exact hm
  · have := h2 s hm; omega

theorem Ext.snap_fwd {a b : DB} (h : Ext a b) {s : Snap} (hs : s ∈ a.snaps) : s ∈ b.snaps := by
  obtain ⟨ns, h1, _⟩ := h.snaps
  rw [h1]; exact List.mem_append_left _ hs

structure Inv (db : DB) : Prop where
  asc : db.rows.Pairwise fun a b => a.nid < b.nid
  range : ∀ r ∈ db.rows, 0 < r.nid ∧ r.nid ≤ db.seq
  ids : (db.rows.map (·.ev.id)).Nodup
  clean : ∀ r ∈ db.rows, Clean r.ev
  srange : ∀ s ∈ db.snaps, 0 < s.id ∧ s.id ≤ db.sseq
  sids : db.snaps.Pairwise fun a b => a.id < b.id
  nodup : ∀ s ∈ db.snaps, s.nids.Nodup
  exist : ∀ s ∈ db.snaps, ∀ n ∈ s.nids, ∃ r ∈ db.rows, r.nid = n ∧ r.room = s.room
  keys : ∀ s ∈ db.snaps, ∀ r ∈ db.rows, ∀ r' ∈ db.rows, r.nid ∈ s.nids → r'.nid ∈ s.nids → r.ev.key = r'.ev.key → r = r'
  mem : ∀ s ∈ db.snaps, ∀ r ∈ db.rows, (r.nid ∈ s.members → r.ev.type = "m.room.member") ∧
    (r.nid ∈ s.others → r.ev.type ≠ "m.room.member")

theorem Inv.empty : Inv {} := by constructor <;> simp

theorem Inv.id_unique {db : DB} (h : Inv db) {a b : Row} (ha : a ∈ db.rows) (hb : b ∈ db.rows) (he : a.ev.id = b.ev.id) : a = b := by
  have := h.ids
  generalize db.rows = l at this ha hb
  induction l with
  | nil => simp at ha
  | cons x xs ih =>
    simp only [List.map_cons, List.nodup_cons] at this
    rcases List.mem_cons.1 ha with ha' | ha' <;> rcases List.mem_cons.1 hb with hb' | hb'
    · rw [ha', hb']
    · subst ha'; exact absurd (List.mem_map.2 ⟨b, hb', he.symm⟩) this.1
    · subst hb'; exact absurd (List.mem_map.2 ⟨a, ha', he⟩) this.1
    · exact ih this.2 ha' hb'

theorem Inv.snap_unique {db : DB} (h : Inv db) {a b : Snap} (ha : a ∈ db.snaps) (hb : b ∈ db.snaps) (he : a.id = b.id) : a = b := by
  have := h.sids
  generalize db.snaps = l at this ha hb
  induction l with
  | nil => simp at ha
  | cons x xs ih =>
    rw [List.pairwise_cons] at this
    rcases List.mem_cons.1 ha with ha' | ha' <;> rcases List.mem_cons.1 hb with hb' | hb'
    · rw [ha', hb']
    · subst ha'; have := this.1 b hb'; omega
    · subst hb'; have := this.1 a ha'; omega
    · exact ih this.2 ha' hb'

/-- Snapshot `sid` has, under key `k`, the event `id`, numbered `n`. -/
def At (db : DB) (sid : Nat) (k : Key) (id : String) (n : Nat) : Prop :=
  ∃ s ∈ db.snaps, s.id = sid ∧ ∃ r ∈ db.rows, r.nid ∈ s.nids ∧ r.ev.key = k ∧ r.ev.id = id ∧ r.nid = n

theorem Ext.at {a b : DB} (h : Ext a b) (ha : Inv a) {sid : Nat} (hs : sid ≤ a.sseq) (k : Key) (id : String) (n : Nat) :
    At b sid k id n ↔ At a sid k id n := by
  constructor
  · rintro ⟨s, hsm, rfl, r, hr, hn, hk, hid, hrn⟩
    have hsa := h.snap_back hsm hs
    obtain ⟨q, hq, hqn, _⟩ := ha.exist s hsa _ hn
    obtain ⟨r', hr', hc⟩ := h.back hr (hqn ▸ (ha.range q hq).2)
    obtain ⟨c1, c2, c3, c4⟩ := core_eq hc
    exact ⟨s, hsa, rfl, r', hr', c1 ▸ hn, c3 ▸ hk, c3 ▸ hid, c1.trans hrn⟩
  · rintro ⟨s, hsm, rfl, r, hr, hn, hk, hid, hrn⟩
    obtain ⟨r', hr', hc⟩ := h.fwd hr
    obtain ⟨c1, c2, c3, c4⟩ := core_eq hc
    exact ⟨s, h.snap_fwd hsm, rfl, r', hr', c1 ▸ hn, c3 ▸ hk, c3 ▸ hid, c1.trans hrn⟩

/-! ## Inserting events -/

theorem insert_spec (db : DB) (hI : Inv db) (room : String) (st : Bool) (skip : Nat) (evs : List (Ev × Bool)) (hc : ∀ e ∈ evs, Clean e.1) :
    Inv (insert db room st skip evs).1 ∧ Ext db (insert db room st skip evs).1 ∧
    (insert db room st skip evs).1.rows = db.rows ++ (insert db room st skip evs).2 ∧
    (∀ r ∈ (insert db room st skip evs).2, db.seq < r.nid ∧ r.room = room ∧ r.isState = st ∧ r.before = 0 ∧ r.replaces = 0) ∧
    ((insert db room st skip evs).2.map (·.ev)).Sublist (evs.map (·.1)) ∧
    (∀ e ∈ evs, ∃ r ∈ (insert db room st skip evs).1.rows, r.ev.id = e.1.id) ∧
    (∀ r ∈ (insert db room st skip evs).2, (r.ev, r.missing) ∈ evs) ∧
    (insert db room st skip evs).1.snaps = db.snaps ∧ (insert db room st skip evs).1.sseq = db.sseq ∧
    (insert db room st skip evs).1.cur = db.cur ∧ (insert db room st skip evs).1.latest = db.latest := by
  obtain ⟨new, h1, h2, h3, h4, h5, h6, h7, h8, h9⟩ := insertLoop_spec room st evs db.rows (db.seq + skip)
  have hnew : (insert db room st skip evs).2 = new := by simp [insert, h1]
  have hrows : (insert db room st skip evs).1.rows = db.rows ++ new := by simp [insert, h1]
  have hseq : (insert db room st skip evs).1.seq = db.seq + skip + evs.length := by simp [insert, h2]
  have hcore : ∀ q ∈ db.rows ++ new, ∀ s ∈ db.snaps, q.nid ∈ s.nids → q ∈ db.rows := by
    intro q hq s hs hn
    rcases List.mem_append.1 hq with hq | hq
    · exact hq
    · obtain ⟨p, hp, hpn, _⟩ := hI.exist s hs _ hn
      have := (hI.range p hp).2; have := (h3 q hq).1; omega
  refine ⟨?_, ?_, by rw [hrows, hnew], ?_, by rw [hnew]; exact h5, by rw [hrows]; exact h8, by rw [hnew]; exact h9, rfl, rfl, rfl, rfl⟩
  · constructor
    · rw [hrows]
      refine List.pairwise_append.2 ⟨hI.asc, h4, fun a ha b hb => ?_⟩
      have := (hI.range a ha).2; have := (h3 b hb).1; omega
    · rw [hrows, hseq]
      intro r hr
      rcases List.mem_append.1 hr with hr | hr
      · have := hI.range r hr; omega
      · have := h3 r hr; omega
    · rw [hrows, List.map_append]
      refine List.nodup_append.2 ⟨hI.ids, h7, fun a ha b hb hab => ?_⟩
      obtain ⟨x, hx, rfl⟩ := List.mem_map.1 ha
      obtain ⟨y, hy, rfl⟩ := List.mem_map.1 hb
      exact h6 y hy x hx hab
    · rw [hrows]
      intro r hr
      rcases List.mem_append.1 hr with hr | hr
      · exact hI.clean r hr
      · exact hc _ (h9 r hr)
    · exact hI.srange
    · exact hI.sids
    · exact hI.nodup
    · intro s hs n hn
      obtain ⟨r, hr, hrn⟩ := hI.exist s hs n hn
      exact ⟨r, by rw [hrows]; exact List.mem_append_left _ hr, hrn⟩
    · rw [hrows]
      intro s hs r hr r' hr' hn hn' hk
      exact hI.keys s hs r (hcore r hr s hs hn) r' (hcore r' hr' s hs hn') hn hn' hk
    · rw [hrows]
      intro s hs r hr
      refine ⟨fun hn => (hI.mem s hs r (hcore r hr s hs ?_)).1 hn, fun hn => (hI.mem s hs r (hcore r hr s hs ?_)).2 hn⟩
      · exact List.mem_append_left _ hn
      · exact List.mem_append_right _ hn
  · refine ⟨⟨new.map Row.core, by rw [hrows, List.map_append], fun c hc => ?_⟩, ⟨[], by simp [insert]⟩, by rw [hseq]; omega, Nat.le_refl _⟩
    obtain ⟨r, hr, rfl⟩ := List.mem_map.1 hc
    have := (h3 r hr).1; simp only [Row.core]; omega
  · rw [hnew]
    intro r hr
    obtain ⟨a, b, c⟩ := h3 r hr
    exact ⟨by omega, c⟩

/-! ## Reading and writing snapshots -/

theorem stripped_spec {db : DB} (h : Inv db) {s : Snap} (hs : s ∈ db.snaps) :
    stripped db s.id = some (db.rows.filter fun r => decide (r.nid ∈ s.nids)) := by
  have hpos := (h.srange s hs).1
  have hf : db.snaps.find? (·.id = s.id) = some s := by
    cases hf : db.snaps.find? (·.id = s.id) with
    | none => have := List.find?_eq_none.1 hf s hs; simp at this
    | some t =>
      have h1 := List.find?_some hf
      rw [h.snap_unique (List.mem_of_find?_eq_some hf) hs (by simpa using h1)]
  simp only [stripped, selectSnap]
  rw [if_neg (by omega), hf]
  exact selectByNIDs_spec h.asc (h.nodup s hs) fun n hn => (h.exist s hs n hn).imp fun r hr => ⟨hr.1, hr.2.1⟩

theorem stripped_keys {db : DB} (h : Inv db) {s : Snap} (hs : s ∈ db.snaps) :
    (db.rows.filter fun r => decide (r.nid ∈ s.nids)).Pairwise fun a b => a.ev.key ≠ b.ev.key := by
  refine List.Pairwise.imp_of_mem ?_ (h.asc.filter _)
  intro a b ha hb hab hk
  simp only [List.mem_filter, decide_eq_true_eq] at ha hb
  have := h.keys s hs a ha.1 b hb.1 ha.2 hb.2 hk
  subst this; omega

private theorem nids_nodup {rows : List Row} (h : rows.Pairwise fun a b => a.nid < b.nid) {l : List Row} (hl : ∀ r ∈ l, r ∈ rows)
    (hk : l.Pairwise fun a b => a.ev.key ≠ b.ev.key) : (l.map (·.nid)).Nodup := by
  rw [List.Nodup, List.pairwise_map]
  refine List.Pairwise.imp_of_mem ?_ hk
  intro a b ha hb hab he
  exact hab (by rw [row_unique h (hl a ha) (hl b hb) he])

theorem insertSnap_spec {db : DB} (h : Inv db) (room : String) (l : List Row) (hl : ∀ r ∈ l, r ∈ db.rows ∧ r.room = room)
    (hk : l.Pairwise fun a b => a.ev.key ≠ b.ev.key) :
    Inv (insertSnap db room l).1 ∧ Ext db (insertSnap db room l).1 ∧ (insertSnap db room l).1.rows = db.rows ∧
    (insertSnap db room l).2 = db.sseq + 1 ∧
    (∃ s ∈ (insertSnap db room l).1.snaps, s.id = db.sseq + 1 ∧ s.room = room) ∧
    (∀ s ∈ (insertSnap db room l).1.snaps, s ∈ db.snaps ∨ (∀ n, n ∈ s.nids ↔ ∃ r ∈ l, r.nid = n)) ∧
    (∀ k id n, At (insertSnap db room l).1 (db.sseq + 1) k id n ↔ ∃ r ∈ l, r.ev.key = k ∧ r.ev.id = id ∧ r.nid = n) := by
  let s : Snap := ⟨db.sseq + 1, room, (l.filter (·.ev.type = "m.room.member")).map (·.nid),
    (l.filter (fun r => ¬ r.ev.type = "m.room.member")).map (·.nid)⟩
  have hsn : ∀ n, n ∈ s.nids ↔ ∃ r ∈ l, r.nid = n := by
    intro n
    simp only [s, Snap.nids, List.mem_append, List.mem_map, List.mem_filter]
    constructor
    · rintro (⟨r, ⟨hr, _⟩, hn⟩ | ⟨r, ⟨hr, _⟩, hn⟩) <;> exact ⟨r, hr, hn⟩
    · rintro ⟨r, hr, hn⟩
      by_cases ht : r.ev.type = "m.room.member"
      · exact Or.inl ⟨r, ⟨hr, by simp [ht]⟩, hn⟩
      · exact Or.inr ⟨r, ⟨hr, by simp [ht]⟩, hn⟩
  have hrow : ∀ r ∈ db.rows, r.nid ∈ s.nids → r ∈ l := by
    intro r hr hn
    obtain ⟨q, hq, hqn⟩ := (hsn _).1 hn
    rw [← row_unique h.asc (hl q hq).1 hr hqn]; exact hq
  have hsnaps : (insertSnap db room l).1.snaps = db.snaps ++ [s] := rfl
  have hlk : ∀ a ∈ l, ∀ b ∈ l, a.ev.key = b.ev.key → a = b := by
    clear hrow hsn hsnaps hl
    induction l with
    | nil => simp
    | cons x xs ih =>
      rw [List.pairwise_cons] at hk
      intro a ha b hb he
      rcases List.mem_cons.1 ha with ha' | ha' <;> rcases List.mem_cons.1 hb with hb' | hb'
      · rw [ha', hb']
      · subst ha'; exact absurd he (hk.1 b hb')
      · subst hb'; exact absurd he.symm (hk.1 a ha')
      · exact ih hk.2 a ha' b hb' he
  refine ⟨?_, ?_, rfl, rfl, ⟨s, by rw [hsnaps]; simp, rfl, rfl⟩, ?_, ?_⟩
  · constructor
    · exact h.asc
    · exact h.range
    · exact h.ids
    · exact h.clean
    · rw [hsnaps]
      intro t ht
      show 0 < t.id ∧ t.id ≤ db.sseq + 1
      rcases List.mem_append.1 ht with ht | ht
      · have := h.srange t ht; omega
      · simp only [List.mem_singleton] at ht; subst ht; exact ⟨by show 0 < db.sseq + 1; omega, Nat.le_refl _⟩
    · rw [hsnaps]
      refine List.pairwise_append.2 ⟨h.sids, by simp, fun a ha b hb => ?_⟩
      simp only [List.mem_singleton] at hb; subst hb
      have := (h.srange a ha).2
      show a.id < db.sseq + 1; omega
    · rw [hsnaps]
      intro t ht
      rcases List.mem_append.1 ht with ht | ht
      · exact h.nodup t ht
      · simp only [List.mem_singleton] at ht; subst ht
        simp only [s, Snap.nids]
        refine List.nodup_append.2 ⟨nids_nodup h.asc (fun r hr => (hl r (List.mem_filter.1 hr).1).1) (hk.filter _),
          nids_nodup h.asc (fun r hr => (hl r (List.mem_filter.1 hr).1).1) (hk.filter _), ?_⟩
        intro a ha b hb hab
        obtain ⟨x, hx, rfl⟩ := List.mem_map.1 ha
        obtain ⟨y, hy, rfl⟩ := List.mem_map.1 hb
        rw [List.mem_filter] at hx hy
        have := row_unique h.asc (hl x hx.1).1 (hl y hy.1).1 hab
        subst this
        have h1 := hx.2; have h2 := hy.2
        simp at h1 h2; exact h2 h1
    · rw [hsnaps]
      intro t ht n hn
      rcases List.mem_append.1 ht with ht | ht
      · exact h.exist t ht n hn
      · simp only [List.mem_singleton] at ht; subst ht
        obtain ⟨r, hr, hrn⟩ := (hsn n).1 hn
        exact ⟨r, (hl r hr).1, hrn, (hl r hr).2⟩
    · rw [hsnaps]
      intro t ht r hr r' hr' hn hn' hkk
      rcases List.mem_append.1 ht with ht | ht
      · exact h.keys t ht r hr r' hr' hn hn' hkk
      · simp only [List.mem_singleton] at ht; subst ht
        exact hlk r (hrow r hr hn) r' (hrow r' hr' hn') hkk
    · rw [hsnaps]
      intro t ht r hr
      rcases List.mem_append.1 ht with ht | ht
      · exact h.mem t ht r hr
      · simp only [List.mem_singleton] at ht; subst ht
        refine ⟨fun hn => ?_, fun hn => ?_⟩
        · obtain ⟨q, hq, hqn⟩ := List.mem_map.1 hn
          rw [List.mem_filter] at hq
          rw [← row_unique h.asc (hl q hq.1).1 hr hqn]; simpa using hq.2
        · obtain ⟨q, hq, hqn⟩ := List.mem_map.1 hn
          rw [List.mem_filter] at hq
          rw [← row_unique h.asc (hl q hq.1).1 hr hqn]; simpa using hq.2
  · exact ⟨⟨[], by simp [insertSnap]⟩, ⟨[s], hsnaps, by simp [s]⟩, Nat.le_refl _, by show db.sseq ≤ db.sseq + 1; omega⟩
  · rw [hsnaps]
    intro t ht
    rcases List.mem_append.1 ht with ht | ht
    · exact Or.inl ht
    · simp only [List.mem_singleton] at ht; subst ht; exact Or.inr hsn
  · intro k id n
    constructor
    · rintro ⟨t, ht, hid, r, hr, hn, hrest⟩
      rw [hsnaps] at ht
      rcases List.mem_append.1 ht with ht | ht
      · have := (h.srange t ht).2; omega
      · simp only [List.mem_singleton] at ht; subst ht
        exact ⟨r, hrow r hr hn, hrest⟩
    · rintro ⟨r, hr, hrest⟩
      exact ⟨s, by rw [hsnaps]; simp, rfl, r, (hl r hr).1, (hsn _).2 ⟨r, hr, rfl⟩, hrest⟩

theorem updateBefore_core (db : DB) (nid snap rep : Nat) : (updateBefore db nid snap rep).rows.map Row.core = db.rows.map Row.core := by
  simp only [updateBefore, List.map_map]
  refine List.map_congr_left fun r _ => ?_
  simp only [Function.comp]
  split <;> rfl

/-- A change that keeps the cores of the rows and the snapshots keeps the invariant. -/
theorem Inv.of_core {a b : DB} (h : Inv a) (hr : b.rows.map Row.core = a.rows.map Row.core) (hs : b.snaps = a.snaps)
    (h1 : b.seq = a.seq) (h2 : b.sseq = a.sseq) : Inv b := by
  have back : ∀ r ∈ b.rows, ∃ r' ∈ a.rows, r'.core = r.core := by
    intro r hrm
    have : r.core ∈ a.rows.map Row.core := hr ▸ List.mem_map_of_mem hrm
    obtain ⟨r', h3, h4⟩ := List.mem_map.1 this; exact ⟨r', h3, h4⟩
  have fwd : ∀ r ∈ a.rows, ∃ r' ∈ b.rows, r'.core = r.core := by
    intro r hrm
    have : r.core ∈ b.rows.map Row.core := hr ▸ List.mem_map_of_mem hrm
    obtain ⟨r', h3, h4⟩ := List.mem_map.1 this; exact ⟨r', h3, h4⟩
  have asc : b.rows.Pairwise fun a b => a.nid < b.nid := by
    have h3 : (b.rows.map Row.core).Pairwise fun x y => x.1 < y.1 := by
      rw [hr, List.pairwise_map]; exact h.asc
    rw [List.pairwise_map] at h3; exact h3
  constructor
  · exact asc
  · intro r hrm
    obtain ⟨r', h3, h4⟩ := back r hrm
    rw [← (core_eq h4).1, h1]; exact h.range r' h3
  · have : b.rows.map (·.ev.id) = a.rows.map (·.ev.id) := by
      have := congrArg (List.map fun c : Nat × String × Ev × Bool => c.2.2.1.id) hr
      simpa [List.map_map, Function.comp_def, Row.core] using this
    rw [this]; exact h.ids
  · intro r hrm
    obtain ⟨r', h3, h4⟩ := back r hrm
    rw [← (core_eq h4).2.2.1]; exact h.clean r' h3
  · rw [hs, h2]; exact h.srange
  · rw [hs]; exact h.sids
  · rw [hs]; exact h.nodup
  · rw [hs]
    intro s hsm n hn
    obtain ⟨r, h3, h4, h5⟩ := h.exist s hsm n hn
    obtain ⟨r', h6, h7⟩ := fwd r h3
    exact ⟨r', h6, (core_eq h7).1.trans h4, (core_eq h7).2.1.trans h5⟩
  · rw [hs]
    intro s hsm r hrm r' hrm' hn hn' hk
    obtain ⟨q, h3, h4⟩ := back r hrm
    obtain ⟨q', h3', h4'⟩ := back r' hrm'
    have := h.keys s hsm q h3 q' h3' ((core_eq h4).1 ▸ hn) ((core_eq h4').1 ▸ hn') (by rw [(core_eq h4).2.2.1, (core_eq h4').2.2.1]; exact hk)
    exact row_unique asc hrm hrm' (by rw [← (core_eq h4).1, ← (core_eq h4').1, this])
  · rw [hs]
    intro s hsm r hrm
    obtain ⟨q, h3, h4⟩ := back r hrm
    have := h.mem s hsm q h3
    rw [(core_eq h4).1, (core_eq h4).2.2.1] at this; exact this

theorem updateBefore_spec {db : DB} (h : Inv db) (nid snap rep : Nat) :
    Inv (updateBefore db nid snap rep) ∧ Ext db (updateBefore db nid snap rep) :=
  ⟨h.of_core (updateBefore_core db nid snap rep) rfl rfl rfl,
   ⟨⟨[], by rw [updateBefore_core]; simp⟩, ⟨[], by simp [updateBefore]⟩, Nat.le_refl _, Nat.le_refl _⟩⟩

end Verif.Store
