import Verif.StoreLemmas
/-!
# Rooms of rows and snapshots

For any upstream data, without the conditions of `OkOp`: a snapshot holds rows of its own room only, and the snapshots named by the rooms
table and by the rows of a room are of that room.
-/
namespace Verif.Store

/-- The snapshot with this number, if there is one, is of the room, and the number is not one to be given out. -/
def OfRoom (db : DB) (id : Nat) (room : String) : Prop := id ≤ db.sseq ∧ ∀ s ∈ db.snaps, s.id = id → s.room = room

/-- The row's number is that of a stored row of the room. -/
def Own (db : DB) (room : String) (r : Row) : Prop := ∃ q ∈ db.rows, q.nid = r.nid ∧ q.room = room

/-- What holds between the steps of a transaction. -/
structure Tables (db : DB) : Prop where
  asc : db.rows.Pairwise fun a b => a.nid < b.nid
  range : ∀ r ∈ db.rows, 0 < r.nid ∧ r.nid ≤ db.seq
  srange : ∀ s ∈ db.snaps, 0 < s.id ∧ s.id ≤ db.sseq
  sids : db.snaps.Pairwise fun a b => a.id < b.id
  exist : ∀ s ∈ db.snaps, ∀ n ∈ s.nids, ∃ q ∈ db.rows, q.nid = n ∧ q.room = s.room
  bef : ∀ r ∈ db.rows, OfRoom db r.before r.room

/-- What holds between transactions. -/
structure Rooms (db : DB) : Prop extends Tables db where
  cur : ∀ room, OfRoom db (db.cur room) room
  latest : ∀ room, db.latest room ≠ 0 → ∃ q ∈ db.rows, q.nid = db.latest room ∧ q.room = room

/-- Nothing of a room becomes another's. -/
structure Mono (a b : DB) : Prop where
  rows : ∀ q ∈ a.rows, ∃ q' ∈ b.rows, q'.nid = q.nid ∧ q'.room = q.room
  sr : ∀ i room, OfRoom a i room → OfRoom b i room

theorem Mono.trans {a b c : DB} (h : Mono a b) (h' : Mono b c) : Mono a c := by
  refine ⟨fun q hq => ?_, fun i r hr => h'.sr i r (h.sr i r hr)⟩
  obtain ⟨q1, m1, e1, f1⟩ := h.rows q hq
  obtain ⟨q2, m2, e2, f2⟩ := h'.rows q1 m1
  exact ⟨q2, m2, e2.trans e1, f2.trans f1⟩

theorem Mono.refl (a : DB) : Mono a a := ⟨fun q hq => ⟨q, hq, rfl, rfl⟩, fun _ _ h => h⟩

theorem Mono.own {a b : DB} (h : Mono a b) {room : String} {r : Row} (ho : Own a room r) : Own b room r := by
  obtain ⟨q, hq, e1, e2⟩ := ho
  obtain ⟨q', hq', f1, f2⟩ := h.rows q hq
  exact ⟨q', hq', f1.trans e1, f2.trans e2⟩

theorem Tables.insert {db : DB} (h : Tables db) (room : String) (st : Bool) (skip : Nat) (evs : List (Ev × Bool)) :
    Tables (insert db room st skip evs).1 ∧ Mono db (insert db room st skip evs).1 ∧
    ∀ r ∈ (insert db room st skip evs).2, r ∈ (insert db room st skip evs).1.rows ∧ r.room = room := by
  obtain ⟨new, h1, h2, h3, h4, -⟩ := insertLoop_spec room st evs db.rows (db.seq + skip)
  have hnew : (Store.insert db room st skip evs).2 = new := by simp [Store.insert, h1]
  have hrows : (Store.insert db room st skip evs).1.rows = db.rows ++ new := by simp [Store.insert, h1]
  have hseq : (Store.insert db room st skip evs).1.seq = db.seq + skip + evs.length := by simp [Store.insert, h2]
  have hsn : (Store.insert db room st skip evs).1.snaps = db.snaps := rfl
  have hss : (Store.insert db room st skip evs).1.sseq = db.sseq := rfl
  have hsr : ∀ i room', OfRoom db i room' → OfRoom (Store.insert db room st skip evs).1 i room' := fun i r hr => hr
  refine ⟨⟨?_, ?_, h.srange, h.sids, ?_, ?_⟩, ⟨?_, hsr⟩, ?_⟩
  · rw [hrows]
    refine List.pairwise_append.2 ⟨h.asc, h4, fun a ha b hb => ?_⟩
    have := (h.range a ha).2; have := (h3 b hb).1; omega
  · rw [hrows, hseq]
    intro r hr
    rcases List.mem_append.1 hr with hr | hr
    · have := h.range r hr; omega
    · have := h3 r hr; omega
  · intro s hs n hn
    obtain ⟨q, hq, e⟩ := h.exist s hs n hn
    exact ⟨q, by rw [hrows]; exact List.mem_append_left _ hq, e⟩
  · rw [hrows]
    intro r hr
    rcases List.mem_append.1 hr with hr | hr
    · exact hsr _ _ (h.bef r hr)
    · rw [(h3 r hr).2.2.2.2.1]
      refine ⟨Nat.zero_le _, fun s hs e => ?_⟩
      have := (h.srange s hs).1
      omega
  · intro q hq
    exact ⟨q, by rw [hrows]; exact List.mem_append_left _ hq, rfl, rfl⟩
  · rw [hnew, hrows]
    intro r hr
    exact ⟨List.mem_append_right _ hr, (h3 r hr).2.2.1⟩

theorem Tables.snap {db : DB} (h : Tables db) {room : String} {l : List Row} (hl : ∀ r ∈ l, Own db room r) :
    Tables (insertSnap db room l).1 ∧ Mono db (insertSnap db room l).1 ∧ OfRoom (insertSnap db room l).1 (insertSnap db room l).2 room := by
  have hsr : ∀ i room', OfRoom db i room' → OfRoom (insertSnap db room l).1 i room' := by
    intro i room' hr
    refine ⟨Nat.le_succ_of_le hr.1, fun s hs e => ?_⟩
    rcases List.mem_append.1 hs with hs | hs
    · exact hr.2 s hs e
    · rw [List.mem_singleton.1 hs] at e
      have e : db.sseq + 1 = i := e
      have := hr.1
      omega
  refine ⟨⟨h.asc, h.range, ?_, ?_, ?_, fun r hr => hsr _ _ (h.bef r hr)⟩, ⟨fun q hq => ⟨q, hq, rfl, rfl⟩, hsr⟩, Nat.le_refl _, ?_⟩
  · intro s hs
    rcases List.mem_append.1 hs with hs | hs
    · have := h.srange s hs
      exact ⟨this.1, Nat.le_succ_of_le this.2⟩
    · rw [List.mem_singleton.1 hs]
      exact ⟨Nat.succ_pos _, Nat.le_refl _⟩
  · refine List.pairwise_append.2 ⟨h.sids, List.pairwise_singleton _ _, fun a ha b hb => ?_⟩
    rw [List.mem_singleton.1 hb]
    exact Nat.lt_succ_of_le (h.srange a ha).2
  · intro s hs n hn
    rcases List.mem_append.1 hs with hs | hs
    · exact h.exist s hs n hn
    · rw [List.mem_singleton.1 hs] at hn ⊢
      have : ∃ r ∈ l, r.nid = n := by
        rcases List.mem_append.1 hn with hn | hn <;> obtain ⟨r, hr, e⟩ := List.mem_map.1 hn <;>
          exact ⟨r, (List.mem_filter.1 hr).1, e⟩
      obtain ⟨r, hr, e⟩ := this
      obtain ⟨q, hq, e1, e2⟩ := hl r hr
      exact ⟨q, hq, e1.trans e, e2⟩
  · intro s hs e
    rcases List.mem_append.1 hs with hs | hs
    · have := (h.srange s hs).2
      have e : s.id = db.sseq + 1 := e
      omega
    · rw [List.mem_singleton.1 hs]

theorem Tables.before {db : DB} (h : Tables db) {nid snap rep : Nat} (hs : ∀ r ∈ db.rows, r.nid = nid → OfRoom db snap r.room) :
    Tables (updateBefore db nid snap rep) ∧ Mono db (updateBefore db nid snap rep) := by
  have hf : ∀ q : Row, (if q.nid = nid then { q with before := snap, replaces := rep } else q).nid = q.nid ∧
      (if q.nid = nid then { q with before := snap, replaces := rep } else q).room = q.room := by
    intro q; split <;> exact ⟨rfl, rfl⟩
  have hfwd : ∀ q ∈ db.rows, ∃ q' ∈ (updateBefore db nid snap rep).rows, q'.nid = q.nid ∧ q'.room = q.room :=
    fun q hq => ⟨_, List.mem_map_of_mem hq, hf q⟩
  refine ⟨⟨?_, ?_, h.srange, h.sids, ?_, ?_⟩, hfwd, fun _ _ h => h⟩
  · show (db.rows.map _).Pairwise _
    rw [List.pairwise_map]
    refine h.asc.imp fun {a b} hab => ?_
    rw [(hf a).1, (hf b).1]; exact hab
  · intro r hr
    obtain ⟨q, hq, rfl⟩ := List.mem_map.1 hr
    rw [(hf q).1]; exact h.range q hq
  · intro s hs n hn
    obtain ⟨q, hq, e1, e2⟩ := h.exist s hs n hn
    obtain ⟨q', hq', f1, f2⟩ := hfwd q hq
    exact ⟨q', hq', f1.trans e1, f2.trans e2⟩
  · intro r hr
    obtain ⟨q, hq, rfl⟩ := List.mem_map.1 hr
    rw [(hf q).2]
    by_cases hn : q.nid = nid
    · rw [if_pos hn]; exact hs q hq hn
    · rw [if_neg hn]; exact h.bef q hq

theorem Tables.stripped {db : DB} (h : Tables db) {id : Nat} {room : String} (hr : OfRoom db id room) {l : List Row}
    (hl : stripped db id = some l) : ∀ r ∈ l, Own db room r := by
  unfold Store.stripped selectSnap at hl
  split at hl
  · cases hl
  · rename_i s hs
    split at hs
    · cases hs
    · have hm := List.mem_of_find?_eq_some hs
      have hid : s.id = id := by simpa using List.find?_some hs
      unfold selectByNIDs at hl
      dsimp only at hl
      split at hl
      · cases hl
      · cases hl
        intro r hr'
        have hn : r.nid ∈ s.nids := by simpa using (List.mem_filter.1 hr').2
        obtain ⟨q, hq, e1, e2⟩ := h.exist s hm r.nid hn
        exact ⟨q, hq, e1, e2.trans (hr.2 s hm hid)⟩

theorem rollLoop_mem (new : Row) : ∀ (old : List Row) (seen : List String) {r : List Row} {a : Bool} {n : Nat},
    rollLoop new seen old = some (r, a, n) → ∀ x ∈ r, x = new ∨ x ∈ old
  | [], seen, r, a, n, h => by
    simp only [rollLoop, Option.some.injEq, Prod.mk.injEq] at h
    rw [← h.1]; intro x hx; cases hx
  | e :: es, seen, r, a, n, h => by
    rw [rollLoop] at h
    split at h
    · cases h
    · split at h
      · cases h
      · split at h
        · cases h
        · rename_i r' a' n' h'
          have ih := rollLoop_mem new es _ h'
          split at h <;> simp only [Option.some.injEq, Prod.mk.injEq] at h <;> rw [← h.1] <;> intro x hx <;>
            rcases List.mem_cons.1 hx with hx | hx
          · exact .inl hx
          · exact (ih x hx).imp id fun h => List.mem_cons_of_mem _ h
          · exact .inr (hx ▸ List.mem_cons_self)
          · exact (ih x hx).imp id fun h => List.mem_cons_of_mem _ h

theorem roll_mem {old : List Row} {new : Row} {r : List Row} {n : Nat} (h : roll old new = some (r, n)) : ∀ x ∈ r, x = new ∨ x ∈ old := by
  unfold roll at h
  split at h
  · cases h
  · rename_i r' a n' h'
    have := rollLoop_mem new old [] h'
    simp only [Option.some.injEq, Prod.mk.injEq] at h
    rw [← h.1]
    intro x hx
    split at hx
    · exact this x hx
    · rcases List.mem_append.1 hx with hx | hx
      · exact this x hx
      · exact .inl (List.mem_singleton.1 hx)

theorem foldl_ingest_mem : ∀ (l m : List Row), ∀ x ∈ l.foldl ingest m, x ∈ m ∨ x ∈ l
  | [], _, _, h => .inl h
  | a :: l, m, x, h => by
    rcases foldl_ingest_mem l (ingest m a) x h with h | h
    · unfold ingest at h
      rcases List.mem_append.1 h with h | h
      · exact .inl (List.mem_filter.1 h).1
      · exact .inr (List.mem_singleton.1 h ▸ List.mem_cons_self)
    · exact .inr (List.mem_cons_of_mem _ h)

theorem accStep_rooms {st st' : DB × Nat} {ev : Row} {room : String} (h : Tables st.1) (hs : OfRoom st.1 st.2 room)
    (hev : Own st.1 room ev) (hroom : ev.room = room) (e : accStep st ev = some st') :
    Tables st'.1 ∧ Mono st.1 st'.1 ∧ OfRoom st'.1 st'.2 room := by
  have same : ∀ {db : DB}, Tables db → Own db room ev → ∀ r ∈ db.rows, r.nid = ev.nid → r.room = room := by
    intro db ht ⟨q, hq, e1, e2⟩ r hr hn
    rw [row_unique ht.asc hr hq (hn.trans e1.symm)]; exact e2
  unfold accStep at e
  split at e
  · split at e
    · cases e
    · rename_i old hold
      split at e
      · cases e
      · rename_i new rep hroll
        simp only [Option.some.injEq] at e
        subst e
        have holdOwn : ∀ r ∈ old, Own st.1 room r := by
          split at hold
          · exact h.stripped hs hold
          · simp only [Option.some.injEq] at hold
            rw [← hold]; intro r hr; cases hr
        have hnew : ∀ r ∈ new, Own st.1 ev.room r := by
          intro r hr
          rw [hroom]
          rcases roll_mem hroll r hr with rfl | hr
          · exact hev
          · exact holdOwn r hr
        obtain ⟨t1, m1, o1⟩ := h.snap hnew
        have hb : ∀ r ∈ (insertSnap st.1 ev.room new).1.rows, r.nid = ev.nid → OfRoom (insertSnap st.1 ev.room new).1 st.2 r.room := by
          intro r hr hn
          rw [same t1 (m1.own hev) r hr hn]
          exact m1.sr _ _ hs
        obtain ⟨t2, m2⟩ := t1.before (rep := rep) hb
        exact ⟨t2, m1.trans m2, hroom ▸ m2.sr _ _ o1⟩
  · simp only [Option.some.injEq] at e
    subst e
    obtain ⟨t2, m2⟩ := h.before (nid := ev.nid) (snap := st.2) (rep := 0) fun r hr hn => (same h hev r hr hn).symm ▸ hs
    exact ⟨t2, m2, m2.sr _ _ hs⟩

theorem accLoop_rooms {room : String} : ∀ (l : List Row) {st st' : DB × Nat}, Tables st.1 → OfRoom st.1 st.2 room →
    (∀ r ∈ l, Own st.1 room r ∧ r.room = room) → accLoop st l = some st' → Tables st'.1 ∧ Mono st.1 st'.1 ∧ OfRoom st'.1 st'.2 room
  | [], st, st', h, hs, _, e => by
    simp only [accLoop, Option.some.injEq] at e
    subst e
    exact ⟨h, Mono.refl _, hs⟩
  | ev :: l, st, st', h, hs, hl, e => by
    simp only [accLoop] at e
    cases h1 : accStep st ev with
    | none => rw [h1] at e; cases e
    | some s1 =>
      rw [h1] at e
      obtain ⟨t1, m1, o1⟩ := accStep_rooms h hs (hl ev List.mem_cons_self).1 (hl ev List.mem_cons_self).2 h1
      obtain ⟨t2, m2, o2⟩ := accLoop_rooms l t1 o1
        (fun r hr => ⟨m1.own (hl r (List.mem_cons_of_mem _ hr)).1, (hl r (List.mem_cons_of_mem _ hr)).2⟩) e
      exact ⟨t2, m1.trans m2, o2⟩

/-- The number a fold of maxima ends with is one of the list or the one it began with. -/
theorem foldl_max_of (l : List Nat) : ∀ a, l.foldl max a = a ∨ l.foldl max a ∈ l := by
  induction l with
  | nil => intro a; exact .inl rfl
  | cons b l ih =>
    intro a
    rw [List.foldl_cons]
    rcases ih (max a b) with h | h
    · rw [h]
      rcases Nat.le_total a b with hab | hab
      · rw [Nat.max_eq_right hab]; exact .inr List.mem_cons_self
      · rw [Nat.max_eq_left hab]; exact .inl rfl
    · exact .inr (List.mem_cons_of_mem _ h)

/-- The rooms table after a transaction. -/
theorem Rooms.close {a b : DB} (h : Rooms a) (t : Tables b) (m : Mono a b) {room : String} {snap : Nat} (hs : OfRoom b snap room)
    {l : List Row} (hl : ∀ r ∈ l, Own b room r) : Rooms { b with
      cur := fun r => if r = room then snap else a.cur r
      latest := fun r => if r = room then (l.map (·.nid)).foldl max 0 else a.latest r } := by
  refine ⟨⟨t.asc, t.range, t.srange, t.sids, t.exist, t.bef⟩, ?_, ?_⟩
  · intro r
    show OfRoom b (if r = room then snap else a.cur r) r
    by_cases e : r = room
    · rw [if_pos e, e]; exact hs
    · rw [if_neg e]; exact m.sr _ _ (h.cur r)
  · intro r hne
    dsimp only at hne ⊢
    by_cases e : r = room
    · rw [if_pos e] at hne ⊢
      rcases foldl_max_of (l.map (·.nid)) 0 with hz | hm
      · exact absurd hz hne
      · obtain ⟨x, hx, ex⟩ := List.mem_map.1 hm
        obtain ⟨q, hq, e1, e2⟩ := hl x hx
        exact ⟨q, hq, e1.trans ex, e2.trans e.symm⟩
    · rw [if_neg e] at hne ⊢
      obtain ⟨q, hq, e1, e2⟩ := h.latest r hne
      obtain ⟨q', hq', f1, f2⟩ := m.rows q hq
      exact ⟨q', hq', f1.trans e1, f2.trans e2⟩

/-- After a transaction that only inserted. -/
theorem Rooms.insert {db : DB} (h : Rooms db) (room : String) (st : Bool) (skip : Nat) (evs : List (Ev × Bool)) :
    Rooms (insert db room st skip evs).1 := by
  obtain ⟨t, m, -⟩ := h.toTables.insert room st skip evs
  refine ⟨t, fun r => m.sr _ _ (h.cur r), fun r hr => ?_⟩
  obtain ⟨q, hq, e1, e2⟩ := h.latest r hr
  obtain ⟨q', hq', f1, f2⟩ := m.rows q hq
  exact ⟨q', hq', f1.trans e1, f2.trans e2⟩

theorem Rooms.init {db db' : DB} (h : Rooms db) {room : String} {skip : Nat} {block : List (Option Ev)}
    (e : initialise db room skip block = some db') : Rooms db' := by
  unfold initialise at e
  split at e
  · cases e; exact h
  · dsimp only at e
    split at e
    · cases e
    · split at e
      · cases e
      · split at e
        · cases e; exact h.insert _ _ _ _
        · obtain ⟨t, m, hn⟩ := h.toTables.insert room true skip ((block.filterMap id).map fun e => (e, false))
          split at e
          · cases e
          · rename_i cur hcur
            cases e
            have hc : ∀ r ∈ cur, Own (Store.insert db room true skip ((block.filterMap id).map fun e => (e, false))).1 room r := by
              split at hcur
              · obtain ⟨l, hl, rfl⟩ := Option.map_eq_some_iff.1 hcur
                intro r hr
                rcases foldl_ingest_mem l [] r hr with hr | hr
                · cases hr
                · exact t.stripped (m.sr _ _ (h.cur room)) hl r hr
              · simp only [Option.some.injEq] at hcur
                rw [← hcur]; intro r hr; cases hr
            have hall : ∀ r ∈ ((block.filterMap id).filterMap fun e =>
                ((Store.insert db room true skip ((block.filterMap id).map fun e => (e, false))).2.find? (·.ev.id = e.id)).map fun r =>
                  { r with ev := e }).foldl ingest cur, Own (Store.insert db room true skip ((block.filterMap id).map fun e => (e, false))).1 room r := by
              intro r hr
              rcases foldl_ingest_mem _ _ r hr with hr | hr
              · exact hc r hr
              · obtain ⟨ev, -, hr⟩ := List.mem_filterMap.1 hr
                obtain ⟨q, hq, rfl⟩ := Option.map_eq_some_iff.1 hr
                have := hn q (List.mem_of_find?_eq_some hq)
                exact ⟨q, this.1, rfl, this.2⟩
            obtain ⟨t2, m2, o2⟩ := t.snap hall
            exact h.close t2 (m.trans m2) o2 fun r hr => m2.own (hall r hr)

theorem Rooms.acc {db db' : DB} (h : Rooms db) {room : String} {skip : Nat} {limited : Bool} {timeline : List (Option Ev)} {post : List Row}
    (e : accumulate db room skip limited timeline = some (db', post)) : Rooms db' := by
  unfold accumulate at e
  dsimp only at e
  split at e
  · cases e; exact h
  · rename_i first _ _
    split at e
    · cases e; exact h
    · split at e
      · cases e; exact h.insert _ _ _ _
      · split at e
        · cases e
        · rename_i hloop
          cases e
          obtain ⟨t, m, hn⟩ := h.toTables.insert room false skip ((filterNew db (dedup [] timeline)).map fun e => (e, missingPrevious limited (dedup [] timeline) first e))
          have hpost : ∀ r ∈ (filterNew db (dedup [] timeline)).filterMap fun e => (Store.insert db room false skip
              ((filterNew db (dedup [] timeline)).map fun e => (e, missingPrevious limited (dedup [] timeline) first e))).2.find? (·.ev.id = e.id),
              Own (Store.insert db room false skip ((filterNew db (dedup [] timeline)).map fun e => (e, missingPrevious limited (dedup [] timeline) first e))).1 room r ∧ r.room = room := by
            intro r hr
            obtain ⟨ev, -, hr⟩ := List.mem_filterMap.1 hr
            have := hn r (List.mem_of_find?_eq_some hr)
            exact ⟨⟨r, this.1, rfl, this.2⟩, this.2⟩
          obtain ⟨t2, m2, o2⟩ := accLoop_rooms _ t (m.sr _ _ (h.cur room)) hpost hloop
          exact h.close t2 (m.trans m2) o2 fun r hr => m2.own (hpost r hr).1

theorem Rooms.empty : Rooms {} := by
  refine ⟨⟨List.Pairwise.nil, ?_, ?_, List.Pairwise.nil, ?_, ?_⟩, ?_, ?_⟩
  · intro r hr; cases hr
  · intro r hr; cases hr
  · intro r hr; cases hr
  · intro r hr; cases hr
  · intro room; exact ⟨Nat.le_refl _, fun s hs => by cases hs⟩
  · intro room h; exact absurd rfl h

theorem run_rooms (ops : List Op) : Rooms (run ops) := by
  have : ∀ (ops : List Op) (db : DB), Rooms db → Rooms (ops.foldl step db) := by
    intro ops
    induction ops with
    | nil => exact fun db h => h
    | cons o ops ih =>
      intro db h
      refine ih _ ?_
      cases o with
      | init r k b =>
        show Rooms ((initialise db r k b).getD db)
        cases e : initialise db r k b with
        | none => exact h
        | some db' => exact h.init e
      | acc r k l t =>
        show Rooms (((accumulate db r k l t).map (·.1)).getD db)
        cases e : accumulate db r k l t with
        | none => exact h
        | some p => exact h.acc (db' := p.1) (post := p.2) e
  exact this ops {} Rooms.empty

end Verif.Store
