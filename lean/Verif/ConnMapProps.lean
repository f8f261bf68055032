import Verif.ConnMap
/-! # C19: isolation and closing of connections -/
namespace Verif.ConnMap

theorem append_cons_inj {α : Type _} {x : α} : ∀ {l1 l2 r1 r2 : List α}, x ∉ l1 → x ∉ l2 →
    l1 ++ x :: r1 = l2 ++ x :: r2 → l1 = l2 ∧ r1 = r2
  | [], [], _, _, _, _, h => by simpa using h
  | [], b :: l2, _, _, _, h2, h => by
    simp only [List.nil_append, List.cons_append, List.cons.injEq] at h
    exact absurd (by simp [h.1]) h2
  | a :: l1, [], _, _, h1, _, h => by
    simp only [List.nil_append, List.cons_append, List.cons.injEq] at h
    exact absurd (by simp [h.1]) h1
  | a :: l1, b :: l2, r1, r2, h1, h2, h => by
    simp only [List.cons_append, List.cons.injEq] at h
    have := append_cons_inj (l1 := l1) (l2 := l2) (fun hm => h1 (by simp [hm])) (fun hm => h2 (by simp [hm])) h.2
    exact ⟨by rw [h.1, this.1], this.2⟩

/-- Identifiers without the separator. -/
def CID.Clean (c : CID) : Prop := '|' ∉ c.user.toList ∧ '|' ∉ c.device.toList

theorem key_inj {a b : CID} (ha : a.Clean) (hb : b.Clean) (h : a.key = b.key) : a = b := by
  unfold CID.key at h
  have h' := congrArg String.toList h
  simp only [String.toList_append] at h'
  have hbar : "|".toList = ['|'] := by decide
  rw [hbar] at h'
  simp only [List.append_assoc, List.cons_append, List.nil_append] at h'
  obtain ⟨e1, e2⟩ := append_cons_inj ha.1 hb.1 h'
  obtain ⟨e3, e4⟩ := append_cons_inj ha.2 hb.2 e2
  cases a; cases b
  simp only [CID.mk.injEq]
  exact ⟨String.toList_inj.1 e1, String.toList_inj.1 e3, String.toList_inj.1 e4⟩

/-- Invariant of every reachable state. -/
structure Inv (s : State) : Prop where
  keyed : ∀ p ∈ s.cache, p.1 = p.2.cid.key ∧ p.2.id < s.next
  keys : (s.cache.map (·.1)).Nodup
  ids : (s.cache.map (·.2.id)).Nodup
  pend : ∀ c ∈ s.pending, c.id < s.next ∧ ∀ p ∈ s.cache, p.2.id ≠ c.id
  dest : ∀ p ∈ s.cache, p.2.id ∈ s.destroyed → p.2.id ∈ s.dead
  destlt : ∀ i ∈ s.destroyed, i < s.next

theorem lookup_mem {l : List (String × Conn)} {k : String} {c : Conn} (h : l.lookup k = some c) : (k, c) ∈ l := by
  induction l with
  | nil => cases h
  | cons p l ih =>
    rw [List.lookup_cons] at h
    by_cases hk : k = p.1
    · have : (k == p.1) = true := by simpa using hk
      rw [this] at h
      simp only [Option.some.injEq] at h
      subst h; subst hk; simp
    · have : (k == p.1) = false := by simpa using hk
      rw [this] at h
      simp [ih h]

theorem mem_lookup {l : List (String × Conn)} {k : String} {c : Conn} (hn : (l.map (·.1)).Nodup)
    (h : (k, c) ∈ l) : l.lookup k = some c := by
  induction l with
  | nil => cases h
  | cons p l ih =>
    rw [List.lookup_cons]
    simp only [List.map_cons, List.nodup_cons] at hn
    rcases List.mem_cons.1 h with rfl | h
    · simp
    · have : k ≠ p.1 := by
        rintro rfl
        exact hn.1 (List.mem_map.2 ⟨_, h, rfl⟩)
      have : (k == p.1) = false := by simpa using this
      rw [this]
      exact ih hn.2 h

theorem inj_of_nodup_map {α β : Type _} {f : α → β} : ∀ {l : List α}, (l.map f).Nodup →
    ∀ {a b : α}, a ∈ l → b ∈ l → f a = f b → a = b
  | [], _, _, _, h, _, _ => by cases h
  | x :: l, hn, a, b, ha, hb, hf => by
    simp only [List.map_cons, List.nodup_cons] at hn
    rw [List.mem_cons] at ha hb
    rcases ha with ha | ha
    · rcases hb with hb | hb
      · rw [ha, hb]
      · exact absurd (List.mem_map.2 ⟨b, hb, by rw [← hf, ha]⟩) hn.1
    · rcases hb with hb | hb
      · exact absurd (List.mem_map.2 ⟨a, ha, by rw [hf, hb]⟩) hn.1
      · exact inj_of_nodup_map hn.2 ha hb hf

theorem inv_close_dead {s : State} (h : Inv s) {c : Conn} (hlt : c.id < s.next)
    (hc : ∀ p ∈ s.cache, p.2.id = c.id → c.id ∈ s.dead) : Inv (closeConn s c) := by
  obtain ⟨h1, h2, h3, h4, h5, h6⟩ := h
  refine ⟨h1, h2, h3, h4, ?_, ?_⟩
  · intro p hp hd
    rcases List.mem_cons.1 hd with hd | hd
    · have := hc p hp hd
      simp only [closeConn]
      rw [hd]; exact this
    · exact h5 p hp hd
  · intro i hi
    rcases List.mem_cons.1 hi with rfl | hi
    · exact hlt
    · exact h6 i hi

theorem inv_getConn {s : State} (h : Inv s) (cid : CID) : Inv (getConn s cid).1 := by
  unfold getConn
  split
  · exact h
  · rename_i c hl
    split
    · rename_i hd
      exact inv_close_dead h (h.keyed _ (lookup_mem hl)).2 (fun _ _ _ => hd)
    · exact h

theorem nodup_filter_map {γ : Type _} (f : String × Conn → γ) (q : String × Conn → Bool) {l : List (String × Conn)}
    (h : (l.map f).Nodup) : ((l.filter q).map f).Nodup :=
  h.sublist (List.filter_sublist.map f)

theorem inv_create {s : State} (h : Inv s) (cid : CID) : Inv (createConn s cid) := by
  -- state before the new connection is stored: cached entries with another key are fine
  have key : ∀ t : State, (∀ p ∈ t.cache, p.1 = p.2.cid.key ∧ p.2.id < t.next) → (t.cache.map (·.1)).Nodup →
      (t.cache.map (·.2.id)).Nodup → (∀ c ∈ t.pending, c.id < t.next ∧ ∀ p ∈ t.cache, p.2.id ≠ c.id) →
      (∀ p ∈ t.cache, p.1 ≠ cid.key → p.2.id ∈ t.destroyed → p.2.id ∈ t.dead) →
      (∀ i ∈ t.destroyed, i < t.next) →
      Inv { t with
        cache := (cid.key, ⟨t.next, cid⟩) :: t.cache.filter (fun p => p.1 ≠ cid.key)
        userConns := t.userConns ++ [⟨t.next, cid⟩]
        created := t.created ++ [⟨t.next, cid⟩]
        next := t.next + 1 } := by
    intro t h1 h2 h3 h4 h5 h6
    refine ⟨?_, ?_, ?_, ?_, ?_, ?_⟩
    · intro p hp
      rcases List.mem_cons.1 hp with rfl | hp
      · exact ⟨rfl, by simp⟩
      · have := h1 p (List.mem_filter.1 hp).1
        exact ⟨this.1, by simp only; omega⟩
    · simp only [List.map_cons, List.nodup_cons]
      refine ⟨?_, nodup_filter_map _ _ h2⟩
      intro hm
      obtain ⟨p, hp, hpk⟩ := List.mem_map.1 hm
      have := (List.mem_filter.1 hp).2
      simp only [ne_eq, decide_eq_true_eq] at this
      exact this hpk
    · simp only [List.map_cons, List.nodup_cons]
      refine ⟨?_, nodup_filter_map _ _ h3⟩
      intro hm
      obtain ⟨p, hp, hpk⟩ := List.mem_map.1 hm
      have := h1 p (List.mem_filter.1 hp).1
      omega
    · intro c hc
      have := h4 c hc
      refine ⟨by simp only; omega, ?_⟩
      intro p hp
      rcases List.mem_cons.1 hp with rfl | hp
      · simp only; omega
      · exact this.2 p (List.mem_filter.1 hp).1
    · intro p hp hd
      rcases List.mem_cons.1 hp with rfl | hp
      · have := h6 _ hd; simp at this
      · have hp' := List.mem_filter.1 hp
        exact h5 p hp'.1 (by simpa using hp'.2) hd
    · intro i hi
      have := h6 i hi
      simp only; omega
  unfold createConn
  have hg := inv_getConn h cid
  cases hgc : getConn s cid with
  | mk s1 r =>
    rw [hgc] at hg
    cases r with
    | none =>
      exact key s1 hg.keyed hg.keys hg.ids hg.pend (fun p hp _ => hg.dest p hp) hg.destlt
    | some c =>
      have hs : s1 = s ∧ s.cache.lookup cid.key = some c := by
        unfold getConn at hgc
        split at hgc
        · cases hgc
        · split at hgc
          · cases hgc
          · rename_i hl _; cases hgc; exact ⟨rfl, hl⟩
      obtain ⟨rfl, hl⟩ := hs
      have hm := lookup_mem hl
      refine key (closeConn s1 c) hg.keyed hg.keys hg.ids hg.pend ?_ ?_
      · intro p hp hk hd
        rcases List.mem_cons.1 hd with hd | hd
        · exfalso
          apply hk
          have : p = (cid.key, c) := by
            have hinj := inj_of_nodup_map hg.ids hp hm hd
            exact hinj
          rw [this]
        · exact hg.dest p hp hd
      · intro i hi
        rcases List.mem_cons.1 hi with rfl | hi
        · exact (hg.keyed _ hm).2
        · exact hg.destlt i hi

theorem inv_removeKey {s : State} (h : Inv s) (k : String) : Inv (removeKey s k) := by
  unfold removeKey
  split
  · exact h
  · rename_i c hl
    have hm := lookup_mem hl
    obtain ⟨h1, h2, h3, h4, h5, h6⟩ := h
    refine ⟨fun p hp => h1 p (List.mem_filter.1 hp).1, nodup_filter_map _ _ h2, nodup_filter_map _ _ h3, ?_,
      fun p hp => h5 p (List.mem_filter.1 hp).1, h6⟩
    intro x hx
    rcases List.mem_append.1 hx with hx | hx
    · exact ⟨(h4 x hx).1, fun p hp => (h4 x hx).2 p (List.mem_filter.1 hp).1⟩
    · simp only [List.mem_singleton] at hx
      subst hx
      refine ⟨(h1 _ hm).2, ?_⟩
      intro p hp he
      have hp' := List.mem_filter.1 hp
      have : p = (k, x) := inj_of_nodup_map h3 hp'.1 hm he
      rw [this] at hp'
      simp at hp'

theorem inv_foldl_remove {s : State} (h : Inv s) (ks : List String) : Inv (ks.foldl removeKey s) := by
  induction ks generalizing s with
  | nil => exact h
  | cons k ks ih => exact ih (inv_removeKey h k)

theorem inv_callback {s : State} (h : Inv s) (i : Nat) : Inv (callback s i) := by
  unfold callback
  split
  · exact h
  · rename_i c hc
    have hm := List.mem_of_getElem? hc
    have hp := h.pend c hm
    apply inv_close_dead (s := { s with pending := s.pending.eraseIdx i })
    · exact ⟨h.keyed, h.keys, h.ids, fun x hx => h.pend x (List.mem_of_mem_eraseIdx hx), h.dest, h.destlt⟩
    · exact hp.1
    · intro p hp' he
      exact absurd he (hp.2 p hp')

theorem inv_step {s : State} (h : Inv s) (o : Op) : Inv (step s o) := by
  cases o with
  | create c => exact inv_create h c
  | lookup c => exact inv_getConn h c
  | die id =>
    simp only [step]
    split
    · refine ⟨h.keyed, h.keys, h.ids, h.pend, fun p hp hd => ?_, h.destlt⟩
      exact List.mem_cons_of_mem _ (h.dest p hp hd)
    · exact h
  | expire k => exact inv_removeKey h k
  | closeDevice u d => exact inv_foldl_remove h _
  | closeUsers us =>
    simp only [step, closeUsers]
    induction us generalizing s with
    | nil => exact h
    | cons u us ih => exact ih (inv_foldl_remove h _)
  | callback i => exact inv_callback h i

theorem inv_run (ops : List Op) : Inv (run ops) := by
  unfold run
  suffices ∀ s, Inv s → Inv (ops.foldl step s) from this _ ⟨by simp, by simp, by simp, by simp, by simp, by simp⟩
  induction ops with
  | nil => intro s h; exact h
  | cons o ops ih => intro s h; exact ih _ (inv_step h o)

/-- C19 (a). A lookup never returns a connection created for another triple,
nor a destroyed or dead connection, in any interleaving of operations, expiry
and delayed callbacks. -/
theorem C19_lookup_isolated (ops : List Op) (cid : CID) (c : Conn)
    (h : (getConn (run ops) cid).2 = some c) :
    (cid.Clean → c.cid.Clean → c.cid = cid) ∧ c.cid.key = cid.key ∧
    c.id ∉ (run ops).destroyed ∧ c.id ∉ (run ops).dead := by
  have hi := inv_run ops
  unfold getConn at h
  split at h
  · cases h
  · rename_i c' hl
    split at h
    · cases h
    · rename_i hnd
      cases h
      have hm := lookup_mem hl
      have hk := (hi.keyed _ hm).1
      refine ⟨fun h1 h2 => (key_inj h1 h2 hk).symm, hk.symm, ?_, hnd⟩
      intro hd
      exact hnd (hi.dest _ hm hd)

example : (getConn (run [.create ⟨"@a:x", "D", ""⟩, .create ⟨"@b:x", "D", ""⟩]) ⟨"@a:x", "D", ""⟩).2 =
    some ⟨0, ⟨"@a:x", "D", ""⟩⟩ := by decide +kernel

/-! ## Closing -/

/-- Additional invariant when callbacks run promptly. -/
structure PInv (s : State) : Prop where
  inv : Inv s
  none : s.pending = []
  cached : ∀ c ∈ s.userConns, (c.cid.key, c) ∈ s.cache
  alive : ∀ c ∈ s.created, c.id ∉ s.destroyed → c ∈ s.userConns
  nodest : ∀ c ∈ s.userConns, c.id ∉ s.destroyed
  made : ∀ c ∈ s.userConns, c ∈ s.created
  lt : ∀ c ∈ s.created, c.id < s.next
  uniq : ∀ c ∈ s.created, ∀ d ∈ s.created, c.id = d.id → c = d
  cmade : ∀ p ∈ s.cache, p.2 ∈ s.created

theorem filter_self_ne (x c : Conn) :
    (!(decide (x.cid.user = c.cid.user) && (decide (x.cid.device = c.cid.device) && decide (x.cid.cid = c.cid.cid)))) = true
      ↔ x.cid ≠ c.cid := by
  cases hx : x.cid; cases hc : c.cid
  simp only [Bool.not_eq_true', Bool.and_eq_false_iff, decide_eq_false_iff_not, ne_eq, CID.mk.injEq, not_and]
  constructor
  · rintro (h | h | h) h1 h2 h3
    · exact h h1
    · exact h h2
    · exact h h3
  · intro h
    grind

/-- The weaker facts that hold while callbacks are being run: the pending
connections still have to be closed. -/
structure QInv (s : State) (todo : List Conn) : Prop where
  keys : (s.cache.map (·.1)).Nodup
  cached : ∀ c ∈ s.userConns, (c.cid.key, c) ∈ s.cache ∨ c ∈ todo
  alive : ∀ c ∈ s.created, c.id ∉ s.destroyed → c ∈ s.userConns
  nodest : ∀ c ∈ s.userConns, c.id ∉ s.destroyed
  made : ∀ c ∈ s.userConns, c ∈ s.created
  todom : ∀ c ∈ todo, c ∈ s.created ∧ ∀ p ∈ s.cache, p.1 ≠ c.cid.key
  lt : ∀ c ∈ s.created, c.id < s.next
  uniq : ∀ c ∈ s.created, ∀ d ∈ s.created, c.id = d.id → c = d
  tkeys : (todo.map (·.cid.key)).Nodup
  cmade : ∀ p ∈ s.cache, p.2 ∈ s.created

theorem q_close {s : State} {c : Conn} {todo : List Conn} (h : QInv s (c :: todo)) :
    QInv (closeConn s c) todo := by
  obtain ⟨h1, h2, h3, h4, h5, h6, h7, h8, h9, h10⟩ := h
  have hmem : ∀ x, x ∈ (closeConn s c).userConns ↔ x ∈ s.userConns ∧ x.cid ≠ c.cid := by
    intro x
    simp only [closeConn, List.mem_filter]
    rw [filter_self_ne]
  have hcc := h6 c (by simp)
  have htk := List.nodup_cons.1 (by simpa using h9 : (c.cid.key :: todo.map (·.cid.key)).Nodup)
  refine ⟨h1, ?_, ?_, ?_, ?_, ?_, h7, h8, htk.2, h10⟩
  · intro x hx
    obtain ⟨hx1, hx2⟩ := (hmem x).1 hx
    rcases h2 x hx1 with h | h
    · exact Or.inl h
    · rcases List.mem_cons.1 h with rfl | h
      · exact absurd rfl hx2
      · exact Or.inr h
  · intro x hx hd
    simp only [closeConn, List.mem_cons, not_or] at hd
    rw [hmem]
    refine ⟨h3 x hx hd.2, ?_⟩
    intro he
    -- a live connection with the same triple is cached or pending
    rcases h2 x (h3 x hx hd.2) with h | h
    · exact hcc.2 _ h (by rw [he])
    · rcases List.mem_cons.1 h with rfl | h
      · exact hd.1 rfl
      · exact htk.1 (List.mem_map.2 ⟨x, h, by rw [he]⟩)
  · intro x hx
    obtain ⟨hx1, hx2⟩ := (hmem x).1 hx
    simp only [closeConn, List.mem_cons, not_or]
    refine ⟨?_, h4 x hx1⟩
    intro he
    exact hx2 (by rw [h8 x (h5 x hx1) c hcc.1 he])
  · intro x hx
    exact h5 x ((hmem x).1 hx).1
  · intro x hx
    exact h6 x (by simp [hx])

theorem q_foldl {s : State} {todo : List Conn} (h : QInv s todo) : QInv (todo.foldl closeConn s) [] := by
  induction todo generalizing s with
  | nil => exact h
  | cons c todo ih => exact ih (q_close h)

theorem foldl_close_fields (todo : List Conn) (s : State) :
    (todo.foldl closeConn s).pending = s.pending ∧ (todo.foldl closeConn s).cache = s.cache ∧
    (todo.foldl closeConn s).created = s.created ∧ (todo.foldl closeConn s).next = s.next ∧
    (todo.foldl closeConn s).dead = s.dead ∧
    (∀ i, i ∈ (todo.foldl closeConn s).destroyed ↔ i ∈ s.destroyed ∨ ∃ c ∈ todo, c.id = i) := by
  induction todo generalizing s with
  | nil => simp
  | cons c todo ih =>
    obtain ⟨i1, i2, i3, i4, i5, i6⟩ := ih (closeConn s c)
    refine ⟨i1, i2, i3, i4, i5, ?_⟩
    intro i
    rw [List.foldl_cons, i6]
    simp only [closeConn, List.mem_cons]
    constructor
    · rintro ((rfl | h) | ⟨d, hd, rfl⟩)
      · exact Or.inr ⟨c, Or.inl rfl, rfl⟩
      · exact Or.inl h
      · exact Or.inr ⟨d, Or.inr hd, rfl⟩
    · rintro (h | ⟨d, (rfl | hd), rfl⟩)
      · exact Or.inl (Or.inr h)
      · exact Or.inl (Or.inl rfl)
      · exact Or.inr ⟨d, hd, rfl⟩

theorem q_of_p {s : State} (h : PInv s) : QInv s [] :=
  ⟨h.inv.keys, fun c hc => Or.inl (h.cached c hc), h.alive, h.nodest, h.made, by simp, h.lt, h.uniq, by simp, h.cmade⟩

theorem q_remove {s : State} (hk : ∀ p ∈ s.cache, p.1 = p.2.cid.key)
    (h : QInv s s.pending) (k : String) :
    QInv (removeKey s k) (removeKey s k).pending ∧ (∀ p ∈ (removeKey s k).cache, p.1 = p.2.cid.key) ∧
    (removeKey s k).userConns = s.userConns ∧ (removeKey s k).created = s.created ∧
    (removeKey s k).destroyed = s.destroyed ∧ (removeKey s k).next = s.next ∧
    (∀ c ∈ (removeKey s k).pending, c ∈ s.pending ∨ (k, c) ∈ s.cache) ∧
    (∀ c ∈ s.pending, c ∈ (removeKey s k).pending) ∧
    (∀ c, (k, c) ∈ s.cache → c ∈ (removeKey s k).pending) ∧
    (∀ p ∈ (removeKey s k).cache, p ∈ s.cache) := by
  unfold removeKey
  cases hl : s.cache.lookup k with
  | none =>
    refine ⟨h, hk, rfl, rfl, rfl, rfl, fun c hc => Or.inl hc, fun c hc => hc, ?_, fun p hp => hp⟩
    intro c hc
    rw [mem_lookup h.keys hc] at hl; cases hl
  | some c =>
    have hm := lookup_mem hl
    have hkc := hk _ hm
    simp only at hkc
    simp only
    refine ⟨?_, fun p hp => hk p (List.mem_filter.1 hp).1, trivial, trivial, trivial, trivial, ?_, ?_, ?_, fun p hp => (List.mem_filter.1 hp).1⟩
    · obtain ⟨h1, h2, h3, h4, h5, h6, h7, h8, h9, h10⟩ := h
      refine ⟨nodup_filter_map _ _ h1, ?_, h3, h4, h5, ?_, h7, h8, ?_, fun p hp => h10 p (List.mem_filter.1 hp).1⟩
      · intro x hx
        rcases h2 x hx with hx' | hx'
        · by_cases hxk : x.cid.key = k
          · right
            rw [hxk] at hx'
            have := mem_lookup h1 hx'
            rw [hl] at this
            cases this
            simp
          · left
            simp only [List.mem_filter]
            exact ⟨hx', by simpa using hxk⟩
        · right; simp [hx']
      · intro x hx
        rcases List.mem_append.1 hx with hx | hx
        · exact ⟨(h6 x hx).1, fun p hp => (h6 x hx).2 p (List.mem_filter.1 hp).1⟩
        · simp only [List.mem_singleton] at hx
          subst hx
          refine ⟨?_, ?_⟩
          · exact h10 _ hm
          · intro p hp
            have := (List.mem_filter.1 hp).2
            rw [← hkc]
            simpa using this
      · rw [List.map_append, List.nodup_append]
        refine ⟨h9, by simp, ?_⟩
        intro x hx y hy hxy
        obtain ⟨z, hz, rfl⟩ := List.mem_map.1 hx
        simp only [List.map_cons, List.map_nil, List.mem_singleton] at hy
        subst hy
        exact (h6 z hz).2 _ hm (by simp only; rw [hkc, hxy])
    · intro x hx
      rcases List.mem_append.1 hx with hx | hx
      · exact Or.inl hx
      · simp only [List.mem_singleton] at hx
        subst hx; exact Or.inr hm
    · intro x hx; simp [hx]
    · intro x hx
      rw [mem_lookup h.keys hx] at hl
      cases hl
      simp

theorem mem_cache_remove (s : State) (k : String) (p : String × Conn) :
    p ∈ (removeKey s k).cache ↔ p ∈ s.cache ∧ (p.1 ≠ k ∨ s.cache.lookup k = none) := by
  unfold removeKey
  cases hl : s.cache.lookup k with
  | none => simp
  | some c => simp [List.mem_filter]

theorem q_foldl_remove (ks : List String) {s : State} (hk : ∀ p ∈ s.cache, p.1 = p.2.cid.key)
    (h : QInv s s.pending) :
    let t := ks.foldl removeKey s
    QInv t t.pending ∧ (∀ p ∈ t.cache, p.1 = p.2.cid.key) ∧
    t.userConns = s.userConns ∧ t.created = s.created ∧ t.destroyed = s.destroyed ∧ t.next = s.next ∧
    (∀ c, c ∈ t.pending ↔ c ∈ s.pending ∨ ∃ k ∈ ks, (k, c) ∈ s.cache) := by
  induction ks generalizing s with
  | nil => exact ⟨h, hk, rfl, rfl, rfl, rfl, by simp⟩
  | cons k ks ih =>
    obtain ⟨a1, a2, a3, a4, a5, a6, a7, a8, a9, _⟩ := q_remove hk h k
    obtain ⟨b1, b2, b3, b4, b5, b6, b7⟩ := ih a2 a1
    simp only [List.foldl_cons]
    refine ⟨b1, b2, b3.trans a3, b4.trans a4, b5.trans a5, b6.trans a6, ?_⟩
    intro c
    rw [b7]
    constructor
    · rintro (hc | ⟨k', hk', hc⟩)
      · rcases a7 c hc with hc | hc
        · exact Or.inl hc
        · exact Or.inr ⟨k, by simp, hc⟩
      · exact Or.inr ⟨k', by simp [hk'], ((mem_cache_remove s k _).1 hc).1⟩
    · rintro (hc | ⟨k', hk', hc⟩)
      · exact Or.inl (a8 c hc)
      · by_cases he : k' = k
        · subst he; exact Or.inl (a9 c hc)
        · rcases List.mem_cons.1 hk' with hk' | hk'
          · exact absurd hk' he
          · exact Or.inr ⟨k', hk', (mem_cache_remove s k _).2 ⟨hc, Or.inl he⟩⟩

theorem inv_foldl_close (todo : List Conn) {s : State} (h : Inv s)
    (ht : ∀ c ∈ todo, c.id < s.next ∧ ∀ p ∈ s.cache, p.2.id ≠ c.id) : Inv (todo.foldl closeConn s) := by
  induction todo generalizing s with
  | nil => exact h
  | cons c todo ih =>
    refine ih (inv_close_dead h (ht c (by simp)).1 ?_) ?_
    · intro p hp he
      exact absurd he ((ht c (by simp)).2 p hp)
    · intro d hd
      exact ht d (by simp [hd])

theorem p_drain {s : State} (h : Inv s) (q : QInv s s.pending) : PInv (drain s) := by
  unfold drain
  have h0 : Inv { s with pending := [] } := ⟨h.keyed, h.keys, h.ids, by simp, h.dest, h.destlt⟩
  have q0 : QInv { s with pending := [] } s.pending :=
    ⟨q.keys, q.cached, q.alive, q.nodest, q.made, q.todom, q.lt, q.uniq, q.tkeys, q.cmade⟩
  have hi := inv_foldl_close s.pending h0 h.pend
  have hq := q_foldl q0
  obtain ⟨f1, _⟩ := foldl_close_fields s.pending { s with pending := [] }
  exact ⟨hi, f1, fun c hc => (hq.cached c hc).resolve_right (by simp), hq.alive, hq.nodest, hq.made, hq.lt, hq.uniq, hq.cmade⟩

theorem q_add {t : State} (h : QInv t []) (hd : ∀ i ∈ t.destroyed, i < t.next) (cid : CID)
    (hk : ∀ p ∈ t.cache, p.1 ≠ cid.key) :
    QInv { t with
        cache := (cid.key, ⟨t.next, cid⟩) :: t.cache
        userConns := t.userConns ++ [⟨t.next, cid⟩]
        created := t.created ++ [⟨t.next, cid⟩]
        next := t.next + 1 } [] := by
  obtain ⟨h1, h2, h3, h4, h5, h6, h7, h8, h9, h10⟩ := h
  refine ⟨?_, ?_, ?_, ?_, ?_, by simp, ?_, ?_, by simp, ?_⟩
  · simp only [List.map_cons, List.nodup_cons]
    refine ⟨?_, h1⟩
    intro hm
    obtain ⟨p, hp, hpk⟩ := List.mem_map.1 hm
    exact hk p hp hpk
  · intro c hc
    rcases List.mem_append.1 hc with hc | hc
    · rcases h2 c hc with h | h
      · left; simp [h]
      · cases h
    · simp only [List.mem_singleton] at hc
      subst hc; left; simp
  · intro c hc hnd
    rcases List.mem_append.1 hc with hc | hc
    · exact List.mem_append_left _ (h3 c hc hnd)
    · exact List.mem_append_right _ hc
  · intro c hc hdd
    rcases List.mem_append.1 hc with hc | hc
    · exact h4 c hc hdd
    · simp only [List.mem_singleton] at hc
      subst hc
      have := hd _ hdd
      simp at this
  · intro c hc
    rcases List.mem_append.1 hc with hc | hc
    · exact List.mem_append_left _ (h5 c hc)
    · exact List.mem_append_right _ hc
  · intro c hc
    rcases List.mem_append.1 hc with hc | hc
    · have := h7 c hc; simp only; omega
    · simp only [List.mem_singleton] at hc
      subst hc; simp
  · intro c hc d hd' he
    rcases List.mem_append.1 hc with hc | hc <;> rcases List.mem_append.1 hd' with hd' | hd'
    · exact h8 c hc d hd' he
    · simp only [List.mem_singleton] at hd'
      subst hd'
      have := h7 c hc
      simp only at he; omega
    · simp only [List.mem_singleton] at hc
      subst hc
      have := h7 d hd'
      simp only at he; omega
    · simp only [List.mem_singleton] at hc hd'
      rw [hc, hd']
  · intro p hp
    rcases List.mem_cons.1 hp with rfl | hp
    · simp
    · exact List.mem_append_left _ (h10 p hp)

theorem q_create {s : State} (h : PInv s) (cid : CID) :
    QInv (createConn s cid) (createConn s cid).pending := by
  have hk : ∀ p ∈ s.cache, p.1 = p.2.cid.key := fun p hp => (h.inv.keyed p hp).1
  cases hl : s.cache.lookup cid.key with
  | none =>
    have e : createConn s cid = { s with
        cache := (cid.key, ⟨s.next, cid⟩) :: s.cache
        userConns := s.userConns ++ [⟨s.next, cid⟩]
        created := s.created ++ [⟨s.next, cid⟩]
        next := s.next + 1 } := by
      have hf : s.cache.filter (fun p => p.1 ≠ cid.key) = s.cache := by
        rw [List.filter_eq_self]
        intro p hp
        simp only [ne_eq, decide_not, Bool.not_eq_eq_eq_not, Bool.not_true, decide_eq_false_iff_not]
        intro hpk
        have := mem_lookup h.inv.keys (c := p.2) (k := p.1) hp
        rw [hpk, hl] at this
        cases this
      simp only [createConn, getConn, hl, hf]
    rw [e]
    have : s.pending = [] := h.none
    simp only [this]
    have := q_add (q_of_p h) h.inv.destlt cid (by
      intro p hp hpk
      have := mem_lookup h.inv.keys (c := p.2) (k := p.1) hp
      rw [hpk, hl] at this
      cases this)
    simpa [h.none] using this
  | some c =>
    have hq0 : QInv s s.pending := by rw [h.none]; exact q_of_p h
    obtain ⟨a1, _⟩ := q_remove hk hq0 cid.key
    have er : removeKey s cid.key = { s with cache := s.cache.filter (fun p => p.1 ≠ cid.key), pending := [c] } := by
      simp [removeKey, hl, h.none]
    rw [er] at a1
    have a2 := q_close a1
    have e : createConn s cid = { closeConn s c with
        cache := (cid.key, ⟨s.next, cid⟩) :: s.cache.filter (fun p => p.1 ≠ cid.key)
        userConns := (closeConn s c).userConns ++ [⟨s.next, cid⟩]
        created := s.created ++ [⟨s.next, cid⟩]
        next := s.next + 1 } := by
      by_cases hd : c.id ∈ s.dead
      · simp only [createConn, getConn, hl, hd, if_true]; rfl
      · simp only [createConn, getConn, hl, hd, if_false]; rfl
    have hm := lookup_mem hl
    have a3 := q_add a2 (by
      intro i hi
      rcases List.mem_cons.1 hi with rfl | hi
      · exact (h.inv.keyed _ hm).2
      · exact h.inv.destlt i hi) cid (by
      intro p hp
      have := (List.mem_filter.1 hp).2
      simpa using this)
    rw [e]
    have hp : (closeConn s c).pending = [] := h.none
    simp only [hp]
    exact ⟨a3.keys, a3.cached, a3.alive, a3.nodest, a3.made, a3.todom, a3.lt, a3.uniq, a3.tkeys, a3.cmade⟩

theorem q_lookup {s : State} (h : PInv s) (cid : CID) :
    QInv (getConn s cid).1 (getConn s cid).1.pending := by
  have hq0 : QInv s s.pending := by rw [h.none]; exact q_of_p h
  unfold getConn
  split
  · exact hq0
  · rename_i c hl
    split
    · have hm := lookup_mem hl
      have hck := (h.inv.keyed _ hm).1
      simp only at hck
      have hmem : ∀ x, x ∈ (closeConn s c).userConns ↔ x ∈ s.userConns ∧ x.cid ≠ c.cid := by
        intro x
        simp only [closeConn, List.mem_filter]
        rw [filter_self_ne]
      have hp : (closeConn s c).pending = [] := h.none
      simp only [hp]
      refine ⟨h.inv.keys, ?_, ?_, ?_, ?_, by simp, h.lt, h.uniq, by simp, h.cmade⟩
      · intro x hx
        exact Or.inl (h.cached x ((hmem x).1 hx).1)
      · intro x hx hd
        simp only [closeConn, List.mem_cons, not_or] at hd
        rw [hmem]
        refine ⟨h.alive x hx hd.2, ?_⟩
        intro he
        have hx' := mem_lookup h.inv.keys (h.cached x (h.alive x hx hd.2))
        rw [he, ← hck, hl] at hx'
        cases hx'
        exact hd.1 rfl
      · intro x hx
        obtain ⟨hx1, hx2⟩ := (hmem x).1 hx
        simp only [closeConn, List.mem_cons, not_or]
        refine ⟨?_, h.nodest x hx1⟩
        intro he
        exact hx2 (by rw [h.uniq x (h.made x hx1) c (h.cmade _ hm) he])
      · intro x hx
        exact h.made x ((hmem x).1 hx).1
    · exact hq0

/-- Keys of the connections of the given user. -/
theorem q_closeUsers (us : List String) {s : State} (hk : ∀ p ∈ s.cache, p.1 = p.2.cid.key)
    (h : QInv s s.pending) :
    let t := closeUsers s us
    QInv t t.pending ∧ t.userConns = s.userConns ∧ t.created = s.created ∧ t.destroyed = s.destroyed ∧
    (∀ c, c ∈ t.pending ↔ c ∈ s.pending ∨ ∃ d ∈ s.userConns, d.cid.user ∈ us ∧ (d.cid.key, c) ∈ s.cache) := by
  unfold closeUsers
  induction us generalizing s with
  | nil => exact ⟨h, rfl, rfl, rfl, by simp⟩
  | cons u us ih =>
    obtain ⟨a1, a2, a3, a4, a5, a6, a7⟩ := q_foldl_remove ((s.userConns.filter fun c => c.cid.user = u).map (·.cid.key)) hk h
    obtain ⟨b1, b2, b3, b4, b5⟩ := ih a2 a1
    simp only [List.foldl_cons]
    refine ⟨b1, b2.trans a3, b3.trans a4, b4.trans a5, ?_⟩
    intro c
    rw [b5, a7]
    have hsub : ∀ (ks : List String) (s : State) p, p ∈ (ks.foldl removeKey s).cache ↔
        p ∈ s.cache ∧ ∀ k ∈ ks, p.1 ≠ k ∨ s.cache.lookup k = none := by
      intro ks
      induction ks with
      | nil => simp
      | cons k ks ihk =>
        intro s p
        simp only [List.foldl_cons]
        rw [ihk, mem_cache_remove]
        constructor
        · rintro ⟨⟨h1, h2⟩, h3⟩
          refine ⟨h1, ?_⟩
          intro k' hk'
          rcases List.mem_cons.1 hk' with rfl | hk'
          · exact h2
          · by_cases he : p.1 = k'
            · rcases h3 k' hk' with h | h
              · exact Or.inl h
              · -- p itself is still cached under k'
                have hp' : p ∈ (removeKey s k).cache := (mem_cache_remove s k p).2 ⟨h1, h2⟩
                exfalso
                have : ∀ (l : List (String × Conn)), p ∈ l → l.lookup p.1 ≠ none := by
                  intro l
                  induction l with
                  | nil => simp
                  | cons q l ihl =>
                    intro hq
                    rw [List.lookup_cons]
                    rcases List.mem_cons.1 hq with rfl | hq
                    · simp
                    · by_cases e : (p.1 == q.1) = true
                      · simp [e]
                      · simp only [Bool.not_eq_true] at e
                        rw [e]; exact ihl hq
                exact this _ hp' (by rw [he]; exact h)
            · exact Or.inl he
        · rintro ⟨h1, h2⟩
          refine ⟨⟨h1, h2 k (by simp)⟩, ?_⟩
          intro k' hk'
          rcases h2 k' (by simp [hk']) with h | h
          · exact Or.inl h
          · right
            unfold removeKey
            split
            · exact h
            · simp only
              have : ∀ (l : List (String × Conn)), l.lookup k' = none → (l.filter (fun p => p.1 ≠ k)).lookup k' = none := by
                intro l
                induction l with
                | nil => simp
                | cons q l ihl =>
                  intro hq
                  rw [List.lookup_cons] at hq
                  by_cases e : (k' == q.1) = true
                  · simp [e] at hq
                  · simp only [Bool.not_eq_true] at e
                    rw [e] at hq
                    rw [List.filter_cons]
                    split
                    · rw [List.lookup_cons, e]; exact ihl hq
                    · exact ihl hq
              exact this _ h
    constructor
    · rintro ((hc | ⟨k, hk', hc⟩) | ⟨d, hd, hdu, hc⟩)
      · exact Or.inl hc
      · obtain ⟨d, hd, rfl⟩ := List.mem_map.1 hk'
        have hd' := List.mem_filter.1 hd
        exact Or.inr ⟨d, hd'.1, by simp [of_decide_eq_true hd'.2], hc⟩
      · rw [a3] at hd
        exact Or.inr ⟨d, hd, by simp [hdu], ((hsub _ _ _).1 hc).1⟩
    · rintro (hc | ⟨d, hd, hdu, hc⟩)
      · exact Or.inl (Or.inl hc)
      · by_cases he : ∃ k ∈ (s.userConns.filter fun c => c.cid.user = u).map (·.cid.key), (k, c) ∈ s.cache
        · exact Or.inl (Or.inr he)
        · right
          refine ⟨d, by rw [a3]; exact hd, ?_, ?_⟩
          · rcases List.mem_cons.1 hdu with hdu | hdu
            · exfalso
              exact he ⟨d.cid.key, List.mem_map.2 ⟨d, List.mem_filter.2 ⟨hd, by simp [hdu]⟩, rfl⟩, hc⟩
            · exact hdu
          · rw [hsub]
            refine ⟨hc, ?_⟩
            intro k hk'
            left
            intro hkk
            exact he ⟨k, hk', by rw [← hkk]; exact hc⟩

theorem p_step {s : State} (h : PInv s) (o : Op) : PInv (drain (step s o)) := by
  have hk : ∀ p ∈ s.cache, p.1 = p.2.cid.key := fun p hp => (h.inv.keyed p hp).1
  have hq0 : QInv s s.pending := by rw [h.none]; exact q_of_p h
  refine p_drain (inv_step h.inv o) ?_
  cases o with
  | create c => exact q_create h c
  | lookup c => exact q_lookup h c
  | die id =>
    simp only [step]
    split
    · exact ⟨hq0.keys, hq0.cached, hq0.alive, hq0.nodest, hq0.made, hq0.todom, hq0.lt, hq0.uniq, hq0.tkeys, hq0.cmade⟩
    · exact hq0
  | expire k => exact (q_remove hk hq0 k).1
  | closeDevice u d => exact (q_foldl_remove _ hk hq0).1
  | closeUsers us => exact (q_closeUsers us hk hq0).1
  | callback i =>
    have : step s (.callback i) = s := by simp [step, callback, h.none]
    rw [this]; exact hq0

theorem p_run (ops : List Op) : PInv (runPrompt ops) := by
  unfold runPrompt
  suffices ∀ s, PInv s → PInv (ops.foldl (fun s o => drain (step s o)) s) from
    this _ ⟨⟨by simp, by simp, by simp, by simp, by simp, by simp⟩, rfl, by simp, by simp, by simp, by simp, by simp, by simp, by simp⟩
  induction ops with
  | nil => intro s h; exact h
  | cons o ops ih => intro s h; exact ih _ (p_step h o)

/-- C19 (b), partial: closing the connections of a device closes exactly the
connections of that device, provided expiry callbacks run before anything else
happens.  Missing: the same with delayed callbacks, which is false
(`C19_close_violated`). -/
theorem C19_close_device_partial (ops : List Op) (user device : String) :
    let s := runPrompt ops
    let t := drain (closeDevice s user device)
    ∀ c ∈ s.created, c.id ∈ t.destroyed ↔
      c.id ∈ s.destroyed ∨ (c.cid.user = user ∧ c.cid.device = device) := by
  intro s t c hc
  have h : PInv s := p_run ops
  have hk : ∀ p ∈ s.cache, p.1 = p.2.cid.key := fun p hp => (h.inv.keyed p hp).1
  have hq0 : QInv s s.pending := by rw [h.none]; exact q_of_p h
  obtain ⟨_, _, a3, a4, a5, _, a7⟩ := q_foldl_remove
    ((s.userConns.filter fun c => c.cid.user = user && c.cid.device = device).map (·.cid.key)) hk hq0
  have hd := (foldl_close_fields (closeDevice s user device).pending { closeDevice s user device with pending := [] }).2.2.2.2.2 c.id
  show c.id ∈ (drain _).destroyed ↔ _
  unfold drain
  rw [hd]
  have e : (closeDevice s user device).destroyed = s.destroyed := a5
  simp only [e]
  constructor
  · rintro (h1 | ⟨d, hdm, hdi⟩)
    · exact Or.inl h1
    · rcases (a7 d).1 hdm with h1 | ⟨k, hkm, hkc⟩
      · rw [h.none] at h1; cases h1
      · obtain ⟨x, hx, rfl⟩ := List.mem_map.1 hkm
        have hx' := List.mem_filter.1 hx
        have e1 := mem_lookup h.inv.keys (h.cached x hx'.1)
        rw [mem_lookup h.inv.keys hkc] at e1
        cases e1
        have : c = d := h.uniq c hc d (h.made _ hx'.1) hdi.symm
        subst this
        right
        simpa using hx'.2
  · rintro (h1 | h1)
    · exact Or.inl h1
    · by_cases hcd : c.id ∈ s.destroyed
      · exact Or.inl hcd
      · right
        have hcu := h.alive c hc hcd
        refine ⟨c, (a7 c).2 (Or.inr ⟨c.cid.key, List.mem_map.2 ⟨c, List.mem_filter.2 ⟨hcu, ?_⟩, rfl⟩, h.cached c hcu⟩), rfl⟩
        simp [h1.1, h1.2]

/-- C19 (c), partial in the same way, for closing all connections of some users. -/
theorem C19_close_users_partial (ops : List Op) (users : List String) :
    let s := runPrompt ops
    let t := drain (closeUsers s users)
    ∀ c ∈ s.created, c.id ∈ t.destroyed ↔ c.id ∈ s.destroyed ∨ c.cid.user ∈ users := by
  intro s t c hc
  have h : PInv s := p_run ops
  have hk : ∀ p ∈ s.cache, p.1 = p.2.cid.key := fun p hp => (h.inv.keyed p hp).1
  have hq0 : QInv s s.pending := by rw [h.none]; exact q_of_p h
  obtain ⟨_, a3, a4, a5, a7⟩ := q_closeUsers users hk hq0
  have hd := (foldl_close_fields (closeUsers s users).pending { closeUsers s users with pending := [] }).2.2.2.2.2 c.id
  show c.id ∈ (drain _).destroyed ↔ _
  unfold drain
  rw [hd]
  simp only [a5]
  constructor
  · rintro (h1 | ⟨d, hdm, hdi⟩)
    · exact Or.inl h1
    · rcases (a7 d).1 hdm with h1 | ⟨x, hx, hxu, hkc⟩
      · rw [h.none] at h1; cases h1
      · have e1 := mem_lookup h.inv.keys (h.cached x hx)
        rw [mem_lookup h.inv.keys hkc] at e1
        cases e1
        have : c = d := h.uniq c hc d (h.made _ hx) hdi.symm
        subst this
        exact Or.inr hxu
  · rintro (h1 | h1)
    · exact Or.inl h1
    · by_cases hcd : c.id ∈ s.destroyed
      · exact Or.inl hcd
      · right
        have hcu := h.alive c hc hcd
        exact ⟨c, (a7 c).2 (Or.inr ⟨c, hcu, h1, h.cached c hcu⟩), rfl⟩

/-- Two live connections of one device and one of another: closing the device
destroys the first two. -/
example :
    let s := runPrompt [.create ⟨"@a:x", "D", "1"⟩, .create ⟨"@a:x", "D", "2"⟩, .create ⟨"@a:x", "E", "1"⟩]
    (drain (closeDevice s "@a:x" "D")).destroyed = [1, 0] := by decide +kernel

/-- C19 is violated: an expired connection whose callback runs only after a new
connection with the same identifiers was created unlinks the new connection, and
closing all of the user's connections then leaves it open and reachable. -/
theorem C19_close_violated :
    ∃ (ops : List Op) (cid : CID) (c : Conn),
      let s := run ops
      let t := drain (closeDevice s cid.user cid.device)
      let t' := drain (closeUsers s [cid.user])
      c ∈ s.created ∧ c.cid = cid ∧ c.id ∉ t.destroyed ∧ (getConn t cid).2 = some c ∧
      c.id ∉ t'.destroyed ∧ (getConn t' cid).2 = some c := by
  refine ⟨[.create ⟨"@a:x", "D", ""⟩, .expire "@a:x|D|", .create ⟨"@a:x", "D", ""⟩, .callback 0],
    ⟨"@a:x", "D", ""⟩, ⟨1, ⟨"@a:x", "D", ""⟩⟩, ?_⟩
  decide +kernel

/-- C19 (d): whatever the timing of callbacks, closing a device only ever queues
connections whose key is that of a connection of the device; with identifiers
free of `|` these are connections of the device. -/
theorem C19_close_no_others (ops : List Op) (user device : String)
    (hclean : ∀ p ∈ (run ops).cache, p.2.cid.Clean) (hclean' : ∀ c ∈ (run ops).userConns, c.cid.Clean) :
    ∀ c ∈ (closeDevice (run ops) user device).pending, c ∈ (run ops).pending ∨
      (c.cid.user = user ∧ c.cid.device = device) := by
  have hi := inv_run ops
  unfold closeDevice
  generalize hs : run ops = s at *
  have gen : ∀ (ks : List String) (t : State), (∀ p ∈ t.cache, p ∈ s.cache) →
      (∀ k ∈ ks, ∃ d ∈ s.userConns, d.cid.user = user ∧ d.cid.device = device ∧ d.cid.key = k) →
      ∀ c ∈ (ks.foldl removeKey t).pending, c ∈ t.pending ∨ (c.cid.user = user ∧ c.cid.device = device) := by
    intro ks
    induction ks with
    | nil => intro t _ _ c hc; exact Or.inl hc
    | cons k ks ih =>
      intro t ht hks c hc
      have hsub : ∀ p ∈ (removeKey t k).cache, p ∈ s.cache := fun p hp => ht p ((mem_cache_remove t k p).1 hp).1
      rcases ih (removeKey t k) hsub (fun k' hk' => hks k' (by simp [hk'])) c hc with h | h
      · unfold removeKey at h
        split at h
        · exact Or.inl h
        · rename_i x hl
          rcases List.mem_append.1 h with h | h
          · exact Or.inl h
          · simp only [List.mem_singleton] at h
            subst h
            right
            obtain ⟨d, hd, hu, hdv, hdk⟩ := hks k (by simp)
            have hm := ht _ (lookup_mem hl)
            have hkk := (hi.keyed _ hm).1
            simp only at hkk
            have := key_inj (hclean' d hd) (hclean _ hm) (by simp only; rw [hdk, hkk])
            simp only at this
            rw [← this]
            exact ⟨hu, hdv⟩
      · exact Or.inr h
  refine gen _ s (fun p hp => hp) ?_
  intro k hk
  obtain ⟨d, hd, rfl⟩ := List.mem_map.1 hk
  have hd' := List.mem_filter.1 hd
  have := hd'.2
  simp only [Bool.and_eq_true, decide_eq_true_eq] at this
  exact ⟨d, hd'.1, this.1, this.2, rfl⟩

example : ∀ p ∈ (run [.create ⟨"@a:x", "D", "1"⟩, .create ⟨"@a:x", "E", "1"⟩]).cache, p.2.cid.Clean := by
  unfold CID.Clean; decide +kernel

end Verif.ConnMap
