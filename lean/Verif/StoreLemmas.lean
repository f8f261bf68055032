import Verif.Store
/-!
# Lemmas about the events, snapshots and rooms tables
-/
namespace Verif.Store

/-! ## Insertion -/

theorem insertLoop_spec (room : String) (st : Bool) (es : List (Ev × Bool)) : ∀ (rows : List Row) (n : Nat),
    ∃ new, (insertLoop room st rows n es).1 = rows ++ new ∧ (insertLoop room st rows n es).2 = n + es.length ∧
      (∀ r ∈ new, n < r.nid ∧ r.nid ≤ n + es.length ∧ r.room = room ∧ r.isState = st ∧ r.before = 0 ∧ r.replaces = 0) ∧
      new.Pairwise (fun a b => a.nid < b.nid) ∧
      (new.map (·.ev)).Sublist (es.map (·.1)) ∧
      (∀ r ∈ new, ∀ q ∈ rows, q.ev.id ≠ r.ev.id) ∧
      (new.map (·.ev.id)).Nodup ∧
      (∀ e ∈ es, ∃ r ∈ rows ++ new, r.ev.id = e.1.id) ∧
      (∀ r ∈ new, (r.ev, r.missing) ∈ es) := by
  induction es with
  | nil => intro rows n; exact ⟨[], by simp [insertLoop]⟩
  | cons e es ih =>
    intro rows n
    unfold insertLoop
    by_cases hk : rows.any (·.ev.id = e.1.id) = true
    · rw [if_pos hk]
      obtain ⟨new, h1, h2, h3, h4, h5, h6, h7, h8, h9⟩ := ih rows (n + 1)
      refine ⟨new, h1, by rw [h2]; simp only [List.length_cons]; omega, fun r hr => ?_, h4, ?_, h6, h7, ?_, ?_⟩
      · have := h3 r hr; simp only [List.length_cons]; refine ⟨by omega, by omega, this.2.2⟩
      · exact h5.trans (by simp)
      · intro x hx
        rcases List.mem_cons.1 hx with rfl | hx
        · obtain ⟨q, hq, hq'⟩ := List.any_eq_true.1 hk
          exact ⟨q, List.mem_append_left _ hq, by simpa using hq'⟩
        · exact h8 x hx
      · exact fun r hr => List.mem_cons_of_mem _ (h9 r hr)
    · rw [if_neg hk]
      have hk' : ∀ q ∈ rows, q.ev.id ≠ e.1.id := fun q hq he => hk (List.any_eq_true.2 ⟨q, hq, by simpa using he⟩)
      obtain ⟨new, h1, h2, h3, h4, h5, h6, h7, h8, h9⟩ :=
        ih (rows ++ [{ nid := n + 1, room := room, ev := e.1, isState := st, missing := e.2 }]) (n + 1)
      refine ⟨{ nid := n + 1, room := room, ev := e.1, isState := st, missing := e.2 } :: new, by rw [h1]; simp,
        by rw [h2]; simp only [List.length_cons]; omega, fun r hr => ?_, ?_, ?_, ?_, ?_, ?_, ?_⟩
      · rcases List.mem_cons.1 hr with rfl | hr
        · simp only [List.length_cons]; exact ⟨by omega, by omega, by simp⟩
        · have := h3 r hr; simp only [List.length_cons]; refine ⟨by omega, by omega, this.2.2⟩
      · refine .cons (fun r hr => ?_) h4
        have := h3 r hr; simp only; omega
      · simpa using h5
      · intro r hr q hq
        rcases List.mem_cons.1 hr with rfl | hr
        · exact hk' q hq
        · exact h6 r hr q (List.mem_append_left _ hq)
      · simp only [List.map_cons, List.nodup_cons]
        refine ⟨fun hm => ?_, h7⟩
        obtain ⟨r, hr, hre⟩ := List.mem_map.1 hm
        exact h6 r hr { nid := n + 1, room := room, ev := e.1, isState := st, missing := e.2 } (by simp) hre.symm
      · intro x hx
        rcases List.mem_cons.1 hx with rfl | hx
        · exact ⟨{ nid := n + 1, room := room, ev := x.1, isState := st, missing := x.2 }, by simp, rfl⟩
        · obtain ⟨r, hr, hre⟩ := h8 x hx
          exact ⟨r, by simpa using hr, hre⟩
      · intro r hr
        rcases List.mem_cons.1 hr with rfl | hr
        · simp
        · exact List.mem_cons_of_mem _ (h9 r hr)

/-! ## Keys -/

def Clean (e : Ev) : Prop := '\x1f' ∉ e.type.toList

private theorem split_at {c : Char} {a b a' b' : List Char} (h : a ++ c :: b = a' ++ c :: b') (ha : c ∉ a) (ha' : c ∉ a') :
    a = a' ∧ b = b' := by
  induction a generalizing a' with
  | nil =>
    cases a' with
    | nil => simpa using h
    | cons x t => simp only [List.nil_append, List.cons_append, List.cons.injEq] at h; exact absurd (h.1 ▸ by simp) ha'
  | cons x t ih =>
    cases a' with
    | nil => simp only [List.nil_append, List.cons_append, List.cons.injEq] at h; exact absurd (h.1 ▸ by simp) ha
    | cons y t' =>
      simp only [List.cons_append, List.cons.injEq] at h
      obtain ⟨h1, h2⟩ := ih h.2 (fun hm => ha (by simp [hm])) (fun hm => ha' (by simp [hm]))
      exact ⟨by rw [h.1, h1], h2⟩

theorem tupleKey_inj {a b : Ev} (ha : Clean a) (hb : Clean b) : tupleKey a = tupleKey b ↔ a.key = b.key := by
  constructor
  · intro h
    have h' := congrArg String.toList h
    simp only [tupleKey, String.toList_append, List.append_assoc] at h'
    have hs : "\x1f".toList = ['\x1f'] := by decide
    rw [hs] at h'
    have := split_at h' ha hb
    simp only [Ev.key, Prod.mk.injEq]
    exact ⟨String.toList_inj.1 this.1, String.toList_inj.1 this.2⟩
  · intro h
    simp only [Ev.key, Prod.mk.injEq] at h
    simp [tupleKey, h.1, h.2]

/-! ## Rolling forward -/

theorem rollLoop_spec (new : Row) (hn : Clean new.ev) (old : List Row) : ∀ seen : List String,
    (∀ e ∈ old, Clean e.ev) → old.Pairwise (fun a b => a.ev.key ≠ b.ev.key) → (∀ e ∈ old, e.nid ≠ new.nid) →
    (∀ e ∈ old, tupleKey e.ev ∉ seen) →
    ∃ a n, rollLoop new seen old = some (old.map (fun e => if e.ev.key = new.ev.key then new else e), a, n) ∧
      ((a = false ∧ n = 0 ∧ ∀ e ∈ old, e.ev.key ≠ new.ev.key) ∨ (a = true ∧ ∃ e ∈ old, e.ev.key = new.ev.key ∧ n = e.nid)) := by
  induction old with
  | nil => intro seen _ _ _ _; exact ⟨false, 0, rfl, Or.inl ⟨rfl, rfl, by simp⟩⟩
  | cons e es ih =>
    intro seen hc hp hnid hseen
    rw [List.pairwise_cons] at hp
    have hce := hc e (by simp)
    obtain ⟨a, n, h1, h2⟩ := ih (tupleKey e.ev :: seen) (fun x hx => hc x (by simp [hx])) hp.2
      (fun x hx => hnid x (by simp [hx])) (fun x hx hm => by
        rcases List.mem_cons.1 hm with h | h
        · exact hp.1 x hx ((tupleKey_inj (hc x (by simp [hx])) hce).1 h).symm
        · exact hseen x (by simp [hx]) h)
    unfold rollLoop
    rw [if_neg (hseen e (by simp)), if_neg (fun h => hnid e (by simp) h.1), h1]
    by_cases hk : e.ev.key = new.ev.key
    · have ht := (tupleKey_inj hce hn).2 hk
      simp only [ht, if_true, List.map_cons, hk]
      refine ⟨true, _, rfl, Or.inr ⟨rfl, e, by simp, hk, ?_⟩⟩
      rcases h2 with ⟨rfl, _, _⟩ | ⟨_, e', he', hk', _⟩
      · rfl
      · exact absurd (hk.trans hk'.symm) (hp.1 e' he')
    · have ht : ¬ tupleKey e.ev = tupleKey new.ev := fun h => hk ((tupleKey_inj hce hn).1 h)
      simp only [ht, if_false, List.map_cons, hk]
      refine ⟨a, n, rfl, ?_⟩
      rcases h2 with ⟨h3, h4, h5⟩ | ⟨h3, e', he', hk', h4⟩
      · refine Or.inl ⟨h3, h4, fun x hx => ?_⟩
        rcases List.mem_cons.1 hx with rfl | hx
        · exact hk
        · exact h5 x hx
      · exact Or.inr ⟨h3, e', by simp [he'], hk', h4⟩

theorem roll_spec (old : List Row) (new : Row) (hn : Clean new.ev) (hc : ∀ e ∈ old, Clean e.ev)
    (hp : old.Pairwise (fun a b => a.ev.key ≠ b.ev.key)) (hnid : ∀ e ∈ old, e.nid ≠ new.nid) :
    ∃ r n, roll old new = some (r, n) ∧ (∀ x, x ∈ r ↔ x = new ∨ (x ∈ old ∧ x.ev.key ≠ new.ev.key)) ∧
      r.Pairwise (fun a b => a.ev.key ≠ b.ev.key) ∧
      ((n = 0 ∧ ∀ e ∈ old, e.ev.key ≠ new.ev.key) ∨ (∃ e ∈ old, e.ev.key = new.ev.key ∧ n = e.nid)) := by
  obtain ⟨a, n, h1, h2⟩ := rollLoop_spec new hn old [] hc hp hnid (by simp)
  have hmap : (old.map fun e => if e.ev.key = new.ev.key then new else e).Pairwise (fun a b => a.ev.key ≠ b.ev.key) := by
    rw [List.pairwise_map]
    refine hp.imp fun {a b} h => ?_
    by_cases ha : a.ev.key = new.ev.key
    · have hb : ¬ b.ev.key = new.ev.key := fun hb => h (ha.trans hb.symm)
      rw [if_pos ha, if_neg hb]; exact fun hb' => hb hb'.symm
    · rw [if_neg ha]
      by_cases hb : b.ev.key = new.ev.key
      · rw [if_pos hb]; exact ha
      · rw [if_neg hb]; exact h
  unfold roll
  rw [h1]
  rcases h2 with ⟨rfl, hn0, hno⟩ | ⟨rfl, e, he, hk, hne⟩
  · have hid : (old.map fun e => if e.ev.key = new.ev.key then new else e) = old := by
      conv => rhs; rw [← List.map_id old]
      exact List.map_congr_left fun e he => by rw [if_neg (hno e he)]; rfl
    rw [hid] at hmap
    refine ⟨old ++ [new], n, by simp [hid], fun x => ?_, ?_, Or.inl ⟨hn0, hno⟩⟩
    · simp only [List.mem_append, List.mem_singleton]
      constructor
      · rintro (h | h)
        · exact Or.inr ⟨h, hno x h⟩
        · exact Or.inl h
      · rintro (h | h)
        · exact Or.inr h
        · exact Or.inl h.1
    · exact List.pairwise_append.2 ⟨hmap, by simp, fun a ha b hb => by simp at hb; rw [hb]; exact hno a ha⟩
  · refine ⟨_, n, by simp, fun x => ?_, hmap, Or.inr ⟨e, he, hk, hne⟩⟩
    simp only [List.mem_map]
    constructor
    · rintro ⟨y, hy, hyx⟩
      split at hyx
      · exact Or.inl hyx.symm
      · rename_i hky; subst hyx; exact Or.inr ⟨hy, hky⟩
    · rintro (rfl | ⟨hx, hkx⟩)
      · exact ⟨e, he, by rw [if_pos hk]⟩
      · exact ⟨x, hx, by rw [if_neg hkx]⟩

theorem ingest_spec (m : List Row) (r : Row) (hp : m.Pairwise (fun a b => a.ev.key ≠ b.ev.key)) :
    (∀ x, x ∈ ingest m r ↔ x = r ∨ (x ∈ m ∧ x.ev.key ≠ r.ev.key)) ∧ (ingest m r).Pairwise (fun a b => a.ev.key ≠ b.ev.key) := by
  refine ⟨fun x => ?_, ?_⟩
  · simp only [ingest, List.mem_append, List.mem_filter, List.mem_singleton, decide_eq_true_eq]
    exact Or.comm
  · refine List.pairwise_append.2 ⟨hp.filter _, by simp, fun a ha b hb => ?_⟩
    simp only [List.mem_filter, decide_eq_true_eq] at ha
    simp only [List.mem_singleton] at hb
    rw [hb]; exact ha.2

/-! ## Selecting -/

/-- Rows ascending by number: a number names one row. -/
theorem row_unique {rows : List Row} (h : rows.Pairwise fun a b => a.nid < b.nid) {a b : Row} (ha : a ∈ rows) (hb : b ∈ rows)
    (he : a.nid = b.nid) : a = b := by
  induction rows with
  | nil => simp at ha
  | cons x xs ih =>
    rw [List.pairwise_cons] at h
    rcases List.mem_cons.1 ha with ha' | ha' <;> rcases List.mem_cons.1 hb with hb' | hb'
    · rw [ha', hb']
    · have := h.1 b hb'; subst ha'; omega
    · have := h.1 a ha'; subst hb'; omega
    · exact ih h.2 ha' hb'

/-- Duplicate-free lists with the same elements have the same length. -/
theorem nodup_length {l l' : List Nat} (h : l.Nodup) (h' : l'.Nodup) (he : ∀ x, x ∈ l ↔ x ∈ l') : l.length = l'.length := by
  induction l generalizing l' with
  | nil =>
    have : l' = [] := List.eq_nil_iff_forall_not_mem.2 fun x hx => by simpa using (he x).2 hx
    rw [this]
  | cons a l ih =>
    rw [List.nodup_cons] at h
    have ha : a ∈ l' := (he a).1 (by simp)
    have := ih (l' := l'.erase a) h.2 (h'.erase a) fun x => by
      constructor
      · intro hx
        have hxa : x ≠ a := fun hh => h.1 (hh ▸ hx)
        exact (List.mem_erase_of_ne hxa).2 ((he x).1 (by simp [hx]))
      · intro hx
        have hxa : x ≠ a := fun hh => by subst hh; exact (List.Nodup.not_mem_erase h') hx
        rcases List.mem_cons.1 ((he x).2 (List.mem_of_mem_erase hx)) with hh | hh
        · exact absurd hh hxa
        · exact hh
    rw [List.length_cons, this, List.length_erase_of_mem ha]
    have := List.length_pos_of_mem ha
    omega

theorem selectByNIDs_spec {db : DB} (h : db.rows.Pairwise fun a b => a.nid < b.nid) {nids : List Nat} (hn : nids.Nodup)
    (hex : ∀ n ∈ nids, ∃ r ∈ db.rows, r.nid = n) :
    selectByNIDs db nids = some (db.rows.filter fun r => decide (r.nid ∈ nids)) := by
  unfold selectByNIDs
  rw [if_neg]
  rintro ⟨_, hne⟩
  apply hne
  have hnod : ((db.rows.filter fun r => decide (r.nid ∈ nids)).map (·.nid)).Nodup := by
    rw [List.Nodup, List.pairwise_map]
    exact (h.filter _).imp fun {a b} hab => by omega
  have := nodup_length hn hnod fun x => by
    simp only [List.mem_map, List.mem_filter, decide_eq_true_eq]
    constructor
    · intro hx
      obtain ⟨r, hr, hrx⟩ := hex x hx
      exact ⟨r, ⟨hr, hrx ▸ hx⟩, hrx⟩
    · rintro ⟨r, ⟨_, hr⟩, rfl⟩; exact hr
  rw [this, List.length_map]

end Verif.Store
