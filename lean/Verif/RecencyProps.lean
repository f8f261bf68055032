import Verif.Recency
/-!
# C100: a restart does not change the recency of rooms

Specification: the stored events in order, each with a mark that says whether the cache has been told of it. The latest event of a type is
the last one in this order. The recency should be a matter of the stored events, the same before and after a restart.
-/
namespace Verif.Recency

/-- The stored events and whether they are known to the cache: those of a state block are only if they are the first of the room or if
there was a restart. -/
def markStep (l : List (Ev × Bool)) : Op → List (Ev × Bool)
  | .block evs => l ++ evs.map fun e => (e, l.isEmpty)
  | .timeline evs => l ++ evs.map fun e => (e, true)
  | .other _ => l
  | .restart => l.map fun x => (x.1, true)

def marks (ops : List Op) : List (Ev × Bool) := ops.foldl markStep []

/-- The cache has been told of all events. -/
def AllTold (ops : List Op) : Prop := ∀ x ∈ marks ops, x.2 = true

/-- Clocks agree: timestamps do not go back. -/
def Clock (ops : List Op) : Prop := (marks ops).Pairwise fun a b => a.1.ts ≤ b.1.ts

/-- The last event of a type. -/
def lastOf (l : List Ev) (t : String) : Option Ev := (l.filter fun e => decide (e.type = t)).getLast?

/-! ## Lemmas -/

theorem run_snoc (ops : List Op) (o : Op) : run (ops ++ [o]) = step (run ops) o := by simp [run]

theorem marks_snoc (ops : List Op) (o : Op) : marks (ops ++ [o]) = markStep (marks ops) o := by simp [marks]

theorem number_ev (b : Bool) (n : Nat) (evs : List Ev) : (number b n evs).map (·.ev) = evs := by
  induction evs generalizing n with
  | nil => rfl
  | cons e es ih => simp [number, ih]

theorem number_mem (b : Bool) (n : Nat) (evs : List Ev) : ∀ r ∈ number b n evs, n ≤ r.nid ∧ r.nid < n + evs.length ∧ r.isState = b := by
  induction evs generalizing n with
  | nil => intro r hr; cases hr
  | cons e es ih =>
    intro r hr
    rcases List.mem_cons.1 hr with hr | hr
    · subst hr; simp
    · have := ih (n + 1) r hr; simp only [List.length_cons]; exact ⟨by omega, by omega, this.2.2⟩

theorem number_ascending (b : Bool) (n : Nat) (evs : List Ev) : (number b n evs).Pairwise fun a c => a.nid < c.nid := by
  induction evs generalizing n with
  | nil => exact List.Pairwise.nil
  | cons e es ih =>
    refine List.Pairwise.cons (fun r hr => ?_) (ih (n + 1))
    have := number_mem b (n + 1) es r hr
    show n < r.nid; omega

structure Inv (ops : List Op) : Prop where
  evs : (run ops).rows.map (·.ev) = (marks ops).map (·.1)
  asc : (run ops).rows.Pairwise fun a b => a.nid < b.nid
  next : ∀ r ∈ (run ops).rows, 0 < r.nid ∧ r.nid < (run ops).next
  pos : 0 < (run ops).next

theorem add_rows {s : St} (ha : s.rows.Pairwise fun a b => a.nid < b.nid) (hn : ∀ r ∈ s.rows, 0 < r.nid ∧ r.nid < s.next) (hp : 0 < s.next)
    (b : Bool) (evs : List Ev) : ((s.rows ++ number b s.next evs).Pairwise fun a b => a.nid < b.nid) ∧
    (∀ r ∈ s.rows ++ number b s.next evs, 0 < r.nid ∧ r.nid < s.next + evs.length) := by
  constructor
  · rw [List.pairwise_append]
    refine ⟨ha, number_ascending _ _ _, fun x hx y hy => ?_⟩
    have := (hn x hx).2; have := (number_mem _ _ _ y hy).1; omega
  · intro r hr
    rcases List.mem_append.1 hr with hr | hr
    · have := hn r hr; omega
    · have := number_mem _ _ _ r hr; omega

theorem inv (ops : List Op) : Inv ops := by
  induction ops using Util.snocRec with
  | nil => exact ⟨rfl, List.Pairwise.nil, (fun r hr => by cases hr), by decide⟩
  | append_singleton ops o ih =>
    constructor
    · rw [run_snoc, marks_snoc]
      cases o with
      | block evs =>
        show ((run ops).rows ++ number true _ evs).map (·.ev) = _
        rw [List.map_append, number_ev, ih.evs]; simp [markStep, Function.comp_def]
      | timeline evs =>
        show ((run ops).rows ++ number false _ evs).map (·.ev) = _
        rw [List.map_append, number_ev, ih.evs]; simp [markStep, Function.comp_def]
      | other k => exact ih.evs
      | restart => show (run ops).rows.map (·.ev) = _; rw [ih.evs]; simp [markStep, Function.comp_def]
    · rw [run_snoc]
      cases o with
      | block evs => exact (add_rows ih.asc ih.next ih.pos true evs).1
      | timeline evs => exact (add_rows ih.asc ih.next ih.pos false evs).1
      | other k => exact ih.asc
      | restart => exact ih.asc
    · rw [run_snoc]
      cases o with
      | block evs => exact (add_rows ih.asc ih.next ih.pos true evs).2
      | timeline evs => exact (add_rows ih.asc ih.next ih.pos false evs).2
      | other k => intro r hr; have := ih.next r hr; exact ⟨this.1, by show r.nid < (run ops).next + k; omega⟩
      | restart => exact ih.next
    · rw [run_snoc]
      have := ih.pos
      cases o with
      | block evs => show 0 < (run ops).next + _; omega
      | timeline evs => show 0 < (run ops).next + _; omega
      | other k => show 0 < (run ops).next + _; omega
      | restart => exact this

/-- What folding `dispatch` leaves for a type. -/
theorem fold_get (f : Row → Nat) (g : Meta → Row → Meta) (hg : ∀ m r, (g m r).byType = Assoc.set m.byType r.ev.type (f r, r.ev.ts))
    (rs : List Row) (m : Meta) (t : String) :
    Assoc.get (rs.foldl g m).byType t =
      (((rs.filter fun r => decide (r.ev.type = t)).getLast?.map fun r => (f r, r.ev.ts)).or (Assoc.get m.byType t)) := by
  induction rs using Util.snocRec with
  | nil => simp
  | append_singleton rs r ih =>
    rw [List.foldl_append, List.filter_append]
    simp only [List.foldl_cons, List.foldl_nil]
    rw [hg, Assoc.get_set]
    by_cases h : t = r.ev.type
    · subst h; simp
    · rw [if_neg h, ih]; simp [Ne.symm h]

theorem fold_last (f : Row → Nat) (rs : List Row) (m : Meta) :
    (rs.foldl (fun m r => dispatch m (f r) r.ev) m).lastTs = (rs.getLast?.map (·.ev.ts)).getD m.lastTs := by
  induction rs using Util.snocRec with
  | nil => rfl
  | append_singleton rs r _ => rw [List.foldl_append]; simp [dispatch]

theorem newest_last {rows : List Row} (h : rows.Pairwise fun a b => a.nid < b.nid) (t : String) :
    newest rows t = (rows.filter fun r => decide (r.ev.type = t)).getLast? := by
  have hf := h.filter fun r => decide (r.ev.type = t)
  unfold newest
  generalize (rows.filter fun r => decide (r.ev.type = t)) = l at *
  induction l using Util.snocRec with
  | nil => rfl
  | append_singleton l r ih =>
    rw [List.foldl_append, ih (List.pairwise_append.1 hf).1]
    simp only [List.foldl_cons, List.foldl_nil, List.getLast?_concat]
    cases hl : l.getLast? with
    | none => rfl
    | some x =>
      simp only
      rw [if_pos ((List.pairwise_append.1 hf).2.2 x (List.mem_of_getLast? hl) r (by simp))]

theorem types_mem (rows : List Row) (t : String) : t ∈ types rows ↔ ∃ r ∈ rows, r.ev.type = t := by
  induction rows with
  | nil => simp [types]
  | cons r l ih =>
    simp only [types, List.mem_cons, List.mem_filter, ih, decide_eq_true_eq]
    constructor
    · rintro (h | ⟨⟨x, hx, h⟩, _⟩)
      · exact ⟨r, Or.inl rfl, h.symm⟩
      · exact ⟨x, Or.inr hx, h⟩
    · rintro ⟨x, hx | hx, h⟩
      · subst hx; exact Or.inl h.symm
      · by_cases ht : t = r.ev.type
        · exact Or.inl ht
        · exact Or.inr ⟨⟨x, hx, h⟩, ht⟩

theorem types_nodup (rows : List Row) : (types rows).Nodup := by
  induction rows with
  | nil => exact List.Pairwise.nil
  | cons r l ih =>
    refine List.Pairwise.cons (fun t ht h => ?_) (ih.filter _)
    have := (List.mem_filter.1 ht).2
    simp [h] at this

theorem newest_type {rows : List Row} (h : rows.Pairwise fun a b => a.nid < b.nid) {t : String} {r : Row} (hr : newest rows t = some r) :
    r ∈ rows ∧ r.ev.type = t := by
  rw [newest_last h] at hr
  have := List.mem_filter.1 (List.mem_of_getLast? hr)
  exact ⟨this.1, by simpa using this.2⟩

/-- Of each type the query has the newest row. -/
theorem query_filter {rows : List Row} (h : rows.Pairwise fun a b => a.nid < b.nid) (t : String) :
    (query rows).filter (fun r => decide (r.ev.type = t)) = (newest rows t).toList := by
  unfold query
  have key : ∀ ts : List String, ts.Nodup →
      (ts.filterMap (newest rows)).filter (fun r => decide (r.ev.type = t)) = if t ∈ ts then (newest rows t).toList else [] := by
    intro ts hn
    induction ts with
    | nil => simp
    | cons u ts ih =>
      rw [List.nodup_cons] at hn
      rw [List.filterMap_cons]
      cases hu : newest rows u with
      | none =>
        simp only
        rw [ih hn.2]
        by_cases htu : t = u
        · subst htu; simp [hn.1, hu]
        · simp [htu]
      | some r =>
        have hr := newest_type h hu
        simp only [List.filter_cons]
        rw [ih hn.2]
        by_cases htu : t = u
        · subst htu; simp [hn.1, hu, hr.2]
        · have : r.ev.type ≠ t := fun hh => htu (by rw [← hh, hr.2])
          simp [htu, this]
  rw [key _ (types_nodup rows)]
  by_cases ht : t ∈ types rows
  · rw [if_pos ht]
  · rw [if_neg ht, newest_last h]
    have : rows.filter (fun r => decide (r.ev.type = t)) = [] := by
      rw [List.filter_eq_nil_iff]
      intro r hr hrt
      exact ht ((types_mem rows t).2 ⟨r, hr, by simpa using hrt⟩)
    rw [this]; rfl

theorem load_get {rows : List Row} (h : rows.Pairwise fun a b => a.nid < b.nid) (t : String) :
    Assoc.get (load (query rows)).byType t =
      (rows.filter fun r => decide (r.ev.type = t)).getLast?.map fun r => (r.nid, r.ev.ts) := by
  unfold load
  rw [fold_get (fun r => r.nid) loadRow (fun m r => rfl), query_filter h, newest_last h]
  have : Assoc.get ({} : Meta).byType t = none := rfl
  rw [this]
  cases (rows.filter fun r => decide (r.ev.type = t)).getLast? <;> simp

theorem load_last (evs : List Row) (m : Meta) : m.lastTs ≤ (evs.foldl loadRow m).lastTs ∧
    (∀ r ∈ evs, r.ev.ts ≤ (evs.foldl loadRow m).lastTs) ∧
    ((evs.foldl loadRow m).lastTs = m.lastTs ∨ ∃ r ∈ evs, (evs.foldl loadRow m).lastTs = r.ev.ts) := by
  induction evs generalizing m with
  | nil => exact ⟨Nat.le_refl _, (fun r hr => by cases hr), Or.inl rfl⟩
  | cons r evs ih =>
    obtain ⟨h1, h2, h3⟩ := ih (loadRow m r)
    have hl : (loadRow m r).lastTs = if r.ev.ts > m.lastTs then r.ev.ts else m.lastTs := rfl
    have ha : m.lastTs ≤ (loadRow m r).lastTs ∧ r.ev.ts ≤ (loadRow m r).lastTs := by
      rw [hl]; split <;> omega
    rw [List.foldl_cons]
    refine ⟨by omega, fun x hx => ?_, ?_⟩
    · rcases List.mem_cons.1 hx with hx | hx
      · subst hx; omega
      · exact h2 x hx
    · rcases h3 with h3 | ⟨x, hx, h3⟩
      · by_cases hc : r.ev.ts > m.lastTs
        · rw [if_pos hc] at hl
          exact Or.inr ⟨r, List.mem_cons_self, h3.trans hl⟩
        · rw [if_neg hc] at hl
          exact Or.inl (h3.trans hl)
      · exact Or.inr ⟨x, List.mem_cons_of_mem _ hx, h3⟩

theorem query_mem {rows : List Row} (h : rows.Pairwise fun a b => a.nid < b.nid) (r : Row) :
    r ∈ query rows ↔ newest rows r.ev.type = some r := by
  constructor
  · intro hr
    obtain ⟨t, _, ht⟩ := List.mem_filterMap.1 hr
    rw [(newest_type h ht).2]; exact ht
  · intro hr
    exact List.mem_filterMap.2 ⟨r.ev.type, (types_mem rows _).2 ⟨r, (newest_type h hr).1, rfl⟩, hr⟩

/-! ## The theorems -/

theorem filter_map_ev (l : List Row) (t : String) :
    ((l.filter fun r => decide (r.ev.type = t)).getLast?.map (·.ev)) = lastOf (l.map (·.ev)) t := by
  unfold lastOf
  rw [List.filter_map, List.getLast?_map]
  rfl

theorem lastOf_append (l l' : List Ev) (t : String) : lastOf (l ++ l') t = (lastOf l' t).or (lastOf l t) := by
  unfold lastOf
  rw [List.filter_append, List.getLast?_append]

/-- For each type the cache has the time of the last event of this type that it has been told of. -/
theorem C100_types (ops : List Op) (t : String) :
    (Assoc.get (run ops).cache.byType t).map (·.2) =
      (lastOf (((marks ops).filter (·.2)).map (·.1)) t).map (·.ts) := by
  induction ops using Util.snocRec with
  | nil => rfl
  | append_singleton ops o ih =>
    have hi := inv ops
    have told : ∀ (b : Bool) (f : Row → Nat) (evs : List Ev),
        (Assoc.get (((number b (run ops).next evs).foldl (fun m r => dispatch m (f r) r.ev) (run ops).cache).byType) t).map (·.2) =
          (lastOf ((((marks ops) ++ evs.map fun e => (e, true)).filter (·.2)).map (·.1)) t).map (·.ts) := by
      intro b f evs
      rw [fold_get f _ (fun m r => rfl)]
      have h1 := filter_map_ev (number b (run ops).next evs) t
      rw [number_ev] at h1
      have h2 : ((evs.map fun e => (e, true)).filter (·.2)).map (·.1) = evs := by
        have : (evs.map fun e => (e, true)).filter (·.2) = evs.map fun e => (e, true) := by
          rw [List.filter_eq_self]; intro x hx; obtain ⟨e, _, rfl⟩ := List.mem_map.1 hx; rfl
        rw [this]; simp [Function.comp_def]
      rw [List.filter_append, List.map_append, h2, lastOf_append, ← h1]
      cases (List.filter (fun r => decide (r.ev.type = t)) (number b (run ops).next evs)).getLast? with
      | none => simpa using ih
      | some r => simp
    rw [run_snoc, marks_snoc]
    cases o with
    | timeline evs => exact told false (fun r => r.nid) evs
    | other k => exact ih
    | block evs =>
      show (Assoc.get (if (run ops).rows.isEmpty then _ else (run ops).cache).byType t).map (·.2) = _
      have he : (run ops).rows.isEmpty = (marks ops).isEmpty := by
        have := congrArg List.length hi.evs
        simp only [List.length_map] at this
        rw [Bool.eq_iff_iff, List.isEmpty_iff, List.isEmpty_iff, ← List.length_eq_zero_iff, ← List.length_eq_zero_iff, this]
      by_cases hb : (marks ops).isEmpty = true
      · rw [he, if_pos hb]
        simp only [markStep, hb]
        exact told true (fun _ => 0) evs
      · rw [he, if_neg hb, ih]
        have hb' : (marks ops).isEmpty = false := by simpa using hb
        simp only [markStep, hb']
        rw [List.filter_append]
        have : (evs.map fun e => (e, false)).filter (·.2) = [] := by
          rw [List.filter_eq_nil_iff]; intro x hx; obtain ⟨e, _, rfl⟩ := List.mem_map.1 hx; simp
        rw [this, List.append_nil]
    | restart =>
      show (Assoc.get (load (query (run ops).rows)).byType t).map (·.2) = _
      rw [load_get hi.asc]
      have h1 := filter_map_ev (run ops).rows t
      rw [hi.evs] at h1
      have h2 : (((marks ops).map fun x => (x.1, true)).filter (·.2)).map (·.1) = (marks ops).map (·.1) := by
        have : ((marks ops).map fun x => (x.1, true)).filter (·.2) = (marks ops).map fun x => (x.1, true) := by
          rw [List.filter_eq_self]; intro x hx; obtain ⟨e, _, rfl⟩ := List.mem_map.1 hx; rfl
        rw [this]; simp [Function.comp_def]
      show _ = (lastOf ((((marks ops).map fun x => (x.1, true)).filter (·.2)).map (·.1)) t).map (·.ts)
      rw [h2, ← h1]
      cases (List.filter (fun r => decide (r.ev.type = t)) (run ops).rows).getLast? <;> rfl

/-- After a restart the time of the room is the greatest among those of the last events of each type. -/
theorem C100_loaded (ops : List Op) :
    (∀ t e, lastOf ((marks ops).map (·.1)) t = some e → e.ts ≤ (run (ops ++ [.restart])).cache.lastTs) ∧
    (marks ops ≠ [] → ∃ t e, lastOf ((marks ops).map (·.1)) t = some e ∧ e.ts = (run (ops ++ [.restart])).cache.lastTs) := by
  have hi := inv ops
  rw [run_snoc]
  have hst : (step (run ops) .restart).cache.lastTs = (load (query (run ops).rows)).lastTs := rfl
  rw [hst]
  obtain ⟨_, h2, h3⟩ := load_last (query (run ops).rows) {}
  have hq : ∀ r t, newest (run ops).rows t = some r → lastOf ((marks ops).map (·.1)) t = some r.ev := by
    intro r t hr
    rw [newest_last hi.asc] at hr
    rw [← hi.evs, ← filter_map_ev, hr]; rfl
  constructor
  · intro t e he
    rw [← hi.evs, ← filter_map_ev] at he
    obtain ⟨r, hr, rfl⟩ := Option.map_eq_some_iff.1 he
    rw [← newest_last hi.asc] at hr
    refine h2 r ((query_mem hi.asc r).2 ?_)
    rw [(newest_type hi.asc hr).2]; exact hr
  · intro hne
    rcases h3 with h3 | ⟨r, hr, h3⟩
    · -- all times are 0
      have : (run ops).rows ≠ [] := by
        intro h; have := hi.evs; rw [h] at this; exact hne (by simpa using this.symm)
      obtain ⟨x, l, hx⟩ := List.exists_cons_of_ne_nil this
      have hx' : x ∈ (run ops).rows := by rw [hx]; simp
      cases hn : newest (run ops).rows x.ev.type with
      | none =>
        rw [newest_last hi.asc, List.getLast?_eq_none_iff] at hn
        have : x ∈ (run ops).rows.filter fun r => decide (r.ev.type = x.ev.type) := List.mem_filter.2 ⟨hx', by simp⟩
        rw [hn] at this; cases this
      | some r =>
        refine ⟨_, r.ev, hq r _ hn, ?_⟩
        have hle := h2 r ((query_mem hi.asc r).2 (by rw [(newest_type hi.asc hn).2]; exact hn))
        show r.ev.ts = (load _).lastTs
        have h3' : (load (query (run ops).rows)).lastTs = 0 := h3
        have hle' : r.ev.ts ≤ (load (query (run ops).rows)).lastTs := hle
        omega
    · exact ⟨_, r.ev, hq r _ ((query_mem hi.asc r).1 hr), h3.symm⟩

theorem last_is_max {l : List (Ev × Bool)} (hc : l.Pairwise fun a b => a.1.ts ≤ b.1.ts) {x : Ev × Bool} (hx : l.getLast? = some x) :
    ∀ y ∈ l, y.1.ts ≤ x.1.ts := by
  rcases List.eq_nil_or_concat l with rfl | ⟨l', z, rfl⟩
  · cases hx
  · simp only [List.concat_eq_append] at *
    rw [List.getLast?_concat, Option.some.injEq] at hx
    subst hx
    intro y hy
    rcases List.mem_append.1 hy with hy | hy
    · exact (List.pairwise_append.1 hc).2.2 y hy z (by simp)
    · rw [List.mem_singleton.1 hy]; exact Nat.le_refl _

/-- If the cache has been told of all events and clocks agree, the time of the room is that of the last event. -/
theorem last_ts (ops : List Op) (ht : AllTold ops) (hc : Clock ops) :
    (run ops).cache.lastTs = ((marks ops).getLast?.map (·.1.ts)).getD 0 := by
  induction ops using Util.snocRec with
  | nil => rfl
  | append_singleton ops o ih =>
    have hi := inv ops
    have told : ∀ (b : Bool) (f : Row → Nat) (evs : List Ev), AllTold ops → Clock ops →
        ((number b (run ops).next evs).foldl (fun m r => dispatch m (f r) r.ev) (run ops).cache).lastTs =
          (((marks ops) ++ evs.map fun e => (e, true)).getLast?.map (·.1.ts)).getD 0 := by
      intro b f evs h1 h2
      rw [fold_last, List.getLast?_append, ih h1 h2]
      have : (number b (run ops).next evs).getLast?.map (·.ev.ts) = evs.getLast?.map (·.ts) := by
        have h := number_ev b (run ops).next evs
        conv => rhs; rw [← h]
        rw [List.getLast?_map]; simp [Function.comp_def]
      rw [this, List.getLast?_map]
      cases evs.getLast? <;> simp
    unfold AllTold at ht
    unfold Clock at hc
    rw [marks_snoc] at ht hc
    rw [run_snoc, marks_snoc]
    cases o with
    | timeline evs =>
      exact told false (fun r => r.nid) evs (fun x hx => ht x (List.mem_append_left _ hx)) (List.pairwise_append.1 hc).1
    | other k => exact ih ht hc
    | block evs =>
      have h1 : AllTold ops := fun x hx => ht x (List.mem_append_left _ hx)
      have h2 : Clock ops := (List.pairwise_append.1 hc).1
      have he : (run ops).rows.isEmpty = (marks ops).isEmpty := by
        have := congrArg List.length hi.evs
        simp only [List.length_map] at this
        rw [Bool.eq_iff_iff, List.isEmpty_iff, List.isEmpty_iff, ← List.length_eq_zero_iff, ← List.length_eq_zero_iff, this]
      show (if (run ops).rows.isEmpty then _ else (run ops).cache).lastTs = _
      by_cases hb : (marks ops).isEmpty = true
      · rw [he, if_pos hb]
        simp only [markStep, hb]
        exact told true (fun _ => 0) evs h1 h2
      · rw [he, if_neg hb]
        cases evs with
        | nil => simpa [markStep] using ih h1 h2
        | cons e es =>
          have := ht (e, (marks ops).isEmpty) (List.mem_append_right _ (by simp))
          exact absurd this hb
    | restart =>
      have hmap : ∀ y ∈ marks ops, (y.1, true) ∈ markStep (marks ops) .restart := fun y hy => List.mem_map.2 ⟨y, hy, rfl⟩
      cases hl : (marks ops).getLast? with
      | none =>
        rw [List.getLast?_eq_none_iff] at hl
        have hr : (run ops).rows = [] := by
          have := hi.evs; rw [hl] at this; simpa using this
        show (load (query (run ops).rows)).lastTs = ((List.map _ (marks ops)).getLast?.map _).getD 0
        rw [hr, hl]; rfl
      | some x =>
        have hne : marks ops ≠ [] := by intro h; rw [h] at hl; cases hl
        obtain ⟨c1, c2⟩ := C100_loaded ops
        rw [run_snoc] at c1 c2
        have hlast : (markStep (marks ops) .restart).getLast? = some (x.1, true) := by
          show (List.map _ (marks ops)).getLast? = _
          rw [List.getLast?_map, hl]; rfl
        rw [hlast]
        show _ = x.1.ts
        have hmax := last_is_max hc hlast
        obtain ⟨t, e, he, hts⟩ := c2 hne
        have hm : e ∈ (marks ops).map (·.1) := by
          have := List.mem_of_getLast? he
          exact (List.mem_filter.1 this).1
        obtain ⟨y, hy, rfl⟩ := List.mem_map.1 hm
        have hle := hmax _ (hmap y hy)
        have hlo : lastOf ((marks ops).map (·.1)) x.1.type = some x.1 := by
          rcases List.eq_nil_or_concat (marks ops) with h0 | ⟨l', z, h0⟩
          · exact absurd h0 hne
          · rw [List.concat_eq_append] at h0
            rw [h0, List.getLast?_concat, Option.some.injEq] at hl
            subst hl
            unfold lastOf
            rw [h0]; simp
        have hge := c1 _ _ hlo
        simp only at hle
        omega

/-- A restart does not change the time of the room, if the cache has been told of all events and timestamps do not go back. Missing: if
it has not, or if they do, see below. -/
theorem C100_last_partial (ops : List Op) (ht : AllTold ops) (hc : Clock ops) :
    (run (ops ++ [.restart])).cache.lastTs = (run ops).cache.lastTs := by
  have ht' : AllTold (ops ++ [.restart]) := by
    unfold AllTold; rw [marks_snoc]; intro x hx; obtain ⟨y, _, rfl⟩ := List.mem_map.1 hx; rfl
  have hc' : Clock (ops ++ [.restart]) := by
    unfold Clock; rw [marks_snoc]; exact List.pairwise_map.2 hc
  rw [last_ts _ ht hc, last_ts _ ht' hc', marks_snoc]
  show ((List.map _ (marks ops)).getLast?.map _).getD 0 = _
  rw [List.getLast?_map]; cases (marks ops).getLast? <;> rfl

/-- Then the room's place in a list without bump event types is given by its last event. -/
theorem C100_recent_partial (ops : List Op) (ht : AllTold ops) (hc : Clock ops) (joinNid joinTs : Nat) (x : Ev × Bool)
    (hx : (marks ops).getLast? = some x) : interest [] joinNid joinTs (run ops).cache = x.1.ts := by
  show (run ops).cache.lastTs = _
  rw [last_ts ops ht hc, hx]; rfl

/-- The entries of the cache against the rows. -/
theorem entries (ops : List Op) (ht : AllTold ops) (t : String) :
    ((run ops).rows.filter fun r => decide (r.ev.type = t)).getLast? = none ∧ Assoc.get (run ops).cache.byType t = none ∨
    ∃ r n, ((run ops).rows.filter fun r => decide (r.ev.type = t)).getLast? = some r ∧
      Assoc.get (run ops).cache.byType t = some (n, r.ev.ts) ∧ (n = r.nid ∨ n = 0 ∧ r.isState = true) := by
  induction ops using Util.snocRec with
  | nil => exact Or.inl ⟨rfl, rfl⟩
  | append_singleton ops o ih =>
    have hi := inv ops
    have told : ∀ (b : Bool) (f : Row → Nat) (evs : List Ev), (∀ r, r.isState = b → (f r = r.nid ∨ f r = 0 ∧ r.isState = true)) →
        AllTold ops →
        ((((run ops).rows ++ number b (run ops).next evs).filter fun r => decide (r.ev.type = t)).getLast? = none ∧
          Assoc.get ((number b (run ops).next evs).foldl (fun m r => dispatch m (f r) r.ev) (run ops).cache).byType t = none ∨
        ∃ r n, (((run ops).rows ++ number b (run ops).next evs).filter fun r => decide (r.ev.type = t)).getLast? = some r ∧
          Assoc.get ((number b (run ops).next evs).foldl (fun m r => dispatch m (f r) r.ev) (run ops).cache).byType t = some (n, r.ev.ts) ∧
          (n = r.nid ∨ n = 0 ∧ r.isState = true)) := by
      intro b f evs hf h1
      rw [fold_get f _ (fun m r => rfl), List.filter_append, List.getLast?_append]
      cases hl : ((number b (run ops).next evs).filter fun r => decide (r.ev.type = t)).getLast? with
      | none =>
        rcases ih h1 with ⟨a, b⟩ | ⟨r, n, a, b, c⟩
        · exact Or.inl ⟨by simpa using a, by simpa using b⟩
        · exact Or.inr ⟨r, n, by simpa using a, by simpa using b, c⟩
      | some r =>
        refine Or.inr ⟨r, f r, rfl, rfl, hf r ?_⟩
        exact (number_mem b _ evs r (List.mem_filter.1 (List.mem_of_getLast? hl)).1).2.2
    unfold AllTold at ht
    rw [marks_snoc] at ht
    rw [run_snoc]
    cases o with
    | timeline evs => exact told false (fun r => r.nid) evs (fun r _ => Or.inl rfl) (fun x hx => ht x (List.mem_append_left _ hx))
    | other k => exact ih ht
    | block evs =>
      have h1 : AllTold ops := fun x hx => ht x (List.mem_append_left _ hx)
      have he : (run ops).rows.isEmpty = (marks ops).isEmpty := by
        have := congrArg List.length hi.evs
        simp only [List.length_map] at this
        rw [Bool.eq_iff_iff, List.isEmpty_iff, List.isEmpty_iff, ← List.length_eq_zero_iff, ← List.length_eq_zero_iff, this]
      simp only [step]
      by_cases hb : (marks ops).isEmpty = true
      · rw [he, if_pos hb]
        exact told true (fun _ => 0) evs (fun r hr => Or.inr ⟨rfl, hr⟩) h1
      · rw [he, if_neg hb]
        cases evs with
        | nil => simpa [number] using ih h1
        | cons e es =>
          have := ht (e, (marks ops).isEmpty) (List.mem_append_right _ (by simp))
          exact absurd this hb
    | restart =>
      simp only [step]
      rw [load_get hi.asc]
      cases hl : ((run ops).rows.filter fun r => decide (r.ev.type = t)).getLast? with
      | none => exact Or.inl ⟨rfl, rfl⟩
      | some r => exact Or.inr ⟨r, r.nid, rfl, rfl, Or.inl rfl⟩

/-- Nor does it change the place of the room in a list with bump event types, if for each of these types the last stored event came with
a timeline or is not after the join. -/
theorem C100_bump_partial (ops : List Op) (ht : AllTold ops) (bump : List String) (hb : bump ≠ []) (joinNid joinTs : Nat)
    (hs : ∀ t ∈ bump, ∀ r, ((run ops).rows.filter fun r => decide (r.ev.type = t)).getLast? = some r → r.isState = false ∨ r.nid ≤ joinNid) :
    interest bump joinNid joinTs (run (ops ++ [.restart])).cache = interest bump joinNid joinTs (run ops).cache := by
  have hi := inv ops
  unfold interest
  have he : bump.isEmpty = false := by simpa using hb
  rw [if_neg (by simp [he]), if_neg (by simp [he]), run_snoc]
  show bump.foldl _ joinTs = bump.foldl _ joinTs
  clear hb he
  induction bump generalizing joinTs with
  | nil => rfl
  | cons t bump ih =>
    simp only [List.foldl_cons]
    rw [ih _ fun t' ht' => hs t' (List.mem_cons_of_mem _ ht')]
    congr 1
    show better joinNid joinTs (Assoc.get (load (query (run ops).rows)).byType t) = _
    rw [load_get hi.asc]
    rcases entries ops ht t with ⟨a, b⟩ | ⟨r, n, a, b, c⟩
    · rw [a, b]; rfl
    · rw [a, b]
      simp only [better, Option.map_some, Option.getD_some]
      rcases c with c | ⟨c, cs⟩
      · rw [c]
      · rcases hs t List.mem_cons_self r a with h | h
        · rw [h] at cs; cases cs
        · rw [if_neg (by omega), if_neg (by omega)]

/-- The example: a first state block, messages, a restart, events of other rooms. -/
example : AllTold [.block [⟨"m.room.create", 10⟩, ⟨"m.room.member", 10⟩], .other 3, .timeline [⟨"m.room.message", 20⟩], .restart,
      .timeline [⟨"m.room.message", 30⟩]] ∧
    Clock [.block [⟨"m.room.create", 10⟩, ⟨"m.room.member", 10⟩], .other 3, .timeline [⟨"m.room.message", 20⟩], .restart,
      .timeline [⟨"m.room.message", 30⟩]] := by
  constructor
  · unfold AllTold; decide
  · unfold Clock; decide

/-- A later event with an earlier timestamp: the room has the time 50, and after a restart the time 100; a room with a time between
these is above it before and below it after. -/
theorem C100_violated_clock :
    let ops := [Op.timeline [⟨"m.room.member", 100⟩, ⟨"m.room.message", 50⟩]]
    AllTold ops ∧ (run ops).cache.lastTs = 50 ∧ (run (ops ++ [.restart])).cache.lastTs = 100 := by
  refine ⟨?_, by decide +kernel, by decide +kernel⟩
  unfold AllTold; decide

/-- An event known from the state block after a gap counts only after the restart, although clocks agree. -/
theorem C100_violated_gap :
    let ops := [Op.timeline [⟨"m.room.create", 10⟩, ⟨"m.room.message", 20⟩], .block [⟨"m.room.name", 30⟩]]
    Clock ops ∧ (run ops).cache.lastTs = 20 ∧ (run (ops ++ [.restart])).cache.lastTs = 30 := by
  refine ⟨?_, by decide +kernel, by decide +kernel⟩
  unfold Clock; decide

/-- The events of the first state block have no position in the cache, so those after the user's join do not count for bump event types;
after a restart they do. -/
theorem C100_violated_block :
    let ops := [Op.block [⟨"m.room.create", 10⟩, ⟨"m.room.member", 20⟩, ⟨"m.room.topic", 30⟩]]
    AllTold ops ∧ Clock ops ∧ interest ["m.room.topic"] 2 20 (run ops).cache = 20 ∧
      interest ["m.room.topic"] 2 20 (run (ops ++ [.restart])).cache = 30 := by
  refine ⟨?_, ?_, by decide +kernel, by decide +kernel⟩
  · unfold AllTold; decide
  · unfold Clock; decide

end Verif.Recency
