import Verif.StoreSim
/-!
# C38–C41: the stored events, the state of a room
-/
namespace Verif.Store

/-! ## C38 -/

/-- Positions ascend and are in range, no id twice. -/
structure TI (db : DB) : Prop where
  asc : db.rows.Pairwise fun a b => a.nid < b.nid
  range : ∀ r ∈ db.rows, 0 < r.nid ∧ r.nid ≤ db.seq
  ids : (db.rows.map (·.ev.id)).Nodup

theorem TI.of_core {a b : DB} (h : TI a) (hr : b.rows.map Row.core = a.rows.map Row.core) (h1 : b.seq = a.seq) : TI b := by
  refine ⟨?_, fun r hrm => ?_, ?_⟩
  · have h3 : (b.rows.map Row.core).Pairwise fun x y => x.1 < y.1 := by
      rw [hr, List.pairwise_map]; exact h.asc
    rw [List.pairwise_map] at h3; exact h3
  · have : r.core ∈ a.rows.map Row.core := hr ▸ List.mem_map_of_mem hrm
    obtain ⟨r', h3, h4⟩ := List.mem_map.1 this
    rw [← (core_eq h4).1, h1]; exact h.range r' h3
  · have : b.rows.map (·.ev.id) = a.rows.map (·.ev.id) := by
      have := congrArg (List.map fun c : Nat × String × Ev × Bool => c.2.2.1.id) hr
      simpa [List.map_map, Function.comp_def, Row.core] using this
    rw [this]; exact h.ids

theorem insert_table {db : DB} (h : TI db) (room : String) (st : Bool) (skip : Nat) (evs : List (Ev × Bool)) :
    TI (insert db room st skip evs).1 ∧ (insert db room st skip evs).1.rows = db.rows ++ (insert db room st skip evs).2 ∧
    (∀ r ∈ (insert db room st skip evs).2, db.seq < r.nid) ∧
    ((insert db room st skip evs).2.map (·.ev)).Sublist (evs.map (·.1)) ∧
    (∀ e ∈ evs, ∃ r ∈ (insert db room st skip evs).1.rows, r.ev.id = e.1.id) ∧ 
    (∀ r ∈ (insert db room st skip evs).2, ∀ q ∈ db.rows, q.ev.id ≠ r.ev.id) := by
  obtain ⟨new, h1, h2, h3, h4, h5, h6, h7, h8, h9⟩ := insertLoop_spec room st evs db.rows (db.seq + skip)
  have hnew : (insert db room st skip evs).2 = new := by simp [insert, h1]
  have hrows : (insert db room st skip evs).1.rows = db.rows ++ new := by simp [insert, h1]
  have hseq : (insert db room st skip evs).1.seq = db.seq + skip + evs.length := by simp [insert, h2]
  refine ⟨⟨?_, ?_, ?_⟩, by rw [hrows, hnew], ?_, by rw [hnew]; exact h5, by rw [hrows]; exact h8, by rw [hnew]; exact h6⟩
  · rw [hrows]
    refine List.pairwise_append.2 ⟨h.asc, h4, fun a ha b hb => ?_⟩
    have := (h.range a ha).2; have := (h3 b hb).1; omega
  · rw [hrows, hseq]
    intro r hr
    rcases List.mem_append.1 hr with hr | hr
    · have := h.range r hr; omega
    · have := h3 r hr; omega
  · rw [hrows, List.map_append]
    refine List.nodup_append.2 ⟨h.ids, h7, fun a ha b hb hab => ?_⟩
    obtain ⟨x, hx, rfl⟩ := List.mem_map.1 ha
    obtain ⟨y, hy, rfl⟩ := List.mem_map.1 hb
    exact h6 y hy x hx hab
  · rw [hnew]; intro r hr; have := (h3 r hr).1; omega

theorem accStep_core {st st' : DB × Nat} {ev : Row} (h : accStep st ev = some st') :
    st'.1.rows.map Row.core = st.1.rows.map Row.core ∧ st'.1.seq = st.1.seq := by
  unfold accStep at h
  split at h
  · split at h
    · cases h
    · split at h
      · cases h
      · simp only [Option.some.injEq] at h; subst h
        exact ⟨by simp only [updateBefore_core]; rfl, rfl⟩
  · simp only [Option.some.injEq] at h; subst h
    exact ⟨updateBefore_core _ _ _ _, rfl⟩

theorem accLoop_core (l : List Row) : ∀ {st st' : DB × Nat}, accLoop st l = some st' →
    st'.1.rows.map Row.core = st.1.rows.map Row.core ∧ st'.1.seq = st.1.seq := by
  induction l with
  | nil => intro st st' h; simp only [accLoop, Option.some.injEq] at h; subst h; exact ⟨rfl, rfl⟩
  | cons e es ih =>
    intro st st' h
    simp only [accLoop] at h
    cases h1 : accStep st e with
    | none => rw [h1] at h; cases h
    | some s1 =>
      rw [h1] at h
      have a := accStep_core h1
      have b := ih (st' := st') h
      exact ⟨b.1.trans a.1, b.2.trans a.2⟩

theorem init_rows (db : DB) (room : String) (skip : Nat) (block : List (Option Ev)) :
    step db (.init room skip block) = db ∨
    ((step db (.init room skip block)).rows = (insert db room true skip ((block.filterMap id).map fun e => (e, false))).1.rows ∧
     (step db (.init room skip block)).seq = (insert db room true skip ((block.filterMap id).map fun e => (e, false))).1.seq) := by
  simp only [step]
  unfold initialise
  split
  · left; rfl
  · dsimp only
    split
    · left; rfl
    · split
      · left; rfl
      · split
        · right; exact ⟨rfl, rfl⟩
        · split
          · left; rfl
          · right; exact ⟨rfl, rfl⟩

theorem acc_rows {db db' : DB} {room : String} {skip : Nat} {limited : Bool} {timeline : List (Option Ev)} {post : List Row}
    (h : accumulate db room skip limited timeline = some (db', post)) :
    (db' = db ∧ post = [] ∧ (filterNew db (dedup [] timeline) = [] ∨ 
      db.cur room = 0 ∧ ∃ e es, filterNew db (dedup [] timeline) = e :: es ∧ ¬ isCreate e)) ∨
    ∃ tagged, tagged.map (·.1) = filterNew db (dedup [] timeline) ∧
      db'.rows.map Row.core = (insert db room false skip tagged).1.rows.map Row.core ∧ db'.seq = (insert db room false skip tagged).1.seq ∧
      ((post = [] ∧ (insert db room false skip tagged).2 = []) ∨ post = (filterNew db (dedup [] timeline)).filterMap fun e =>
        (insert db room false skip tagged).2.find? (·.ev.id = e.id)) := by
  unfold accumulate at h
  dsimp only at h
  split at h
  · rename_i h0
    simp only [Option.some.injEq, Prod.mk.injEq] at h
    left; exact ⟨h.1.symm, h.2.symm, Or.inl h0⟩
  · rename_i first rest h0
    split at h
    · rename_i hg
      simp only [Option.some.injEq, Prod.mk.injEq] at h
      left; exact ⟨h.1.symm, h.2.symm, Or.inr ⟨hg.1, first, rest, h0, hg.2⟩⟩
    · right
      refine ⟨(filterNew db (dedup [] timeline)).map fun e => (e, missingPrevious limited (dedup [] timeline) first e),
        by rw [List.map_map]; simp [Function.comp_def], ?_⟩
      split at h
      · rename_i hl
        simp only [Option.some.injEq, Prod.mk.injEq] at h
        rw [← h.1, ← h.2]; exact ⟨rfl, rfl, Or.inl ⟨rfl, List.length_eq_zero_iff.1 hl⟩⟩
      · split at h
        · cases h
        · rename_i db2 snap hl
          simp only [Option.some.injEq, Prod.mk.injEq] at h
          have := accLoop_core _ hl
          rw [← h.1, ← h.2]
          exact ⟨this.1, this.2, Or.inr rfl⟩

/-- The events of a section, in order. -/
def Op.events : Op → List Ev
  | .init _ _ b => b.filterMap id
  | .acc _ _ _ t => t.filterMap id

theorem dedup_sublist (t : List (Option Ev)) : ∀ seen, (dedup seen t).Sublist (t.filterMap id) := by
  induction t with
  | nil => intro seen; simp [dedup]
  | cons o t ih =>
    intro seen
    cases o with
    | none => simpa [dedup] using ih seen
    | some e =>
      simp only [dedup, List.filterMap_cons, id]
      split
      · exact (ih seen).trans (List.sublist_cons_self _ _)
      · exact (ih _).cons_cons e

theorem filterNew_sublist (db : DB) (l : List Ev) : (filterNew db l).Sublist l := by
  unfold filterNew
  split
  · exact List.Sublist.refl _
  · dsimp only
    split
    · exact List.nil_sublist _
    · have := (List.takeWhile_sublist (l := l.reverse) fun e => !db.rows.any (·.ev.id = e.id)).reverse
      simpa using this

theorem step_table {db : DB} (h : TI db) (o : Op) :
    TI (step db o) ∧ ∃ new, (step db o).rows.map Row.core = db.rows.map Row.core ++ new ∧
      new.Pairwise (fun a b => a.1 < b.1) ∧
      (∀ c ∈ new, ∀ r ∈ db.rows, r.nid < c.1 ∧ r.ev.id ≠ c.2.2.1.id) ∧
      (new.map (fun c => c.2.2.1)).Sublist o.events := by
  have key : ∀ (room : String) (st : Bool) (skip : Nat) (evs : List (Ev × Bool)) (db' : DB),
      (evs.map (·.1)).Sublist o.events →
      db'.rows.map Row.core = (insert db room st skip evs).1.rows.map Row.core → db'.seq = (insert db room st skip evs).1.seq →
      TI db' ∧ ∃ new, db'.rows.map Row.core = db.rows.map Row.core ++ new ∧
      new.Pairwise (fun a b => a.1 < b.1) ∧
      (∀ c ∈ new, ∀ r ∈ db.rows, r.nid < c.1 ∧ r.ev.id ≠ c.2.2.1.id) ∧
      (new.map (fun c => c.2.2.1)).Sublist o.events := by
    intro room st skip evs db' hs hr hq
    obtain ⟨h1, h2, h3, h4, h5, h6⟩ := insert_table h room st skip evs
    refine ⟨h1.of_core hr hq, (insert db room st skip evs).2.map Row.core, by rw [hr, h2, List.map_append], ?_, ?_, ?_⟩
    · rw [List.pairwise_map]
      have := h1.asc; rw [h2] at this
      exact (List.pairwise_append.1 this).2.1
    · intro c hc r hrm
      obtain ⟨q, hq, rfl⟩ := List.mem_map.1 hc
      have a1 := (h.range r hrm).2; have a2 := h3 q hq
      exact ⟨by simp only [Row.core]; omega, h6 q hq r hrm⟩
    · rw [List.map_map]; exact h4.trans hs
  have same : TI db ∧ ∃ new, db.rows.map Row.core = db.rows.map Row.core ++ new ∧
      new.Pairwise (fun a b => a.1 < b.1) ∧
      (∀ c ∈ new, ∀ r ∈ db.rows, r.nid < c.1 ∧ r.ev.id ≠ c.2.2.1.id) ∧
      (new.map (fun c => c.2.2.1)).Sublist o.events := ⟨h, [], by simp, by simp, by simp, by simp⟩
  cases o with
  | init room skip block =>
    rcases init_rows db room skip block with hs | ⟨hr, hq⟩
    · rw [hs]; exact same
    · exact key _ _ _ _ _ (by rw [List.map_map]; simp [Function.comp_def, Op.events]) (by rw [hr]) hq
  | acc room skip limited timeline =>
    simp only [step]
    cases ha : accumulate db room skip limited timeline with
    | none => exact same
    | some p =>
      obtain ⟨db', post⟩ := p
      simp only [Option.map_some, Option.getD_some]
      rcases acc_rows ha with ⟨rfl, _⟩ | ⟨tagged, ht, hr, hq, _⟩
      · exact same
      · exact key _ _ _ _ _ (by rw [ht]; exact (filterNew_sublist db _).trans (dedup_sublist timeline [])) hr hq

theorem run_table (ops : List Op) : TI (run ops) := by
  induction ops using Verif.Util.snocRec with
  | nil => constructor <;> simp [run]
  | append_singleton l a ih =>
    simp only [run, List.foldl_append, List.foldl_cons, List.foldl_nil]
    exact (step_table ih a).1

/-- **C38.** For any sequence of state blocks and timelines, with any duplicates (also within one): a further
section keeps the position, room and contents of every stored event, and gives the new ones distinct, larger
positions in the order of the section; no id is stored twice. -/
theorem C38_positions (ops : List Op) (o : Op) :
    ((run (ops ++ [o])).rows.map (·.ev.id)).Nodup ∧
    ∃ new, (run (ops ++ [o])).rows.map Row.core = (run ops).rows.map Row.core ++ new ∧
      new.Pairwise (fun a b => a.1 < b.1) ∧
      (∀ c ∈ new, ∀ r ∈ (run ops).rows, r.nid < c.1 ∧ r.ev.id ≠ c.2.2.1.id) ∧
      (new.map (fun c => c.2.2.1)).Sublist o.events := by
  refine ⟨(run_table _).ids, ?_⟩
  have : run (ops ++ [o]) = step (run ops) o := by simp [run]
  rw [this]
  exact (step_table (run_table ops) o).2

/-- **C38.** Every event of a batch has a position afterwards: a new one, or the one it had. -/
theorem C38_stored (ops : List Op) (room : String) (st : Bool) (skip : Nat) (evs : List (Ev × Bool)) :
    ∀ e ∈ evs, ∃ r ∈ (insert (run ops) room st skip evs).1.rows, r.ev.id = e.1.id ∧
      ∀ q ∈ (insert (run ops) room st skip evs).1.rows, q.ev.id = e.1.id → q.nid = r.nid := by
  obtain ⟨h1, _, _, _, h5, _⟩ := insert_table (run_table ops) room st skip evs
  intro e he
  obtain ⟨r, hr, hre⟩ := h5 e he
  refine ⟨r, hr, hre, fun q hq hqe => ?_⟩
  have hn := h1.ids
  generalize (insert (run ops) room st skip evs).1.rows = l at hn hr hq
  induction l with
  | nil => simp at hr
  | cons x xs ih =>
    simp only [List.map_cons, List.nodup_cons] at hn
    rcases List.mem_cons.1 hr with hr' | hr' <;> rcases List.mem_cons.1 hq with hq' | hq'
    · rw [hr', hq']
    · subst hr'; exact absurd (List.mem_map.2 ⟨q, hq', hqe.trans hre.symm⟩) hn.1
    · subst hq'; exact absurd (List.mem_map.2 ⟨r, hr', hre.trans hqe.symm⟩) hn.1
    · exact ih hn.2 hr' hq'

def exCreate : Ev := { id := "$c", type := "m.room.create", hasKey := true }
def exMsg (id : String) : Ev := { id := id, type := "m.room.message" }
def exName (id : String) : Ev := { id := id, type := "m.room.name", hasKey := true }
def exInit : Op := .init "!r" 0 [some exCreate, some (exName "$n1")]

/-- Non-vacuity: a timeline with a duplicate and a known event. -/
example : ((run [exInit, .acc "!r" 3 false [some (exName "$n1"), some (exMsg "$a"), some (exMsg "$a"), some (exName "$n2")]]).rows.map
    fun r => (r.nid, r.ev.id)) = [(1, "$c"), (2, "$n1"), (6, "$a"), (7, "$n2")] := by decide +kernel

/-! ## C39 -/

/-- The ids stored. -/
def knownIds (db : DB) : List String := db.rows.map (·.ev.id)

theorem insert_unknown {db : DB} (hI : TI db) (room : String) (st : Bool) (skip : Nat) (evs : List (Ev × Bool))
    (hn : ((evs.map (·.1)).map (·.id)).Nodup) :
    (insert db room st skip evs).2.map (·.ev) = (evs.map (·.1)).filter fun e => decide (e.id ∉ knownIds db) := by
  obtain ⟨h1, h3, h4, h5, h6, h7⟩ := insert_table hI room st skip evs
  refine (sublist_filter h5 (nodup_of_ids hn)).trans (List.filter_congr fun e he => ?_)
  congr 1
  rw [eq_iff_iff]
  constructor
  · intro hm hx
    obtain ⟨r, hr, rfl⟩ := List.mem_map.1 hm
    obtain ⟨q, hq, hqe⟩ := List.mem_map.1 hx
    exact h7 r hr q hq hqe
  · intro hx
    obtain ⟨p, hp, rfl⟩ := List.mem_map.1 he
    obtain ⟨r, hr, hre⟩ := h6 p hp
    rw [h3] at hr
    rcases List.mem_append.1 hr with hr | hr
    · exact absurd (List.mem_map.2 ⟨r, hr, hre⟩) hx
    · have : r.ev = p.1 := ids_inj hn (h5.subset (List.mem_map_of_mem hr)) he hre
      exact List.mem_map.2 ⟨r, hr, this⟩

/-- **C39.** The accumulated events are those of the timeline, without duplicates, after the last known one –
unless nothing is known of the room and they do not begin with its create event: then nothing is. -/
theorem C39_accumulated (ops : List Op) {room : String} {skip : Nat} {limited : Bool} {timeline : List (Option Ev)} {db' : DB} {post : List Row}
    (h : accumulate (run ops) room skip limited timeline = some (db', post)) :
    post.map (·.ev) = newSuffix (knownIds (run ops)) (firsts (timeline.filterMap id)) ∨
    (post = [] ∧ db' = run ops ∧ (run ops).cur room = 0 ∧
      ∃ e es, newSuffix (knownIds (run ops)) (firsts (timeline.filterMap id)) = e :: es ∧ ¬ isCreate e) := by
  have hI := run_table ops
  have hincoming : dedup [] timeline = firsts (timeline.filterMap id) := by rw [dedup_spec]; simp
  have hFn := firsts_nodup (timeline.filterMap id)
  have hk : ∀ id, id ∈ knownIds (run ops) ↔ ∃ r ∈ (run ops).rows, r.ev.id = id := by
    intro id; simp [knownIds]
  have hf := filterNew_spec (run ops) (knownIds (run ops)) hk (firsts (timeline.filterMap id))
  have hs := newSuffix_suffix (knownIds (run ops)) (firsts (timeline.filterMap id))
  have hu := newSuffix_unknown (knownIds (run ops)) (firsts (timeline.filterMap id))
  rcases acc_rows h with ⟨h1, h2, h3⟩ | ⟨tagged, ht, _, _, hp⟩
  · rcases h3 with h3 | ⟨h3, e, es, h4, h5⟩
    · left
      rw [hincoming] at h3
      rcases hf with hf | ⟨e, he, hek, hfe⟩
      · rw [← hf, h3, h2]; rfl
      · rw [hfe] at h3; cases h3
    · rw [hincoming] at h4
      rcases hf with hf | ⟨e', he, hek, hfe⟩
      · right; exact ⟨h2, h1, h3, e, es, hf ▸ h4, h5⟩
      · left; rw [h2, he]; simp [newSuffix, hek]
  · left
    rw [hincoming] at ht hp
    rcases hf with hf | ⟨e, he, hek, hfe⟩
    · have hnod : ((tagged.map (·.1)).map (·.id)).Nodup := by
        rw [ht, hf]; exact (hs.sublist.map _).nodup hFn
      have hins := insert_unknown hI room false skip tagged hnod
      rw [ht, hf, List.filter_eq_self.2 (fun x hx => by simpa using hu x hx)] at hins
      rcases hp with ⟨hp, h0⟩ | hp
      · rw [← hins, h0, hp]
      · rw [hp, hf, find_filterMap _ _ ((hs.sublist.map _).nodup hFn) (by rw [hins]; exact List.Sublist.refl _), hins]
    · have hnod : ((tagged.map (·.1)).map (·.id)).Nodup := by rw [ht, hfe]; simp
      have hins := insert_unknown hI room false skip tagged hnod
      rw [ht, hfe] at hins
      simp only [hek, not_true, decide_false, List.filter_cons, Bool.false_eq_true, if_false, List.filter_nil] at hins
      have hi0 := List.eq_nil_of_map_eq_nil hins
      have hN : newSuffix (knownIds (run ops)) (firsts (timeline.filterMap id)) = [] := by
        rw [he]; simp [newSuffix, hek]
      rw [hN]
      rcases hp with ⟨hp, _⟩ | hp
      · rw [hp]; rfl
      · rw [hp, hfe, hi0]; rfl

theorem newSuffix_all_known (known : List String) (l : List Ev) (h : ∀ e ∈ l.getLast?, e.id ∈ known) : newSuffix known l = [] := by
  induction l with
  | nil => rfl
  | cons e es ih =>
    unfold newSuffix
    rw [if_pos]
    · cases es with
      | nil => rfl
      | cons a as => exact ih (by simpa using h)
    · cases hl : (e :: es).getLast? with
      | none => simp at hl
      | some x => exact ⟨x, List.mem_of_getLast? hl, h x (by simpa using hl)⟩

/-- **C39.** If the last event of the timeline is known – in particular if all are – nothing is accumulated. -/
theorem C39_known (ops : List Op) {room : String} {skip : Nat} {limited : Bool} {timeline : List (Option Ev)} {db' : DB} {post : List Row}
    (h : accumulate (run ops) room skip limited timeline = some (db', post))
    (hk : ∀ e ∈ (firsts (timeline.filterMap id)).getLast?, e.id ∈ knownIds (run ops)) : post = [] := by
  rcases C39_accumulated ops h with h1 | h1
  · rw [newSuffix_all_known _ _ hk] at h1; exact List.eq_nil_of_map_eq_nil h1
  · exact h1.1

/-- **C39.** Replaying a timeline accumulates nothing. -/
theorem C39_replay (ops : List Op) {room : String} {skip skip' : Nat} {limited limited' : Bool} {timeline : List (Option Ev)} {db'' : DB}
    {post' : List Row}
    (hne : accumulate (run ops) room skip limited timeline ≠ none)
    (h : accumulate (run (ops ++ [.acc room skip limited timeline])) room skip' limited' timeline = some (db'', post')) : post' = [] := by
  cases h1 : accumulate (run ops) room skip limited timeline with
  | none => exact absurd h1 hne
  | some p =>
    obtain ⟨db', post⟩ := p
    have hrun : run (ops ++ [.acc room skip limited timeline]) = db' := by simp [run, step] at *; simp [h1]
    have hI := run_table ops
    have hincoming : dedup [] timeline = firsts (timeline.filterMap id) := by rw [dedup_spec]; simp
    have hk : ∀ id, id ∈ knownIds (run ops) ↔ ∃ r ∈ (run ops).rows, r.ev.id = id := by
      intro id; simp [knownIds]
    have hs := newSuffix_suffix (knownIds (run ops)) (firsts (timeline.filterMap id))
    rcases C39_accumulated ops h1 with hp | ⟨_, hdb, hc, e, es, he, hcr⟩
    · apply C39_known _ h
      intro e he
      rw [hrun]
      by_cases hN : newSuffix (knownIds (run ops)) (firsts (timeline.filterMap id)) = []
      · -- the last one was already known
        have hkn : e.id ∈ knownIds (run ops) := by
          refine Classical.byContradiction fun hno => ?_
          obtain ⟨pre, hpre⟩ := List.getLast?_eq_some_iff.1 (show (firsts (timeline.filterMap id)).getLast? = some e by simpa using he)
          have hgen : ∀ pre : List Ev, newSuffix (knownIds (run ops)) (pre ++ [e]) ≠ [] := by
            intro pre
            induction pre with
            | nil => simp [newSuffix, hno]
            | cons a as ih =>
              rw [List.cons_append]
              unfold newSuffix
              split
              · exact ih
              · simp
          rw [hpre] at hN; exact hgen pre hN
        obtain ⟨r, hr, hre⟩ := (hk _).1 hkn
        have := (step_table hI (.acc room skip limited timeline)).2
        obtain ⟨new, hnew, _⟩ := this
        have hst : step (run ops) (.acc room skip limited timeline) = db' := by simp [step, h1]
        rw [hst] at hnew
        have hm : r.core ∈ db'.rows.map Row.core := by rw [hnew]; exact List.mem_append_left _ (List.mem_map_of_mem hr)
        obtain ⟨q, hq, hqc⟩ := List.mem_map.1 hm
        exact List.mem_map.2 ⟨q, hq, by rw [(core_eq hqc).2.2.1]; exact hre⟩
      · -- it was accumulated
        have hlast : e ∈ post.map (·.ev) := by
          rw [hp]
          obtain ⟨pre, hpre⟩ := hs
          have he' : (firsts (timeline.filterMap id)).getLast? = some e := by simpa using he
          rw [← hpre, List.getLast?_append] at he'
          cases hgl : (newSuffix (knownIds (run ops)) (firsts (timeline.filterMap id))).getLast? with
          | none => rw [List.getLast?_eq_none_iff] at hgl; exact absurd hgl hN
          | some x =>
            rw [hgl, Option.some_or, Option.some.injEq] at he'
            subst he'; exact List.mem_of_getLast? hgl
        obtain ⟨r, hr, rfl⟩ := List.mem_map.1 hlast
        rcases acc_rows h1 with ⟨_, h2, _⟩ | ⟨tagged, ht, hrows, _, hpp⟩
        · rw [h2] at hr; simp at hr
        · have hrin : r ∈ (insert (run ops) room false skip tagged).2 := by
            rcases hpp with ⟨hpp, _⟩ | hpp
            · rw [hpp] at hr; simp at hr
            · rw [hpp, List.mem_filterMap] at hr
              obtain ⟨x, _, hx⟩ := hr
              exact List.mem_of_find?_eq_some hx
          have hm : r.core ∈ db'.rows.map Row.core := by
            rw [hrows, (insert_table hI room false skip tagged).2.1]
            exact List.mem_map_of_mem (List.mem_append_right _ hrin)
          obtain ⟨q, hq, hqc⟩ := List.mem_map.1 hm
          exact List.mem_map.2 ⟨q, hq, by rw [(core_eq hqc).2.2.1]⟩
    · -- refused before, refused again
      rw [hrun, hdb] at h
      unfold accumulate at h
      dsimp only at h
      have hf : filterNew (run ops) (dedup [] timeline) = e :: es := by
        rw [hincoming]
        rcases filterNew_spec (run ops) (knownIds (run ops)) hk (firsts (timeline.filterMap id)) with hf | ⟨e', he', hek, hfe⟩
        · rw [hf, he]
        · rw [he'] at he; simp [newSuffix, hek] at he
      rw [hf] at h
      simp only at h
      rw [if_pos ⟨hc, hcr⟩] at h
      simp only [Option.some.injEq, Prod.mk.injEq] at h
      exact h.2.symm

/-- Non-vacuity: the timeline has an old unknown event, a known one, and two new ones, one of them twice. -/
example : ((accumulate (run [exInit]) "!r" 0 false [some (exMsg "$old"), some (exName "$n1"), some (exMsg "$a"), some (exMsg "$a"), some (exName "$n2")]).map
    fun p => p.2.map (·.ev.id)) = some ["$a", "$n2"] := by decide +kernel

end Verif.Store
