import Verif.StoreHist
import Verif.Visibility
import Verif.VisibilityProps
/-!
# C79: a stored event not marked as missing its predecessor directly follows the one before it

`state/accumulator.go:346-372`, `state/event_table.go:420-440`.
-/
namespace Verif.Store

open Verif

/-! ## Specification -/

/-- `y` directly follows `x` upstream. -/
def Follows (up : List Ev) (x y : String) : Prop := ∃ p q, up.map (·.id) = p ++ x :: y :: q

/-- The timeline of a room, in the order of the positions: the ids, and whether the predecessor is missing. -/
def timelineOf (db : DB) (room : String) : List (String × Bool) :=
  (db.rows.filter fun r => decide (r.room = room) && !r.isState).map fun r => (r.ev.id, r.missing)

/-- No unmarked holes. -/
def NoHoles (up : List Ev) (l : List (String × Bool)) : Prop :=
  ∀ a x y b, l = a ++ x :: y :: b → y.2 = false → Follows up x.1 y.1

/-- A sync of a poller which has news of the room: a state block (none if empty) and the events `i … i + n - 1` of the upstream
timeline; or anything in other rooms. -/
inductive Sync
  | room (skip : Nat) (block : List Ev) (skip' : Nat) (limited : Bool) (i n : Nat)
  | other (o : Op)

def Sync.ops (up : List Ev) (room : String) : Sync → List Op
  | .room k b k' l i n => (if b = [] then [] else [.init room k (b.map some)]) ++ [.acc room k' l (((up.drop i).take n).map some)]
  | .other o => [o]

def opsOf (up : List Ev) (room : String) (h : List Sync) : List Op := h.flatMap (Sync.ops up room)

/-- The end of a sync in the upstream timeline. -/
def Sync.stop : Sync → Nat
  | .room _ _ _ _ i n => i + n
  | .other _ => 0

def reached (h : List Sync) : Nat := (h.map Sync.stop).foldl max 0

def Op.room : Op → String
  | .init r _ _ => r
  | .acc r _ _ _ => r

/-- What is assumed of a sync after those of `h`: it has at least one event, and the state before it; it ends no earlier than
those before it; unless it is limited, it leaves no gap; other rooms have other events. -/
def OkSync (up : List Ev) (room : String) (h : List Sync) : Sync → Prop
  | .room _ b _ l i n => 0 < n ∧ i + n ≤ up.length ∧ (b.map (·.id)).Nodup ∧ (∀ e ∈ b, e ∈ up.take i) ∧
      reached h ≤ i + n ∧ (l = false → i ≤ reached h)
  | .other o => o.room ≠ room ∧ OkOp o ∧ ∀ e ∈ o.events, ∀ x ∈ up, x.id ≠ e.id

def OkSyncs (up : List Ev) (room : String) (h : List Sync) : Prop :=
  ∀ a s b, h = a ++ s :: b → OkSync up room a s

/-- An upstream timeline: no event twice, no type with the separator, and the create event is a state event. -/
def OkUp (up : List Ev) : Prop := (up.map (·.id)).Nodup ∧ ∀ e ∈ up, Clean e ∧ (isCreate e → e.hasKey = true)

/-! ## Rows of the table -/

def Row.ext (r : Row) : (Nat × String × Ev × Bool) × Bool := (r.core, r.missing)

theorem updateBefore_ext (db : DB) (nid snap rep : Nat) : (updateBefore db nid snap rep).rows.map Row.ext = db.rows.map Row.ext := by
  simp only [updateBefore, List.map_map]
  apply List.map_congr_left
  intro r _
  simp only [Function.comp]
  split <;> rfl

theorem accStep_ext {st st' : DB × Nat} {ev : Row} (h : accStep st ev = some st') :
    st'.1.rows.map Row.ext = st.1.rows.map Row.ext ∧ (st.2 ≠ 0 ∨ ev.ev.hasKey = true → st'.2 ≠ 0) := by
  unfold accStep at h
  split at h
  · split at h
    · cases h
    · split at h
      · cases h
      · simp only [Option.some.injEq] at h; subst h
        exact ⟨by simp only [updateBefore_ext]; rfl, fun _ => by simp [insertSnap]⟩
  · rename_i hk
    simp only [Option.some.injEq] at h; subst h
    refine ⟨updateBefore_ext _ _ _ _, fun h => ?_⟩
    rcases h with h | h
    · exact h
    · exact absurd h hk

theorem accLoop_ext (l : List Row) : ∀ {st st' : DB × Nat}, accLoop st l = some st' →
    st'.1.rows.map Row.ext = st.1.rows.map Row.ext ∧ (st.2 ≠ 0 ∨ (∃ e, l.head? = some e ∧ e.ev.hasKey = true) → st'.2 ≠ 0) := by
  induction l with
  | nil =>
    intro st st' h; simp only [accLoop, Option.some.injEq] at h; subst h
    exact ⟨rfl, by simp⟩
  | cons e es ih =>
    intro st st' h
    simp only [accLoop] at h
    cases h1 : accStep st e with
    | none => rw [h1] at h; cases h
    | some s1 =>
      rw [h1] at h
      have a := accStep_ext h1
      have b := ih (st' := st') h
      refine ⟨b.1.trans a.1, fun hor => b.2 (Or.inl (a.2 ?_))⟩
      rcases hor with hor | ⟨x, hx, hxk⟩
      · exact Or.inl hor
      · simp only [List.head?_cons, Option.some.injEq] at hx
        exact Or.inr (hx ▸ hxk)

/-- Distinct unknown events are all inserted, as they are. -/
theorem insertLoop_all (room : String) (st : Bool) (es : List (Ev × Bool)) : ∀ (rows : List Row) (n : Nat),
    (es.map (·.1.id)).Nodup → (∀ e ∈ es, ∀ r ∈ rows, r.ev.id ≠ e.1.id) →
    ∃ new, (insertLoop room st rows n es).1 = rows ++ new ∧ new.map (fun r => (r.ev, r.missing)) = es ∧
      ∀ r ∈ new, r.room = room ∧ r.isState = st := by
  induction es with
  | nil => intro rows n _ _; exact ⟨[], by simp [insertLoop]⟩
  | cons e es ih =>
    intro rows n hn hk
    unfold insertLoop
    have hk' : ¬ rows.any (·.ev.id = e.1.id) = true := by
      intro h
      obtain ⟨r, hr, hre⟩ := List.any_eq_true.1 h
      exact hk e (by simp) r hr (by simpa using hre)
    rw [if_neg hk']
    simp only [List.map_cons, List.nodup_cons] at hn
    obtain ⟨new, h1, h2, h3⟩ := ih (rows ++ [{ nid := n + 1, room := room, ev := e.1, isState := st, missing := e.2 }]) (n + 1) hn.2 (by
      intro x hx r hr
      rcases List.mem_append.1 hr with hr | hr
      · exact hk x (List.mem_cons_of_mem _ hx) r hr
      · rw [List.mem_singleton.1 hr]
        intro he
        exact hn.1 (List.mem_map.2 ⟨x, hx, he.symm⟩))
    refine ⟨{ nid := n + 1, room := room, ev := e.1, isState := st, missing := e.2 } :: new, by rw [h1]; simp, by simp [h2], ?_⟩
    intro r hr
    rcases List.mem_cons.1 hr with hr | hr
    · rw [hr]; exact ⟨rfl, rfl⟩
    · exact h3 r hr

/-- The timeline and the ids of a room only depend on these columns. -/
def tlOf (l : List ((Nat × String × Ev × Bool) × Bool)) (room : String) : List (String × Bool) :=
  (l.filter fun c => decide (c.1.2.1 = room) && !c.1.2.2.2).map fun c => (c.1.2.2.1.id, c.2)

theorem timelineOf_ext (db : DB) (room : String) : timelineOf db room = tlOf (db.rows.map Row.ext) room := by
  simp only [timelineOf, tlOf, List.filter_map, List.map_map]
  rfl

theorem timelineOf_append {db db' : DB} {new : List Row} (h : db'.rows.map Row.ext = (db.rows ++ new).map Row.ext) (room : String) :
    timelineOf db' room = timelineOf db room ++
      (new.filter fun r => decide (r.room = room) && !r.isState).map fun r => (r.ev.id, r.missing) := by
  rw [timelineOf_ext, h, ← timelineOf_ext { db with rows := db.rows ++ new }]
  simp [timelineOf]

theorem ids_ext {db db' : DB} {new : List Row} (h : db'.rows.map Row.ext = (db.rows ++ new).map Row.ext) :
    db'.rows.map (·.ev.id) = db.rows.map (·.ev.id) ++ new.map (·.ev.id) := by
  have := congrArg (List.map fun c : (Nat × String × Ev × Bool) × Bool => c.1.2.2.1.id) h
  simpa [List.map_map, Function.comp_def, Row.core, Row.ext] using this

/-- The ids known. -/
def ids (db : DB) : List String := db.rows.map (·.ev.id)

/-! ## One section -/

/-- A state block: it adds rows outside of the timeline, of events of the block. -/
theorem init_gap (db : DB) (room : String) (skip : Nat) (block : List (Option Ev)) :
    (∀ r, timelineOf (step db (.init room skip block)) r = timelineOf db r) ∧
    (∀ i ∈ ids (step db (.init room skip block)), i ∈ ids db ∨ ∃ e ∈ block.filterMap id, e.id = i) ∧
    (∀ i ∈ ids db, i ∈ ids (step db (.init room skip block))) ∧
    (∀ r, r ≠ room → (step db (.init room skip block)).cur r = db.cur r) ∧
    (db.cur room ≠ 0 → (step db (.init room skip block)).cur room ≠ 0) ∧
    ((step db (.init room skip block)).cur room = 0 → ids (step db (.init room skip block)) = ids db) := by
  obtain ⟨new, h1, h2, h3, h4, h5, h6, h7, h8, h9⟩ :=
    insertLoop_spec room true ((block.filterMap id).map fun e => (e, false)) db.rows (db.seq + skip)
  have hins : (insert db room true skip ((block.filterMap id).map fun e => (e, false))).1.rows = db.rows ++ new := by simp [insert, h1]
  have hnew : (insert db room true skip ((block.filterMap id).map fun e => (e, false))).2 = new := by simp [insert, h1]
  have hrows : ∀ db' : DB, db'.rows = db.rows ++ new → (∀ r, timelineOf db' r = timelineOf db r) ∧
      (∀ i ∈ ids db', i ∈ ids db ∨ ∃ e ∈ block.filterMap id, e.id = i) ∧ (∀ i ∈ ids db, i ∈ ids db') := by
    intro db' h
    refine ⟨fun r => ?_, fun i hi => ?_, fun i hi => ?_⟩
    · rw [timelineOf_append (db := db) (by rw [h])]
      have : (new.filter fun x => decide (x.room = r) && !x.isState) = [] := by
        rw [List.filter_eq_nil_iff]
        intro x hx
        simp [(h3 x hx).2.2.2.1]
      rw [this]; simp
    · simp only [ids, h, List.map_append, List.mem_append] at hi
      rcases hi with hi | hi
      · exact Or.inl hi
      · right
        obtain ⟨x, hx, rfl⟩ := List.mem_map.1 hi
        have := h5.subset (List.mem_map_of_mem (f := fun r : Row => r.ev) hx)
        exact ⟨x.ev, by simpa using this, rfl⟩
    · simp only [ids, h, List.map_append, List.mem_append]; exact Or.inl hi
  have same : (∀ r, timelineOf db r = timelineOf db r) ∧
    (∀ i ∈ ids db, i ∈ ids db ∨ ∃ e ∈ block.filterMap id, e.id = i) ∧ (∀ i ∈ ids db, i ∈ ids db) ∧
    (∀ r, r ≠ room → db.cur r = db.cur r) ∧ (db.cur room ≠ 0 → db.cur room ≠ 0) ∧ (db.cur room = 0 → ids db = ids db) :=
    ⟨fun _ => rfl, fun _ h => Or.inl h, fun _ h => h, fun _ _ => rfl, fun h => h, fun _ => rfl⟩
  simp only [step]
  unfold initialise
  split
  · exact same
  · dsimp only
    split
    · exact same
    · split
      · exact same
      · split
        · rename_i hl
          have hr := hrows (insert db room true skip ((block.filterMap id).map fun e => (e, false))).1 hins
          refine ⟨hr.1, hr.2.1, hr.2.2, fun _ _ => rfl, fun h => h, fun _ => ?_⟩
          have : new = [] := by rw [← hnew]; exact List.length_eq_zero_iff.1 hl
          simp only [Option.getD_some, ids, hins, this, List.append_nil]
        · split
          · exact same
          · refine ⟨(hrows _ hins).1, (hrows _ hins).2.1, (hrows _ hins).2.2, ?_, ?_, ?_⟩
            · intro r hr; simp only [Option.getD_some, if_neg hr]
            · intro _; simp [insertSnap]
            · intro h; simp [insertSnap] at h

/-- A timeline: nothing is stored, or the new events with the mark on the first of all. -/
theorem acc_gap {db db' : DB} {room : String} {skip : Nat} {limited : Bool} {timeline : List (Option Ev)} {post : List Row}
    (h : accumulate db room skip limited timeline = some (db', post)) :
    (db' = db ∧ (filterNew db (dedup [] timeline) = [] ∨ db.cur room = 0)) ∨
    ∃ first rest, filterNew db (dedup [] timeline) = first :: rest ∧
      db'.rows.map Row.ext = (insertLoop room false db.rows (db.seq + skip) ((first :: rest).map fun e =>
        (e, missingPrevious limited (dedup [] timeline) first e))).1.map Row.ext ∧
      (∀ r, r ≠ room → db'.cur r = db.cur r) ∧
      (db.cur room ≠ 0 → db'.cur room ≠ 0) ∧
      ((∀ e ∈ first :: rest, ∀ r ∈ db.rows, r.ev.id ≠ e.id) → ((first :: rest).map (·.id)).Nodup →
        (isCreate first → first.hasKey = true) → db'.cur room ≠ 0) := by
  unfold accumulate at h
  dsimp only at h
  split at h
  · rename_i h0
    simp only [Option.some.injEq, Prod.mk.injEq] at h
    left; exact ⟨h.1.symm, Or.inl h0⟩
  · rename_i first rest h0
    split at h
    · rename_i hg
      simp only [Option.some.injEq, Prod.mk.injEq] at h
      left; exact ⟨h.1.symm, Or.inr hg.1⟩
    · rename_i hg
      right
      rw [h0] at h
      refine ⟨first, rest, h0, ?_⟩
      generalize htg : ((first :: rest).map fun e => (e, missingPrevious limited (dedup [] timeline) first e)) = tagged at h ⊢
      have hall : (∀ e ∈ first :: rest, ∀ r ∈ db.rows, r.ev.id ≠ e.id) → ((first :: rest).map (·.id)).Nodup →
          ∃ r, (insert db room false skip tagged).2.find? (·.ev.id = first.id) = some r ∧ r.ev = first := by
        intro hun hnd
        obtain ⟨new, h1, h2, _⟩ := insertLoop_all room false tagged db.rows (db.seq + skip)
          (by rw [← htg, List.map_map]; exact hnd)
          (by
            rw [← htg]
            intro e he
            obtain ⟨x, hx, rfl⟩ := List.mem_map.1 he
            exact hun x hx)
        have hn : (insert db room false skip tagged).2 = new := by simp [insert, h1]
        rw [hn]
        rw [← htg] at h2
        cases new with
        | nil => simp at h2
        | cons r new =>
          simp only [List.map_cons, List.cons.injEq, Prod.mk.injEq] at h2
          exact ⟨r, by simp [h2.1.1], h2.1.1⟩
      split at h
      · rename_i hl
        simp only [Option.some.injEq, Prod.mk.injEq] at h
        rw [← h.1]
        refine ⟨rfl, fun _ _ => rfl, fun h => h, fun hun hnd _ => ?_⟩
        obtain ⟨r, hr, _⟩ := hall hun hnd
        rw [List.length_eq_zero_iff.1 hl] at hr; simp at hr
      · split at h
        · cases h
        · rename_i db2 snap hl
          simp only [Option.some.injEq, Prod.mk.injEq] at h
          have he := accLoop_ext _ hl
          rw [← h.1]
          refine ⟨he.1, fun r hr => by simp only [if_neg hr], fun h0 => ?_, fun hun hnd hc => ?_⟩
          · simp only [if_true]
            exact he.2 (Or.inl h0)
          · simp only [if_true]
            by_cases hz : db.cur room = 0
            · refine he.2 (Or.inr ?_)
              obtain ⟨r, hr, hre⟩ := hall hun hnd
              refine ⟨r, by simp [List.filterMap_cons, hr], ?_⟩
              rw [hre]
              refine hc ?_
              apply Classical.byContradiction
              intro hn
              exact hg ⟨hz, hn⟩
            · exact he.2 (Or.inl hz)

theorem dedup_nodup {l : List Ev} (h : (l.map (·.id)).Nodup) : dedup [] (l.map some) = l := by
  have : ∀ (l : List Ev) (seen : List String), (l.map (·.id)).Nodup → (∀ e ∈ l, e.id ∉ seen) → dedup seen (l.map some) = l := by
    intro l
    induction l with
    | nil => intro _ _ _; rfl
    | cons e l ih =>
      intro seen hn hs
      simp only [List.map_cons, List.nodup_cons] at hn
      simp only [List.map_cons, dedup, if_neg (hs e (by simp))]
      rw [ih (e.id :: seen) hn.2 (fun x hx => by
        simp only [List.mem_cons, not_or]
        exact ⟨fun he => hn.1 (List.mem_map.2 ⟨x, hx, he⟩), hs x (List.mem_cons_of_mem _ hx)⟩)]
  exact this l [] h (by simp)

/-! ## The invariant -/

structure GInv (up : List Ev) (room : String) (e : Nat) (db : DB) : Prop where
  /-- nothing from the future -/
  past : ∀ x ∈ up.drop e, x.id ∉ ids db
  holes : NoHoles up (timelineOf db room)
  none : timelineOf db room = [] → ∀ x ∈ up, x.id ∉ ids db
  last : ∀ t, (timelineOf db room).getLast? = some t → ((up.take e).map (·.id)).getLast? = some t.1
  cur : timelineOf db room ≠ [] → db.cur room ≠ 0

theorem mem_ids {db : DB} {i : String} : i ∈ ids db ↔ ∃ r ∈ db.rows, r.ev.id = i := by simp [ids]

theorem noHoles_append {up : List Ev} {l l' : List (String × Bool)} (h : NoHoles up l) (h' : NoHoles up l')
    (hm : ∀ x y, l.getLast? = some x → l'.head? = some y → y.2 = false → Follows up x.1 y.1) : NoHoles up (l ++ l') := by
  intro a x y b he hy
  rcases List.append_eq_append_iff.1 he with ⟨c, h1, h2⟩ | ⟨c, h1, h2⟩
  · -- a = l ++ c
    exact h' c x y b h2 hy
  · cases c with
    | nil => 
      simp only [List.nil_append] at h2
      exact h' [] x y b h2.symm hy
    | cons z c =>
      simp only [List.cons_append, List.cons.injEq] at h2
      obtain ⟨rfl, h2⟩ := h2
      cases c with
      | nil =>
        simp only [List.nil_append] at h2
        exact hm x y (by rw [h1]; simp) (by rw [← h2]; rfl) hy
      | cons w c =>
        simp only [List.cons_append, List.cons.injEq] at h2
        obtain ⟨rfl, h2⟩ := h2
        exact h a x y c h1 hy

/-- A part of the upstream timeline has no holes. -/
theorem noHoles_segment {up seg p q : List Ev} (h : up = p ++ seg ++ q) (f : Ev → Bool) : NoHoles up (seg.map fun e => (e.id, f e)) := by
  intro a x y b he _
  refine ⟨p.map (·.id) ++ a.map (·.1), b.map (·.1) ++ q.map (·.id), ?_⟩
  have : seg.map (·.id) = a.map (·.1) ++ x.1 :: y.1 :: b.map (·.1) := by
    have := congrArg (List.map Prod.fst) he
    simpa [List.map_map, Function.comp_def] using this
  rw [h, List.map_append, List.map_append, this]
  simp

theorem take_drop_split (up : List Ev) (i n : Nat) : up = up.take i ++ (up.drop i).take n ++ up.drop (i + n) := by
  rw [List.append_assoc]
  conv => lhs; rw [← List.take_append_drop i up]
  congr 1
  conv => lhs; rw [← List.take_append_drop n (up.drop i)]
  rw [List.drop_drop]

theorem nodup_split {up : List Ev} (h : (up.map (·.id)).Nodup) (e : Nat) {x y : Ev} (hx : x ∈ up.take e) (hy : y ∈ up.drop e) : x.id ≠ y.id := by
  rw [← List.take_append_drop e up, List.map_append] at h
  exact (List.nodup_append.1 h).2.2 _ (List.mem_map_of_mem hx) _ (List.mem_map_of_mem hy)

theorem step_other {up : List Ev} {room : String} {e : Nat} {db : DB} (h : GInv up room e db) (o : Op) (hr : o.room ≠ room)
    (hev : ∀ x ∈ o.events, ∀ y ∈ up, y.id ≠ x.id) : GInv up room e (step db o) := by
  have key : ∀ db' : DB, timelineOf db' room = timelineOf db room → (∀ i ∈ ids db', i ∈ ids db ∨ ∃ x ∈ o.events, x.id = i) →
      db'.cur room = db.cur room → GInv up room e db' := by
    intro db' h1 h2 h3
    refine ⟨fun x hx hi => ?_, by rw [h1]; exact h.holes, fun h0 x hx hi => ?_, by rw [h1]; exact h.last, by rw [h1, h3]; exact h.cur⟩
    · rcases h2 _ hi with h4 | ⟨y, hy, hye⟩
      · exact h.past x hx h4
      · exact hev y hy x (List.mem_of_mem_drop hx) hye.symm
    · rcases h2 _ hi with h4 | ⟨y, hy, hye⟩
      · exact h.none (by rw [← h1]; exact h0) x hx h4
      · exact hev y hy x hx hye.symm
  cases o with
  | init r k b =>
    obtain ⟨h1, h2, _, h4, _⟩ := init_gap db r k b
    exact key _ (h1 room) h2 (h4 room (Ne.symm hr))
  | acc r k l t =>
    simp only [step]
    cases ha : accumulate db r k l t with
    | none => exact h
    | some p =>
      obtain ⟨db', post⟩ := p
      simp only [Option.map_some, Option.getD_some]
      rcases acc_gap ha with ⟨rfl, _⟩ | ⟨first, rest, hf, hrows, hc, _⟩
      · exact h
      · obtain ⟨new, h1, _, h3, _, h5, _⟩ := insertLoop_spec r false ((first :: rest).map fun e =>
          (e, missingPrevious l (dedup [] t) first e)) db.rows (db.seq + k)
        rw [h1] at hrows
        refine key db' ?_ ?_ (hc room (Ne.symm hr))
        · rw [timelineOf_append hrows]
          have : (new.filter fun x => decide (x.room = room) && !x.isState) = [] := by
            rw [List.filter_eq_nil_iff]
            intro x hx
            rw [(h3 x hx).2.2.1]
            have hr' : ¬ r = room := hr
            simp [hr']
          rw [this]; simp
        · intro i hi
          unfold ids at hi
          rw [ids_ext hrows] at hi
          rcases List.mem_append.1 hi with hi | hi
          · exact Or.inl hi
          · right
            obtain ⟨x, hx, rfl⟩ := List.mem_map.1 hi
            have := h5.subset (List.mem_map_of_mem (f := fun r : Row => r.ev) hx)
            rw [List.map_map] at this
            have hm : x.ev ∈ first :: rest := by simpa [Function.comp_def] using this
            rw [← hf] at hm
            exact ⟨x.ev, ((filterNew_sublist db _).trans (dedup_sublist t [])).subset hm, rfl⟩

theorem newSuffix_none {known : List String} {l : List Ev} (h : ∀ x ∈ l, x.id ∉ known) : newSuffix known l = l := by
  cases l with
  | nil => rfl
  | cons x l =>
    simp only [newSuffix]
    rw [if_neg]
    rintro ⟨y, hy, hyk⟩
    exact h y hy hyk

theorem newSuffix_after {known : List String} (a b : List Ev) (x : Ev) (hx : x.id ∈ known) (hb : ∀ y ∈ b, y.id ∉ known) :
    newSuffix known (a ++ x :: b) = b := by
  induction a with
  | nil =>
    simp only [List.nil_append, newSuffix]
    rw [if_pos ⟨x, by simp, hx⟩, newSuffix_none hb]
  | cons y a ih =>
    simp only [List.cons_append, newSuffix]
    rw [if_pos ⟨x, by simp, hx⟩, ih]

/-- After a state block for the room. -/
structure MInv (up : List Ev) (room : String) (e i : Nat) (db : DB) : Prop where
  past : ∀ x ∈ up.drop e, x ∈ up.drop i → x.id ∉ ids db
  holes : NoHoles up (timelineOf db room)
  none : timelineOf db room = [] → ∀ x ∈ up.drop i, x.id ∉ ids db
  none' : timelineOf db room = [] → db.cur room = 0 → ∀ x ∈ up, x.id ∉ ids db
  from_ : ∀ x ∈ up.drop e, x.id ∈ ids db → x ∈ up.take i
  last : ∀ t, (timelineOf db room).getLast? = some t → ((up.take e).map (·.id)).getLast? = some t.1
  stored : ∀ t ∈ timelineOf db room, t.1 ∈ ids db
  cur : timelineOf db room ≠ [] → db.cur room ≠ 0

theorem timeline_ids {db : DB} {room : String} {t : String × Bool} (h : t ∈ timelineOf db room) : t.1 ∈ ids db := by
  simp only [timelineOf, List.mem_map, List.mem_filter] at h
  obtain ⟨r, ⟨hr, _⟩, rfl⟩ := h
  exact mem_ids.2 ⟨r, hr, rfl⟩

theorem step_block {up : List Ev} {room : String} {e : Nat} {db : DB} (hup : OkUp up) (h : GInv up room e db) (k : Nat) (b : List Ev)
    (i : Nat) (hb : ∀ x ∈ b, x ∈ up.take i) :
    MInv up room e i ((if b = [] then [] else [Op.init room k (b.map some)]).foldl step db) := by
  by_cases h0 : b = []
  · rw [if_pos h0]
    exact ⟨fun x hx _ => h.past x hx, h.holes, fun ht x hx => h.none ht x (List.mem_of_mem_drop hx), fun ht _ => h.none ht,
      fun x hx hi => absurd hi (h.past x hx), h.last, fun t ht => timeline_ids ht, h.cur⟩
  · rw [if_neg h0]
    simp only [List.foldl_cons, List.foldl_nil]
    obtain ⟨h1, h2, h3, _, h5, h6⟩ := init_gap db room k (b.map some)
    have hfm : (b.map some).filterMap id = b := by simp [List.filterMap_map]
    rw [hfm] at h2
    refine ⟨fun x hx hxi hi => ?_, by rw [h1]; exact h.holes, fun ht x hx hi => ?_, fun ht hc x hx hi => ?_, fun x hx hi => ?_, by rw [h1]; exact h.last,
      fun t ht => timeline_ids ht, fun ht => h5 (h.cur (by rw [← h1]; exact ht))⟩
    · rcases h2 _ hi with h4 | ⟨y, hy, hye⟩
      · exact h.past x hx h4
      · exact nodup_split hup.1 i (hb y hy) hxi hye
    · rcases h2 _ hi with h4 | ⟨y, hy, hye⟩
      · exact h.none (by rw [← h1]; exact ht) x (List.mem_of_mem_drop hx) h4
      · exact nodup_split hup.1 i (hb y hy) hx hye
    · rw [h6 hc] at hi
      exact h.none (by rw [← h1]; exact ht) x hx hi
    · rcases h2 _ hi with h4 | ⟨y, hy, hye⟩
      · exact absurd h4 (h.past x hx)
      · have hyt := hb y hy
        have : y = x := ids_inj hup.1 (List.mem_of_mem_take hyt) (List.mem_of_mem_drop hx) hye
        rw [← this]; exact hyt

theorem drop_take_drop {up : List Ev} {i n e : Nat} (hie : i ≤ e) (hen : e ≤ i + n) :
    (up.drop i).take n = (up.drop i).take (e - i) ++ (up.drop e).take (i + n - e) := by
  have h1 : up.drop e = (up.drop i).drop (e - i) := by rw [List.drop_drop]; congr 1; omega
  have h2 : n = (e - i) + (i + n - e) := by omega
  rw [h1]
  conv => lhs; rw [h2]
  rw [List.take_add]

theorem step_timeline {up : List Ev} {room : String} {e : Nat} {db : DB} (hup : OkUp up) (i n : Nat) (h : MInv up room e i db) (k : Nat) (l : Bool)
    (hn : 0 < n) (hin : i + n ≤ up.length) (he : e ≤ i + n) (hl : l = false → i ≤ e)
    (hna : accumulate db room k l (((up.drop i).take n).map some) ≠ none) :
    GInv up room (i + n) (step db (.acc room k l (((up.drop i).take n).map some))) := by
  obtain ⟨⟨db', post⟩, ha⟩ := Option.ne_none_iff_exists'.1 hna
  simp only [step, ha, Option.map_some, Option.getD_some]
  have hsegn : (((up.drop i).take n).map (·.id)).Nodup := by
    have h1 : ((up.drop i).take n).Sublist up := (List.take_sublist _ _).trans (List.drop_sublist _ _)
    exact (h1.map _).nodup hup.1
  have hded := dedup_nodup hsegn
  have hsegl : ((up.drop i).take n).length = n := by rw [List.length_take, List.length_drop]; omega
  have hkn : ∀ x, x ∈ ids db ↔ ∃ r ∈ db.rows, r.ev.id = x := fun x => mem_ids
  have hfn := filterNew_spec db (ids db) hkn ((up.drop i).take n)
  have hunk : ∀ x ∈ (up.drop i).take n, x ∈ up.drop e → x.id ∉ ids db := fun x hx hxe => h.past x hxe (List.mem_of_mem_take hx)
  -- the last of the segment is the last upstream event so far
  have hlastseg : ∀ w, ((up.drop i).take n).getLast? = some w → ((up.take (i + n)).map (·.id)).getLast? = some w.id := by
    intro w hw
    have : up.take (i + n) = up.take i ++ (up.drop i).take n := by rw [List.take_add]
    rw [this, List.map_append, List.getLast?_append, List.getLast?_map, hw]; rfl
  -- nothing stored, all known: the end has been reached before
  have hsame : db' = db → (i + n ≤ e) → GInv up room (i + n) db' := by
    intro hd hle
    have : i + n = e := by omega
    subst this
    rw [hd]
    refine ⟨fun x hx => h.past x hx ?_, h.holes, fun ht => ?_, h.last, h.cur⟩
    · rw [← List.drop_drop] at hx; exact List.mem_of_mem_drop hx
    · -- unreachable unless nothing is known
      intro x hx hi
      by_cases hc : db.cur room = 0
      · exact h.none' ht hc x hx hi
      · exfalso
        have hun : ∀ x ∈ (up.drop i).take n, x.id ∉ ids db := fun x hx => h.none ht x (List.mem_of_mem_take hx)
        have hne : (up.drop i).take n ≠ [] := by intro h0; rw [h0] at hsegl; simp at hsegl; omega
        rcases acc_gap ha with ⟨_, hor⟩ | ⟨first, rest, hf, hrows, _⟩
        · rcases hor with hor | hor
          · rw [hded] at hor
            rcases hfn with hfn | ⟨w, hw, hwk, hfw⟩
            · rw [hfn, newSuffix_none hun] at hor; exact hne hor
            · rw [hfw] at hor; cases hor
          · exact hc hor
        · rw [hded] at hf
          have hf' : first :: rest = (up.drop i).take n := by
            rcases hfn with hfn | ⟨w, hw, hwk, hfw⟩
            · rw [← hf, hfn, newSuffix_none hun]
            · rw [← hf, hfw, hw]
          obtain ⟨new, h1, h2, h3⟩ := insertLoop_all room false ((first :: rest).map fun e =>
              (e, missingPrevious l (dedup [] (((up.drop i).take n).map some)) first e)) db.rows (db.seq + k)
            (by rw [List.map_map, hf']; exact hsegn)
            (by
              rw [hf']
              intro y hy r hr hre
              obtain ⟨x, hx, rfl⟩ := List.mem_map.1 hy
              exact hun x hx (mem_ids.2 ⟨r, hr, hre⟩))
          rw [h1] at hrows
          have := congrArg List.length hrows
          rw [hd] at this
          have hlen := congrArg List.length h2
          rw [List.length_map, List.length_map, List.length_append] at this
          rw [List.length_map, List.length_map, List.length_cons] at hlen
          omega
  rcases acc_gap ha with ⟨hd, hor⟩ | ⟨first, rest, hf, hrows, _, hcur, hcur'⟩
  · by_cases hle : i + n ≤ e
    · exact hsame hd hle
    · -- the last event is unknown, so the room has no snapshot
      have hc0 : db.cur room = 0 := by
        rcases hor with hor | hor
        · exfalso
          rw [hded] at hor
          have hlt : e < i + n := by omega
          rcases hfn with hfn | ⟨w, hw, hwk, hfw⟩
          · rw [hfn] at hor
            have hlastw : ∃ w, ((up.drop i).take n).getLast? = some w ∧ w ∈ up.drop e := by
              refine ⟨up[i + n - 1], ?_, ?_⟩
              · rw [List.getLast?_eq_getElem?, hsegl, List.getElem?_take, if_pos (by omega), List.getElem?_drop]
                rw [List.getElem?_eq_getElem (by omega)]
                congr 1
                congr 1
                omega
              · rw [List.mem_drop_iff_getElem]
                exact ⟨i + n - 1 - e, by omega, by congr 1; omega⟩
            obtain ⟨w, hw1, hw2⟩ := hlastw
            have hwu := hunk w (List.mem_of_getLast? hw1) hw2
            -- the new suffix contains the last event
            have : ∀ (s : List Ev) (w : Ev), s.getLast? = some w → w.id ∉ ids db → newSuffix (ids db) s ≠ [] := by
              intro s
              induction s with
              | nil => intro w hw _; simp at hw
              | cons y s ih =>
                intro w hw hwk
                simp only [newSuffix]
                split
                · rename_i hex
                  cases s with
                  | nil =>
                    obtain ⟨z, hz, hzk⟩ := hex
                    simp only [List.mem_singleton] at hz
                    simp only [List.getLast?_singleton, Option.some.injEq] at hw
                    subst hz; subst hw
                    exact absurd hzk hwk
                  | cons y' s' =>
                    refine ih w ?_ hwk
                    simpa [List.getLast?_cons] using hw
                · simp
            exact this _ w hw1 hwu hor
          · rw [hfw] at hor; cases hor
        · exact hor
      have ht : timelineOf db room = [] := by
        apply Classical.byContradiction
        intro ht; exact h.cur ht hc0
      rw [hd]
      exact ⟨fun x hx => h.none' ht hc0 x (List.mem_of_mem_drop hx), h.holes, fun _ => h.none' ht hc0, by rw [ht]; simp, fun h' => absurd ht h'⟩
  · rw [hded] at hf hrows
    -- a single known event
    by_cases hknown : ∃ w, (up.drop i).take n = [w] ∧ w.id ∈ ids db
    · obtain ⟨w, hw, hwk⟩ := hknown
      have hle : i + n ≤ e := by
        apply Classical.byContradiction
        intro hlt
        have h1 : n = 1 := by rw [hw] at hsegl; simp at hsegl; omega
        have : w ∈ up.drop e := by
          have hwi : w ∈ up.drop i := List.mem_of_mem_take (i := n) (by rw [hw]; simp)
          have : i ≤ e ∨ e < i := by omega
          have hei : e ≤ i := by omega
          have h2 : up.drop i = (up.drop e).drop (i - e) := by rw [List.drop_drop]; congr 1; omega
          rw [h2] at hwi; exact List.mem_of_mem_drop hwi
        exact hunk w (by rw [hw]; simp) this hwk
      have hfw : first :: rest = [w] := by
        rw [← hf, hw]; rfl
      simp only [List.cons.injEq] at hfw
      rw [hfw.1, hfw.2] at hrows
      obtain ⟨r, hr, hre⟩ := mem_ids.1 hwk
      have hany : (db.rows.any fun x => decide (x.ev.id = w.id)) = true := List.any_eq_true.2 ⟨r, hr, by simpa using hre⟩
      simp only [List.map_cons, List.map_nil, insertLoop, hany, if_true] at hrows
      have heq : i + n = e := by omega
      subst heq
      have hids : ids db' = ids db := by
        have := ids_ext (db := db) (db' := db') (new := []) (by rw [hrows, List.append_nil])
        simpa [ids] using this
      have htl : timelineOf db' room = timelineOf db room := by
        rw [timelineOf_ext, hrows, ← timelineOf_ext]
      have htne : timelineOf db room ≠ [] := by
        intro ht
        exact h.none ht w (List.mem_of_mem_take (i := n) (by rw [hw]; simp)) hwk
      refine ⟨fun x hx => ?_, by rw [htl]; exact h.holes, fun ht => absurd (htl ▸ ht) htne, by rw [htl]; exact h.last, fun _ => hcur (h.cur htne)⟩
      rw [hids]
      exact h.past x hx (by rw [← List.drop_drop] at hx; exact List.mem_of_mem_drop hx)
    · have hfs : first :: rest = newSuffix (ids db) ((up.drop i).take n) := by
        rcases hfn with hfn | ⟨w, hw, hwk, _⟩
        · rw [← hf, hfn]
        · exact absurd ⟨w, hw, hwk⟩ hknown
      have hsuf := newSuffix_suffix (ids db) ((up.drop i).take n)
      have hunew := newSuffix_unknown (ids db) ((up.drop i).take n)
      rw [← hfs] at hsuf hunew
      have hun' : ∀ y ∈ first :: rest, ∀ r ∈ db.rows, r.ev.id ≠ y.id := fun y hy r hr hre => hunew y hy (mem_ids.2 ⟨r, hr, hre⟩)
      have hnd' : ((first :: rest).map (·.id)).Nodup := (hsuf.sublist.map _).nodup hsegn
      obtain ⟨new, h1, h2, h3⟩ := insertLoop_all room false ((first :: rest).map fun e =>
          (e, missingPrevious l ((up.drop i).take n) first e)) db.rows (db.seq + k)
        (by rw [List.map_map]; exact hnd')
        (by
          intro y hy
          obtain ⟨x, hx, rfl⟩ := List.mem_map.1 hy
          exact hun' x hx)
      rw [h1] at hrows
      have hfil : (new.filter fun r => decide (r.room = room) && !r.isState) = new := by
        rw [List.filter_eq_self]
        intro x hx
        simp [h3 x hx]
      have htl : timelineOf db' room = timelineOf db room ++
          (first :: rest).map fun y => (y.id, missingPrevious l ((up.drop i).take n) first y) := by
        rw [timelineOf_append hrows, hfil]
        have := congrArg (List.map fun p : Ev × Bool => (p.1.id, p.2)) h2
        rw [List.map_map, List.map_map] at this
        congr 1
      have hids : ids db' = ids db ++ (first :: rest).map (·.id) := by
        unfold ids
        rw [ids_ext hrows]
        congr 1
        have := congrArg (List.map fun p : Ev × Bool => p.1.id) h2
        rw [List.map_map, List.map_map] at this
        exact this
      have hfmem : first ∈ up := List.mem_of_mem_drop (List.mem_of_mem_take (hsuf.subset (List.mem_cons_self ..)))
      obtain ⟨pre, hpre⟩ := hsuf
      refine ⟨fun x hx hi => ?_, ?_, fun ht => ?_, fun t ht => ?_, fun _ => hcur' hun' hnd' (hup.2 first hfmem).2⟩
      · rw [hids] at hi
        have hxi : x ∈ up.drop i := by rw [← List.drop_drop] at hx; exact List.mem_of_mem_drop hx
        rcases List.mem_append.1 hi with hi | hi
        · have hxe : x ∈ up.drop e := by
            have : up.drop (i + n) = (up.drop e).drop (i + n - e) := by rw [List.drop_drop]; congr 1; omega
            rw [this] at hx; exact List.mem_of_mem_drop hx
          exact h.past x hxe hxi hi
        · obtain ⟨y, hy, hye⟩ := List.mem_map.1 hi
          have hyt : y ∈ up.take (i + n) := by
            rw [List.take_add]
            exact List.mem_append_right _ (by rw [← hpre]; exact List.mem_append_right _ hy)
          exact nodup_split hup.1 (i + n) hyt hx hye
      · rw [htl]
        refine noHoles_append h.holes ?_ ?_
        · refine noHoles_segment (p := up.take i ++ pre) (q := up.drop (i + n)) ?_ _
          conv => lhs; rw [take_drop_split up i n, ← hpre]
          simp
        · intro x y hx hy hy2
          simp only [List.map_cons, List.head?_cons, Option.some.injEq] at hy
          subst hy
          simp only at hy2 ⊢
          have htne : timelineOf db room ≠ [] := by intro h0; rw [h0] at hx; simp at hx
          have hxl := h.last x hx
          have hxk := h.stored x (List.mem_of_getLast? hx)
          -- the last known event is upstream event e - 1
          have hepos : 0 < e := by
            cases e with
            | zero => simp at hxl
            | succ e => omega
          obtain ⟨w, hw1, hw2⟩ : ∃ w, (up.take e).getLast? = some w ∧ w.id = x.1 := by
            rw [List.getLast?_map, Option.map_eq_some_iff] at hxl
            exact hxl
          obtain ⟨p, hp⟩ : ∃ p, up.take e = p ++ [w] := by
            rcases List.eq_nil_or_concat (up.take e) with h0 | ⟨p, z, hz⟩
            · rw [h0] at hw1; simp at hw1
            · rw [hz] at hw1; simp at hw1
              exact ⟨p, by rw [hz, hw1]; simp⟩
          by_cases hie : i < e
          · -- the segment overlaps what is known
            have hseg := drop_take_drop (up := up) (Nat.le_of_lt hie) he
            have hlast : ∃ p', (up.drop i).take (e - i) = p' ++ [w] := by
              have h4 : up.take e = up.take i ++ (up.drop i).take (e - i) := by
                rw [← List.take_add]; congr 1; omega
              rcases List.eq_nil_or_concat ((up.drop i).take (e - i)) with h0 | ⟨p', z, hz⟩
              · have := congrArg List.length h0
                rw [List.length_take, List.length_drop] at this
                simp at this; omega
              · refine ⟨p', ?_⟩
                rw [h4, hz] at hw1
                simp at hw1
                rw [hz, hw1]; simp
            obtain ⟨p', hp'⟩ := hlast
            have hfr : first :: rest = (up.drop e).take (i + n - e) := by
              rw [hfs, hseg, hp', List.append_assoc, List.singleton_append]
              refine newSuffix_after _ _ _ (by rw [hw2]; exact hxk) ?_
              intro y hy
              have hye := List.mem_of_mem_take hy
              refine h.past y hye ?_
              have : up.drop e = (up.drop i).drop (e - i) := by rw [List.drop_drop]; congr 1; omega
              rw [this] at hye; exact List.mem_of_mem_drop hye
            refine ⟨p.map (·.id), rest.map (·.id) ++ (up.drop (i + n)).map (·.id), ?_⟩
            have h5 : up.drop e = first :: rest ++ up.drop (i + n) := by
              rw [hfr]
              conv => lhs; rw [← List.take_append_drop (i + n - e) (up.drop e)]
              rw [List.drop_drop]; congr 2; omega
            conv => lhs; rw [← List.take_append_drop e up, hp, h5]
            simp [hw2]
          · -- the segment starts at or after the end
            have hall : ∀ y ∈ (up.drop i).take n, y.id ∉ ids db := by
              intro y hy
              have hyi := List.mem_of_mem_take hy
              refine h.past y ?_ hyi
              have : up.drop i = (up.drop e).drop (i - e) := by rw [List.drop_drop]; congr 1; omega
              rw [this] at hyi; exact List.mem_of_mem_drop hyi
            have hfr : first :: rest = (up.drop i).take n := by rw [hfs, newSuffix_none hall]
            have hlf : l = false := by
              rw [← hfr] at hy2
              simpa [missingPrevious] using hy2
            have hei : e = i := by have := hl hlf; omega
            refine ⟨p.map (·.id), rest.map (·.id) ++ (up.drop (i + n)).map (·.id), ?_⟩
            conv => lhs; rw [take_drop_split up i n, ← hfr, ← hei, hp]
            simp [hw2, hei]
      · rw [htl] at ht; simp at ht
      · rw [htl, List.getLast?_append] at ht
        have hw : ∃ w, (first :: rest).getLast? = some w := by
          cases hg : (first :: rest).getLast? with
          | none => simp at hg
          | some w => exact ⟨w, rfl⟩
        obtain ⟨w, hw⟩ := hw
        rw [List.getLast?_map, hw] at ht
        simp only [Option.map_some, Option.some_or, Option.some.injEq] at ht
        rw [← ht]
        refine hlastseg w ?_
        rw [← hpre, List.getLast?_append, hw]; rfl

theorem reached_snoc (h : List Sync) (s : Sync) : reached (h ++ [s]) = max (reached h) s.stop := by
  simp [reached, List.foldl_append]

theorem opsOf_snoc (up : List Ev) (room : String) (h : List Sync) (s : Sync) : opsOf up room (h ++ [s]) = opsOf up room h ++ s.ops up room := by
  simp [opsOf]

theorem ops_ok {up : List Ev} {room : String} (hup : OkUp up) {h : List Sync} {s : Sync} (hs : OkSync up room h s) : ∀ o ∈ s.ops up room, OkOp o := by
  intro o ho
  cases s with
  | other o' =>
    simp only [Sync.ops, List.mem_singleton] at ho
    rw [ho]; exact hs.2.1
  | room k b k' l i n =>
    obtain ⟨_, _, h3, h4, _⟩ := hs
    have hfm : ∀ l : List Ev, (l.map some).filterMap id = l := by intro l; simp [List.filterMap_map]
    simp only [Sync.ops, List.mem_append, List.mem_singleton] at ho
    rcases ho with ho | ho
    · by_cases hb : b = []
      · rw [if_pos hb] at ho; simp at ho
      · rw [if_neg hb, List.mem_singleton] at ho
        rw [ho]
        simp only [OkOp]
        rw [hfm]
        exact ⟨h3, fun e he => (hup.2 e (List.mem_of_mem_take (h4 e he))).1⟩
    · rw [ho]
      simp only [OkOp]
      rw [hfm]
      exact fun e he => (hup.2 e (List.mem_of_mem_drop (List.mem_of_mem_take he))).1

theorem syncs_ok {up : List Ev} {room : String} (hup : OkUp up) {h : List Sync} (hok : OkSyncs up room h) : ∀ o ∈ opsOf up room h, OkOp o := by
  intro o ho
  obtain ⟨s, hs, hos⟩ := List.mem_flatMap.1 ho
  obtain ⟨a, b, rfl⟩ := List.append_of_mem hs
  exact ops_ok hup (hok a s b rfl) o hos

theorem syncs_inv {up : List Ev} {room : String} (hup : OkUp up) (h : List Sync) (hok : OkSyncs up room h) :
    GInv up room (reached h) (run (opsOf up room h)) := by
  induction h using Verif.Util.snocRec with
  | nil =>
    refine ⟨by simp [ids, run, opsOf], ?_, by simp [ids, run, opsOf], by simp [timelineOf, run, opsOf], by simp [timelineOf, run, opsOf]⟩
    intro a x y b he
    simp [timelineOf, run, opsOf] at he
  | append_singleton h s ih =>
    have hok' : OkSyncs up room h := fun a x b he => hok a x (b ++ [s]) (by rw [he]; simp)
    have hi := ih hok'
    have hs := hok h s [] rfl
    have hrun : run (opsOf up room (h ++ [s])) = (s.ops up room).foldl step (run (opsOf up room h)) := by
      rw [opsOf_snoc]; simp only [run, List.foldl_append]
    have hops := syncs_ok hup hok'
    have hsops := ops_ok hup hs
    rw [hrun, reached_snoc]
    cases s with
    | other o =>
      simp only [Sync.ops, List.foldl_cons, List.foldl_nil, Sync.stop, Nat.max_zero]
      exact step_other hi o hs.1 hs.2.2
    | room k b k' l i n =>
      obtain ⟨h1, h2, h3, h4, h5, h6⟩ := hs
      simp only [Sync.stop]
      rw [Nat.max_eq_right h5]
      simp only [Sync.ops, List.foldl_append, List.foldl_cons, List.foldl_nil]
      have hm := step_block hup hi k b i h4
      refine step_timeline hup i n hm k' l h1 h2 h5 h6 ?_
      have := C40_no_error (opsOf up room h ++ (if b = [] then [] else [Op.init room k (b.map some)])) ?_ room k' l
        (((up.drop i).take n).map some) (hsops _ (by simp [Sync.ops]))
      · simpa only [run, List.foldl_append] using this
      · intro o ho
        rcases List.mem_append.1 ho with ho | ho
        · exact hops o ho
        · exact hsops o (by simp only [Sync.ops]; exact List.mem_append_left _ ho)

/-! ## C79 -/

/-- A stored event which is not marked as missing its predecessor directly follows, upstream, the event stored before it.  Missing:
timelines which end before what is already stored (`C79_violated_slow`). -/
theorem C79_no_holes_partial {up : List Ev} {room : String} (hup : OkUp up) (h : List Sync) (hok : OkSyncs up room h) :
    NoHoles up (timelineOf (run (opsOf up room h)) room) := (syncs_inv hup h hok).holes

def toTEv (r : Row) : Visibility.TEv := ⟨r.room, r.nid, r.isState, r.missing⟩

theorem pred_filter_append (l : List Row) (p : Row → Bool) (hp : ∀ a ∈ l, ∀ b ∈ l, ∀ c ∈ l, a.nid < b.nid → b.nid < c.nid → p a = true → p c = true → p b = true)
    (hs : l.Pairwise fun a b => a.nid < b.nid) {x y : Row} {a b : List Row} (he : l.filter p = a ++ x :: y :: b) :
    ∃ c d, l = c ++ x :: y :: d := by
  induction l generalizing a with
  | nil => simp at he
  | cons z l ih =>
    have hs' := (List.pairwise_cons.1 hs)
    by_cases hz : p z = true
    · rw [List.filter_cons_of_pos hz] at he
      cases a with
      | cons w a =>
        simp only [List.cons_append, List.cons.injEq] at he
        obtain ⟨c, d, hcd⟩ := ih (fun a ha b hb c hc => hp a (List.mem_cons_of_mem _ ha) b (List.mem_cons_of_mem _ hb) c (List.mem_cons_of_mem _ hc)) hs'.2 he.2
        exact ⟨z :: c, d, by rw [hcd]; rfl⟩
      | nil =>
        simp only [List.nil_append, List.cons.injEq] at he
        obtain ⟨rfl, he⟩ := he
        cases l with
        | nil => simp at he
        | cons w l =>
          have hyl : y ∈ w :: l ∧ p y = true := by
            have : y ∈ (w :: l).filter p := by rw [he]; simp
            exact List.mem_filter.1 this
          by_cases hwy : w = y
          · exact ⟨[], l, by rw [hwy]; rfl⟩
          · exfalso
            have hyl' : y ∈ l := by
              rcases List.mem_cons.1 hyl.1 with h | h
              · exact absurd h.symm hwy
              · exact h
            have hwp := hp z (by simp) w (by simp) y (by simp [hyl']) (hs'.1 w (by simp)) ((List.pairwise_cons.1 hs'.2).1 y hyl') hz hyl.2
            rw [List.filter_cons_of_pos hwp] at he
            simp only [List.cons.injEq] at he
            exact hwy he.1
    · rw [List.filter_cons_of_neg hz] at he
      obtain ⟨c, d, hcd⟩ := ih (fun a ha b hb c hc => hp a (List.mem_cons_of_mem _ ha) b (List.mem_cons_of_mem _ hb) c (List.mem_cons_of_mem _ hc)) hs'.2 he
      exact ⟨z :: c, d, by rw [hcd]; rfl⟩

/-- A timeline read from the store for a client has no holes: neighbours in it are neighbours upstream. -/
theorem C79_client_partial {up : List Ev} {room : String} (hup : OkUp up) (h : List Sync) (hok : OkSyncs up room h)
    (ms : List Visibility.MEv) (rooms : List String) (hi : Int) (maxLimit limit : Nat) (t : List Visibility.TEv)
    (ht : Visibility.latestEvents ms ((run (opsOf up room h)).rows.map toTEv) rooms hi maxLimit limit room = some t)
    (a : List Visibility.TEv) (x y : Visibility.TEv) (b : List Visibility.TEv) (he : t = a ++ x :: y :: b) :
    ∃ rx ∈ (run (opsOf up room h)).rows, ∃ ry ∈ (run (opsOf up room h)).rows, (rx.nid : Int) = x.nid ∧ (ry.nid : Int) = y.nid ∧
      Follows up rx.ev.id ry.ev.id := by
  have hTI := run_table (opsOf up room h)
  have hN := C79_no_holes_partial hup h hok
  generalize run (opsOf up room h) = db at ht hTI hN ⊢
  obtain ⟨lo, up', _, h1, _, _, h4, _⟩ := Visibility.C42_timeline ht
  obtain ⟨p, hp⟩ := h1
  rw [List.filter_map, he] at hp
  -- the rows behind the visible events
  obtain ⟨l1, l2, hl, hl1, hl2⟩ := List.map_eq_append_iff.1 hp.symm
  obtain ⟨a', l3, hl3, ha', hl4⟩ := List.map_eq_append_iff.1 hl2
  obtain ⟨rx, l5, hrx, hrx', hl6⟩ := List.map_eq_cons_iff.1 hl4
  obtain ⟨ry, b', hry, hry', _⟩ := List.map_eq_cons_iff.1 hl6
  have hvis : db.rows.filter (fun r : Row => decide (lo ≤ (r.nid : Int)) && decide ((r.nid : Int) ≤ up') && decide (r.room = room) && !r.isState) =
      (l1 ++ a') ++ rx :: ry :: b' := by
    have : (db.rows.filter ((fun e : Visibility.TEv => decide (lo ≤ e.nid) && decide (e.nid ≤ up') && decide (e.room = room) && !e.isState) ∘ toTEv)) =
        (l1 ++ a') ++ rx :: ry :: b' := by rw [hl, hl3, hrx, hry]; simp
    exact this
  have hsplit : db.rows.filter (fun r : Row => decide (lo ≤ (r.nid : Int)) && decide ((r.nid : Int) ≤ up') && decide (r.room = room) && !r.isState) =
      (db.rows.filter fun r => decide (r.room = room) && !r.isState).filter fun r => decide (lo ≤ (r.nid : Int)) && decide ((r.nid : Int) ≤ up') := by
    rw [List.filter_filter]
    apply List.filter_congr
    intro r _
    simp [Bool.and_assoc]
  rw [hsplit] at hvis
  have hrows : rx ∈ db.rows ∧ ry ∈ db.rows := by
    have hm : ∀ r ∈ (l1 ++ a') ++ rx :: ry :: b', r ∈ db.rows := by
      intro r hr
      rw [← hvis] at hr
      exact (List.mem_filter.1 (List.mem_filter.1 hr).1).1
    exact ⟨hm rx (by simp), hm ry (by simp)⟩
  obtain ⟨c, d, hcd⟩ := pred_filter_append _ _ (by
    intro a _ b _ c _ hab hbc ha hc
    simp only [Bool.and_eq_true, decide_eq_true_eq] at ha hc ⊢
    omega) (List.Pairwise.sublist List.filter_sublist hTI.asc) hvis
  refine ⟨rx, hrows.1, ry, hrows.2, by rw [← hrx']; rfl, by rw [← hry']; rfl, ?_⟩
  refine hN (c.map fun r => (r.ev.id, r.missing)) (rx.ev.id, rx.missing) (ry.ev.id, ry.missing) (d.map fun r => (r.ev.id, r.missing)) ?_ ?_
  · simp only [timelineOf, hcd]; simp
  · have := h4 y (by
      rw [he]
      cases a with
      | nil => simp
      | cons z a => simp)
    rw [← hry'] at this
    exact this

/-! ## Marks -/

theorem dedup_head (t : List (Option Ev)) : (dedup [] t).head? = (t.filterMap id).head? := by
  induction t with
  | nil => rfl
  | cons o t ih =>
    cases o with
    | none => simpa [dedup] using ih
    | some e => simp [dedup]

/-- The rows of a step: those there were, and rows of the step, which are marked only if they are the first of a limited timeline. -/
theorem step_marked (db : DB) (o : Op) : ∃ new : List Row, (step db o).rows.map Row.ext = (db.rows ++ new).map Row.ext ∧
    ∀ r ∈ new, r.missing = true → ∃ k t, o = .acc r.room k true t ∧ (t.filterMap id).head? = some r.ev := by
  have same : ∃ new : List Row, db.rows.map Row.ext = (db.rows ++ new).map Row.ext ∧
    ∀ r ∈ new, r.missing = true → ∃ k t, o = .acc r.room k true t ∧ (t.filterMap id).head? = some r.ev := ⟨[], by simp, by simp⟩
  cases o with
  | init room k b =>
    rcases init_rows db room k b with h | ⟨h, _⟩
    · rw [h]; exact same
    · obtain ⟨new, h1, _, _, _, _, _, _, _, h9⟩ := insertLoop_spec room true ((b.filterMap id).map fun e => (e, false)) db.rows (db.seq + k)
      refine ⟨new, by rw [h]; simp [insert, h1], fun r hr hm => ?_⟩
      have := h9 r hr
      rw [hm] at this
      simp at this
  | acc room k l t =>
    simp only [step]
    cases ha : accumulate db room k l t with
    | none => exact same
    | some p =>
      obtain ⟨db', post⟩ := p
      simp only [Option.map_some, Option.getD_some]
      rcases acc_gap ha with ⟨h, _⟩ | ⟨first, rest, hf, hrows, _⟩
      · rw [h]; exact same
      · obtain ⟨new, h1, _, h3, _, _, _, _, _, h9⟩ := insertLoop_spec room false ((first :: rest).map fun e =>
          (e, missingPrevious l (dedup [] t) first e)) db.rows (db.seq + k)
        rw [h1] at hrows
        refine ⟨new, hrows, fun r hr hm => ?_⟩
        obtain ⟨e, he, hee⟩ := List.mem_map.1 (h9 r hr)
        simp only [Prod.mk.injEq] at hee
        rw [hm] at hee
        obtain ⟨h4, h5⟩ := hee
        rw [← hf] at he
        have he := (filterNew_sublist db _).subset he
        unfold missingPrevious at h5
        cases hd : dedup [] t with
        | nil => rw [hd] at he; simp at he
        | cons i is =>
          rw [hd] at h5
          simp only [Bool.and_eq_true, decide_eq_true_eq] at h5
          have hnd : ((dedup [] t).map (·.id)).Nodup := by
            rw [dedup_spec]
            exact (List.filter_sublist.map _).nodup (firsts_nodup (t.filterMap id))
          have hei : e = i := ids_inj hnd he (by rw [hd]; simp) h5.2.2
          refine ⟨k, t, ?_, ?_⟩
          · rw [(h3 r hr).2.2.1, h5.1]
          · rw [← dedup_head, hd, ← h4, hei]; rfl

/-- Only the first event of a limited timeline is marked as missing its predecessor. -/
theorem C79_marked (ops : List Op) (r : Row) (hr : r ∈ (run ops).rows) (hm : r.missing = true) :
    ∃ k t, Op.acc r.room k true t ∈ ops ∧ (t.filterMap id).head? = some r.ev := by
  induction ops using Verif.Util.snocRec generalizing r with
  | nil => simp [run] at hr
  | append_singleton l o ih =>
    have hrun : run (l ++ [o]) = step (run l) o := by simp [run]
    rw [hrun] at hr
    obtain ⟨new, h1, h2⟩ := step_marked (run l) o
    have : r.ext ∈ ((run l).rows ++ new).map Row.ext := by rw [← h1]; exact List.mem_map_of_mem hr
    obtain ⟨q, hq, hqe⟩ := List.mem_map.1 this
    simp only [Row.ext, Prod.mk.injEq] at hqe
    obtain ⟨_, hq2, hq3, _⟩ := core_eq hqe.1
    rcases List.mem_append.1 hq with hq | hq
    · obtain ⟨k, t, h3, h4⟩ := ih q hq (by rw [hqe.2]; exact hm)
      exact ⟨k, t, by rw [← hq2]; exact List.mem_append_left _ h3, by rw [← hq3]; exact h4⟩
    · obtain ⟨k, t, h3, h4⟩ := h2 q hq (by rw [hqe.2]; exact hm)
      exact ⟨k, t, by rw [← hq2, h3]; simp, by rw [← hq3]; exact h4⟩

/-! ## A slow poller -/

def exUp : List Ev := exCreate :: ["$1", "$2", "$3", "$4", "$5", "$6"].map exMsg

/-- Two pollers: the first has the room up to `$1`, the second a limited sync of `$4`, `$5`; then the first delivers `$2`, which it asked for
earlier.  It is stored after `$5`, as if it followed it. -/
theorem C79_violated_slow : ∃ h, (∀ s ∈ h, ∃ k b k' l i n, s = Sync.room k b k' l i n ∧ 0 < n ∧ i + n ≤ exUp.length) ∧
    timelineOf (run (opsOf exUp "!r" h)) "!r" = [("$c", false), ("$1", false), ("$4", true), ("$5", false), ("$2", false)] ∧
    ¬ Follows exUp "$5" "$2" := by
  refine ⟨[.room 0 [] 0 false 0 2, .room 0 [exCreate] 0 true 4 2, .room 0 [] 0 false 2 1], ?_, by decide +kernel, ?_⟩
  · intro s hs
    simp only [List.mem_cons, List.not_mem_nil, or_false] at hs
    rcases hs with rfl | rfl | rfl
    · exact ⟨0, [], 0, false, 0, 2, rfl, by decide, by decide⟩
    · exact ⟨0, [exCreate], 0, true, 4, 2, rfl, by decide, by decide⟩
    · exact ⟨0, [], 0, false, 2, 1, rfl, by decide, by decide⟩
  · rintro ⟨p, q, h⟩
    have h5 : (exUp.map (·.id)) = ["$c", "$1", "$2", "$3", "$4", "$5", "$6"] := by decide
    rw [h5] at h
    have hl := congrArg List.length h
    rw [List.length_append, List.length_cons, List.length_cons] at hl
    have hl : 7 = p.length + (q.length + 1 + 1) := hl
    have h1 := congrArg (fun l : List String => l[p.length]?) h
    have h2 := congrArg (fun l : List String => l[p.length + 1]?) h
    simp only [List.getElem?_append_right (Nat.le_refl _), Nat.sub_self, List.getElem?_cons_zero] at h1
    have h3 : (p ++ "$5" :: "$2" :: q)[p.length + 1]? = some "$2" := by
      rw [List.getElem?_append_right (by omega), Nat.add_sub_cancel_left]; rfl
    have h2 := h2.trans h3
    generalize p.length = n at h1 h2 hl
    have hn : n < 6 := by omega
    have : ∀ n < 6, ["$c", "$1", "$2", "$3", "$4", "$5", "$6"][n]? = some "$5" →
        ["$c", "$1", "$2", "$3", "$4", "$5", "$6"][n + 1]? = some "$2" → False := by decide
    exact this n hn h1 h2

/-! ## The hypotheses can be met -/

def exHist : List Sync := [.room 0 [] 0 false 0 2, .room 0 [exCreate] 0 true 4 2, .room 3 [] 0 false 2 5]

theorem exUp_ok : OkUp exUp := by
  have h : ∀ e ∈ exUp, '\x1f' ∉ e.type.toList ∧ (isCreate e → e.hasKey = true) := by decide
  exact ⟨by decide, h⟩

theorem exHist_ok : OkSyncs exUp "!r" exHist := by
  intro a s b he
  have : ∀ i, (hi : i < exHist.length) → OkSync exUp "!r" (exHist.take i) exHist[i] := by
    intro i hi
    have : exHist.length = 3 := rfl
    rcases i with _ | _ | _ | i
    · exact ⟨by decide, by decide, by decide, by decide, by decide, by decide⟩
    · exact ⟨by decide, by decide, by decide, by decide, by decide, by decide⟩
    · exact ⟨by decide, by decide, by decide, by decide, by decide, by decide⟩
    · omega
  have h := this a.length (by rw [he]; simp)
  simpa [he] using h

/-- A limited sync leaves a gap and is marked; another poller then brings the events after it (and those of the gap, which are
dropped). -/
example : timelineOf (run (opsOf exUp "!r" exHist)) "!r" =
    [("$c", false), ("$1", false), ("$4", true), ("$5", false), ("$6", false)] := by decide +kernel

example : ∃ k t, Op.acc "!r" k true t ∈ opsOf exUp "!r" exHist ∧ (t.filterMap id).head? = some (exMsg "$4") := by
  have h : ((run (opsOf exUp "!r" exHist)).rows.any fun r => r.missing && decide (r.room = "!r") && decide (r.ev = exMsg "$4")) = true := by
    decide +kernel
  obtain ⟨r, hr, h⟩ := List.any_eq_true.1 h
  simp only [Bool.and_eq_true, decide_eq_true_eq] at h
  have := C79_marked _ r hr h.1.1
  rw [h.1.2, h.2] at this
  exact this

example : NoHoles exUp (timelineOf (run (opsOf exUp "!r" exHist)) "!r") := C79_no_holes_partial exUp_ok exHist exHist_ok

end Verif.Store
