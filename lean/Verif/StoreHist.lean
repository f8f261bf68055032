import Verif.StoreProps
/-!
# The state of a room is its stored events in order of position (C40, C41)
-/
namespace Verif.Store

/-- The state made by the stored events of a room whose position satisfies `p`, applied in order of position:
the events of state blocks, and the timeline events that have a state key. -/
def replay (rows : List Row) (room : String) (p : Nat → Bool) : St :=
  ((rows.filter fun r => decide (r.room = room) && p r.nid && (r.isState || r.ev.hasKey)).map (·.ev)).foldl St.apply .none

/-- The same on the part of the rows that never changes. -/
def replayC (cs : List (Nat × String × Ev × Bool)) (room : String) (p : Nat → Bool) : St :=
  ((cs.filter fun c => decide (c.2.1 = room) && p c.1 && (c.2.2.2 || c.2.2.1.hasKey)).map (·.2.2.1)).foldl St.apply .none

theorem replay_core (rows : List Row) (room : String) (p : Nat → Bool) : replay rows room p = replayC (rows.map Row.core) room p := by
  simp only [replay, replayC]
  congr 1
  induction rows with
  | nil => rfl
  | cons r rs ih =>
    simp only [List.map_cons, List.filter_cons, Row.core]
    split
    · simp only [List.map_cons, ih]
    · exact ih

theorem replayC_append (a b : List (Nat × String × Ev × Bool)) (room : String) (p : Nat → Bool) :
    replayC (a ++ b) room p =
      ((b.filter fun c => decide (c.2.1 = room) && p c.1 && (c.2.2.2 || c.2.2.1.hasKey)).map (·.2.2.1)).foldl St.apply (replayC a room p) := by
  simp only [replayC, List.filter_append, List.map_append, List.foldl_append]

theorem replayC_other (a b : List (Nat × String × Ev × Bool)) (room : String) (p : Nat → Bool)
    (h : ∀ c ∈ b, c.2.1 = room → p c.1 = false) : replayC (a ++ b) room p = replayC a room p := by
  rw [replayC_append]
  have : (b.filter fun c => decide (c.2.1 = room) && p c.1 && (c.2.2.2 || c.2.2.1.hasKey)) = [] := by
    rw [List.filter_eq_nil_iff]
    intro c hc hh
    simp only [Bool.and_eq_true, decide_eq_true_eq] at hh
    rw [h c hc hh.1.1] at hh; simp at hh
  rw [this]; rfl

theorem replayC_congr (a : List (Nat × String × Ev × Bool)) (room : String) (p q : Nat → Bool)
    (h : ∀ c ∈ a, c.2.1 = room → p c.1 = q c.1) : replayC a room p = replayC a room q := by
  simp only [replayC]
  congr 2
  refine List.filter_congr fun c hc => ?_
  by_cases hr : c.2.1 = room
  · rw [h c hc hr]
  · simp [hr]

def always : Nat → Bool := fun _ => true

/-- A timeline being accumulated. -/
theorem loop_hist (room : String) (post : List Row) : ∀ (cs : List (Nat × String × Ev × Bool)) (f : Option St) (b : String → Option (Option St)),
    f.getD .none = replayC cs room always → (∀ c ∈ cs, ∀ r ∈ post, c.1 < r.nid) → post.Pairwise (fun a b => a.nid < b.nid) →
    (∀ r ∈ post, r.room = room ∧ r.isState = false) → (post.map (·.ev.id)).Nodup →
    (specLoop (f, b) (post.map (·.ev))).1.getD .none = replayC (cs ++ post.map Row.core) room always ∧
    (∀ r ∈ post, ∃ o, (specLoop (f, b) (post.map (·.ev))).2 r.ev.id = some o ∧
      o.getD .none = replayC (cs ++ post.map Row.core) room (fun n => decide (n < r.nid))) ∧
    (∀ id, id ∉ post.map (·.ev.id) → (specLoop (f, b) (post.map (·.ev))).2 id = b id) := by
  induction post with
  | nil => intro cs f b hf _ _ _ _; simp [specLoop, hf]
  | cons q qs ih =>
    intro cs f b hf hcs hasc hroom hnod
    rw [List.pairwise_cons] at hasc
    simp only [List.map_cons, List.nodup_cons] at hnod
    obtain ⟨hq1, hq2⟩ := hroom q (by simp)
    have hf' : (after f q.ev).getD .none = replayC (cs ++ [q.core]) room always := by
      rw [replayC_append, ← hf]
      simp only [after, List.filter_cons, Row.core, hq1, hq2, always, Bool.false_or, Bool.and_true, decide_true, List.filter_nil]
      by_cases hk : q.ev.hasKey = true <;> simp [hk]
    obtain ⟨h1, h2, h3⟩ := ih (cs ++ [q.core]) (after f q.ev) (setBefore b q.ev.id f) hf' (by
        intro c hc r hr
        rcases List.mem_append.1 hc with hc | hc
        · exact hcs c hc r (by simp [hr])
        · simp only [List.mem_singleton] at hc; subst hc; exact hasc.1 r hr)
      hasc.2 (fun r hr => hroom r (by simp [hr])) hnod.2
    simp only [List.append_assoc, List.singleton_append] at h1 h2
    simp only [List.map_cons, specLoop]
    refine ⟨h1, fun r hr => ?_, fun id hid => ?_⟩
    · rcases List.mem_cons.1 hr with rfl | hr
      · refine ⟨f, by rw [h3 _ hnod.1]; simp [setBefore], ?_⟩
        rw [hf, replayC_other cs (r.core :: qs.map Row.core) room _ (fun c hc _ => ?_)]
        · exact replayC_congr _ _ _ _ fun c hc _ => by simp [always, hcs c hc r (by simp)]
        · rcases List.mem_cons.1 hc with rfl | hc
          · simp [Row.core]
          · obtain ⟨x, hx, rfl⟩ := List.mem_map.1 hc
            have := hasc.1 x hx
            exact decide_eq_false (by show ¬ x.nid < r.nid; omega)
      · exact h2 r hr
    · simp only [List.mem_cons, not_or] at hid
      rw [h3 id hid.2]
      simp [setBefore, hid.1]

/-- The specification's states are the replayed ones. -/
structure Hist (db : DB) (sp : Spec) : Prop where
  cur : ∀ room, (sp.cur room).getD .none = replay db.rows room always
  befs : ∀ r ∈ db.rows, r.isState = false → ∃ o, sp.before r.ev.id = some o ∧ o.getD .none = replay db.rows r.room (fun n => decide (n < r.nid))

theorem Hist.of_core {a b : DB} {sp : Spec} (h : Hist a sp) (hr : b.rows.map Row.core = a.rows.map Row.core) : Hist b sp := by
  refine ⟨fun room => by rw [h.cur room, replay_core, replay_core, hr], fun r hrm hs => ?_⟩
  have : r.core ∈ a.rows.map Row.core := hr ▸ List.mem_map_of_mem hrm
  obtain ⟨q, hq, hqc⟩ := List.mem_map.1 this
  obtain ⟨c1, c2, c3, c4⟩ := core_eq hqc
  obtain ⟨o, ho, hoe⟩ := h.befs q hq (c4.trans hs)
  exact ⟨o, by rw [← c3]; exact ho, by rw [hoe, replay_core, replay_core, hr, c1, c2]⟩

theorem step_hist {db : DB} {sp : Spec} (h : Rel db sp) (hh : Hist db sp) (o : Op) (hok : OkOp o) : Hist (step db o) (specStep sp o) := by
  have hrel' := (step_spec h o hok).1
  cases o with
  | init room skip block =>
    obtain ⟨_, _, new, hrows, hnew, hcur, hbef⟩ := initialise_spec h room skip block hok
    generalize step db (.init room skip block) = db' at *
    rcases hcur with ⟨h0, hsp⟩ | hcur
    · rw [hsp]; exact hh.of_core (by rw [hrows, h0]; simp)
    · -- new rows are numbered after the old ones
      have hgt : ∀ c ∈ db.rows.map Row.core, ∀ r ∈ new, c.1 < r.nid := by
        have h3 : (db'.rows.map Row.core).Pairwise fun x y => x.1 < y.1 := by
          rw [List.pairwise_map]; exact hrel'.inv.asc
        rw [hrows] at h3
        intro c hc r hr
        exact (List.pairwise_append.1 h3).2.2 c hc r.core (List.mem_map_of_mem hr)
      refine ⟨fun r => ?_, fun q hq hs => ?_⟩
      · rw [hcur, replay_core, hrows]
        by_cases hr : r = room
        · subst hr
          simp only [if_true, Option.getD_some]
          rw [replayC_append, ← replay_core, ← hh.cur r]
          congr 1
          have : ((new.map Row.core).filter fun c => decide (c.2.1 = r) && always c.1 && (c.2.2.2 || c.2.2.1.hasKey)) = new.map Row.core := by
            rw [List.filter_eq_self]
            intro c hc
            obtain ⟨x, hx, rfl⟩ := List.mem_map.1 hc
            simp [Row.core, always, (hnew x hx).1, (hnew x hx).2]
          rw [this, List.map_map]; rfl
        · simp only [hr, if_false]
          rw [hh.cur r, replay_core, replayC_other]
          intro c hc hcr
          obtain ⟨x, hx, rfl⟩ := List.mem_map.1 hc
          exact absurd (hcr.symm.trans (hnew x hx).1) hr
      · have hm : q.core ∈ db.rows.map Row.core ++ new.map Row.core := hrows ▸ List.mem_map_of_mem hq
        rcases List.mem_append.1 hm with hm | hm
        · obtain ⟨x, hx, hxc⟩ := List.mem_map.1 hm
          obtain ⟨c1, c2, c3, c4⟩ := core_eq hxc
          obtain ⟨o, ho, hoe⟩ := hh.befs x hx (c4.trans hs)
          refine ⟨o, by rw [hbef, ← c3]; exact ho, ?_⟩
          rw [hoe, replay_core, replay_core, hrows, ← c1, ← c2, replayC_other]
          intro c hc _
          obtain ⟨y, hy, rfl⟩ := List.mem_map.1 hc
          have := hgt x.core (List.mem_map_of_mem hx) y hy
          simp only [Row.core] at this
          exact decide_eq_false (by show ¬ y.nid < x.nid; omega)
        · obtain ⟨x, hx, hxc⟩ := List.mem_map.1 hm
          rw [← (core_eq hxc).2.2.2, (hnew x hx).2] at hs; cases hs
  | acc room skip limited timeline =>
    obtain ⟨db', post, ha, _, _, hrows, hpost, hcase⟩ := accumulate_spec h room skip limited timeline hok
    have hst : step db (.acc room skip limited timeline) = db' := by simp [step, ha]
    rw [hst] at hrel' ⊢
    rcases hcase with ⟨h0, hsp⟩ | ⟨hN, hne, hcs⟩
    · rw [hsp]; exact hh.of_core (by rw [hrows, h0]; simp)
    · have hasc : (db'.rows.map Row.core).Pairwise fun x y => x.1 < y.1 := by
        rw [List.pairwise_map]; exact hrel'.inv.asc
      rw [hrows] at hasc
      have hids : ((db'.rows.map Row.core).map fun c => c.2.2.1.id).Nodup := by
        have := hrel'.inv.ids
        rw [List.map_map]; simpa [Function.comp_def, Row.core] using this
      rw [hrows, List.map_append] at hids
      have hpids : (post.map (·.ev.id)).Nodup := by
        have := (List.nodup_append.1 hids).2.1
        rw [List.map_map] at this; simpa [Function.comp_def, Row.core] using this
      obtain ⟨h1, h2, h3⟩ := loop_hist room post (db.rows.map Row.core) (sp.cur room) sp.before
        (by rw [hh.cur room, replay_core])
        (fun c hc r hr => (List.pairwise_append.1 hasc).2.2 c hc r.core (List.mem_map_of_mem hr))
        (by have := (List.pairwise_append.1 hasc).2.1; rw [List.pairwise_map] at this; exact this) hpost hpids
      have hexp := specStep_acc sp room skip limited timeline hN.symm
      rw [if_pos ⟨fun h0 => hne (List.eq_nil_of_map_eq_nil h0), hcs⟩] at hexp
      rw [hexp]
      refine ⟨fun r => ?_, fun q hq hs => ?_⟩
      · rw [replay_core, hrows]
        by_cases hr : r = room
        · subst hr; simp only [if_true]; exact h1
        · simp only [hr, if_false]
          rw [hh.cur r, replay_core, replayC_other]
          intro c hc hcr
          obtain ⟨x, hx, rfl⟩ := List.mem_map.1 hc
          exact absurd (hcr.symm.trans (hpost x hx).1) hr
      · have hm : q.core ∈ db.rows.map Row.core ++ post.map Row.core := hrows ▸ List.mem_map_of_mem hq
        rcases List.mem_append.1 hm with hm | hm
        · obtain ⟨x, hx, hxc⟩ := List.mem_map.1 hm
          obtain ⟨c1, c2, c3, c4⟩ := core_eq hxc
          obtain ⟨o, ho, hoe⟩ := hh.befs x hx (c4.trans hs)
          refine ⟨o, ?_, ?_⟩
          · simp only
            rw [h3, ← c3]; exact ho
            intro hmem
            obtain ⟨y, hy, hye⟩ := List.mem_map.1 hmem
            refine (List.nodup_append.1 hids).2.2 x.ev.id ?_ y.ev.id ?_ (by rw [hye, c3])
            · exact List.mem_map.2 ⟨x.core, List.mem_map_of_mem hx, rfl⟩
            · exact List.mem_map.2 ⟨y.core, List.mem_map_of_mem hy, rfl⟩
          · rw [hoe, replay_core, replay_core, hrows, ← c1, ← c2, replayC_other]
            intro c hc _
            obtain ⟨y, hy, rfl⟩ := List.mem_map.1 hc
            have := (List.pairwise_append.1 hasc).2.2 x.core (List.mem_map_of_mem hx) y.core (List.mem_map_of_mem hy)
            simp only [Row.core] at this
            exact decide_eq_false (by show ¬ y.nid < x.nid; omega)
        · obtain ⟨x, hx, hxc⟩ := List.mem_map.1 hm
          obtain ⟨c1, c2, c3, c4⟩ := core_eq hxc
          obtain ⟨o, ho, hoe⟩ := h2 x hx
          refine ⟨o, by simp only; rw [← c3]; exact ho, ?_⟩
          rw [hoe, replay_core, hrows, ← c1, ← c2, (hpost x hx).1]

theorem run_hist (ops : List Op) (hok : ∀ o ∈ ops, OkOp o) : Hist (run ops) (specRun ops) := by
  induction ops using Verif.Util.snocRec with
  | nil => constructor <;> simp [run, specRun, replay]
  | append_singleton l a ih =>
    have hl : ∀ o ∈ l, OkOp o := fun o ho => hok o (by simp [ho])
    have := step_hist (run_spec l hl) (ih hl) a (hok a (by simp))
    simpa [run, specRun] using this

/-! ## C40 -/

/-- No snapshot, or a snapshot, that holds state `f`, at most one event per key. -/
def Holds (db : DB) (sid : Nat) (f : St) : Prop :=
  (∀ k id, (∃ n, At db sid k id n) ↔ f k = some id) ∧ ∀ k id id' n n', At db sid k id n → At db sid k id' n' → id = id' ∧ n = n'

theorem Cur.holds {db : DB} (h : Inv db) {room : String} {sid : Nat} {f : Option St} (hc : Cur db room sid f) : Holds db sid (f.getD .none) := by
  refine ⟨fun k id => ?_, ?_⟩
  · cases f with
    | none =>
      rw [show sid = 0 from hc]
      simp only [Option.getD_none, St.none]
      exact ⟨fun ⟨n, hn⟩ => absurd hn (snap_zero h k id n), fun hh => by cases hh⟩
    | some g => exact hc.2 k id
  · rintro k id id' n n' ⟨s, hs, rfl, r, hr, hrn, rfl, rfl, rfl⟩ ⟨s', hs', he, r', hr', hrn', hk, rfl, rfl⟩
    rw [h.snap_unique hs' hs he] at hrn'
    have := h.keys s hs r hr r' hr' hrn hrn' hk.symm
    subst this; exact ⟨rfl, rfl⟩

/-- **C40.** After any sequence of state blocks and timelines, the current snapshot of every room holds at most
one event per (type, state key), and it is the last one stored for the room with that key. -/
theorem C40_current (ops : List Op) (hok : ∀ o ∈ ops, OkOp o) (room : String) :
    Holds (run ops) ((run ops).cur room) (replay (run ops).rows room fun _ => true) := by
  have h := run_spec ops hok
  rw [show (fun _ => true) = always from rfl, ← (run_hist ops hok).cur room]
  exact (h.cur room).holds h.inv

/-- **C40.** The recorded before-state of every timeline event is the state made by what was stored for the
room before it, and the recorded replacement is the event it replaces there. -/
theorem C40_before (ops : List Op) (hok : ∀ o ∈ ops, OkOp o) (r : Row) (hr : r ∈ (run ops).rows) (hs : r.isState = false) :
    Holds (run ops) r.before (replay (run ops).rows r.room fun n => decide (n < r.nid)) ∧
    (r.ev.hasKey = true → (r.replaces = 0 ∧ ∀ id n, ¬ At (run ops) r.before r.ev.key id n) ∨ ∃ id, At (run ops) r.before r.ev.key id r.replaces) := by
  have h := run_spec ops hok
  obtain ⟨o, ho, hc, hrep⟩ := h.befs r hr hs
  obtain ⟨o', ho', hoe⟩ := (run_hist ops hok).befs r hr hs
  rw [ho, Option.some.injEq] at ho'
  subst ho'
  refine ⟨by rw [← hoe]; exact hc.holds h.inv, fun hk => ?_⟩
  simpa [RepOk, hk] using hrep

/-- **C40.** Accumulating a timeline never fails. -/
theorem C40_no_error (ops : List Op) (hok : ∀ o ∈ ops, OkOp o) (room : String) (skip : Nat) (limited : Bool) (timeline : List (Option Ev))
    (ht : OkOp (.acc room skip limited timeline)) : accumulate (run ops) room skip limited timeline ≠ none := by
  obtain ⟨db', post, ha, _⟩ := accumulate_spec (run_spec ops hok) room skip limited timeline ht
  rw [ha]; simp

/-- What replaying means: the last event with the key wins. -/
theorem C40_last (evs : List Ev) (f : St) (k : Key) :
    evs.foldl St.apply f k = (((evs.filter fun e => decide (e.key = k)).getLast?).map (·.id)).or (f k) := by
  induction evs using Verif.Util.snocRec with
  | nil => simp
  | append_singleton l a ih =>
    rw [List.foldl_append, List.filter_append]
    simp only [List.foldl_cons, List.foldl_nil, St.apply, List.filter_cons, List.filter_nil]
    by_cases hk : a.key = k
    · simp [hk]
    · have hk' : ¬ k = a.key := fun hh => hk hh.symm
      simp [hk, hk', ih]

def exRun : List Op := [exInit, .acc "!r" 0 false [some (exMsg "$a"), some (exName "$n2"), some (exMsg "$b"), some (exName "$n3")]]

/-- Non-vacuity: an initial state and a timeline with two name changes. -/
example : (∀ o ∈ exRun, OkOp o) ∧ ((run exRun).rows.map fun r => (r.nid, r.before, r.replaces)) =
      [(1, 0, 0), (2, 0, 0), (3, 1, 0), (4, 1, 2), (5, 2, 0), (6, 2, 4)] ∧ (run exRun).cur "!r" = 3 := by
  refine ⟨fun o ho => ?_, by decide +kernel, by decide +kernel⟩
  rcases List.mem_cons.1 ho with rfl | ho
  · simp only [exInit, OkOp]; exact ⟨by decide +kernel, by unfold Clean; decide +kernel⟩
  · rcases List.mem_cons.1 ho with rfl | ho
    · simp only [OkOp]; unfold Clean; decide +kernel
    · simp at ho

/-- **C40 fails for event types with the separator character.** Two different keys have the same tuple, and
the second event replaces the first. -/
theorem C40_violated_separator :
    (accumulate (run [.init "!r" 0 [some exCreate, some { id := "$x", type := "a", stateKey := "b\x1fc", hasKey := true }]])
      "!r" 0 false [some { id := "$y", type := "a\x1fb", stateKey := "c", hasKey := true }]).map
        (fun p => (p.1.snaps.getLast?).map (·.nids)) = some (some [1, 3]) := by decide +kernel

end Verif.Store
