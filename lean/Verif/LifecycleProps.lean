import Verif.Lifecycle
import Verif.ConnMapProps
/-!
# C148: a connection listens to its user's cache exactly as long as it can be used
-/
namespace Verif.Lifecycle
open Verif
open Verif.ConnMap (State Conn CID Op)

/-! ## The map of connections -/

theorem close_destroyed (s : State) (c : Conn) : (ConnMap.closeConn s c).destroyed = c.id :: s.destroyed := rfl

theorem remove_same (s : State) (k : String) : (ConnMap.removeKey s k).destroyed = s.destroyed ∧ (ConnMap.removeKey s k).dead = s.dead ∧
    (ConnMap.removeKey s k).created = s.created ∧ (ConnMap.removeKey s k).next = s.next := by
  unfold ConnMap.removeKey
  split <;> simp

theorem removes_same (ks : List String) (s : State) : (ks.foldl ConnMap.removeKey s).destroyed = s.destroyed ∧
    (ks.foldl ConnMap.removeKey s).dead = s.dead ∧ (ks.foldl ConnMap.removeKey s).created = s.created ∧
    (ks.foldl ConnMap.removeKey s).next = s.next := by
  induction ks generalizing s with
  | nil => simp
  | cons k ks ih =>
    obtain ⟨h1, h2, h3, h4⟩ := ih (ConnMap.removeKey s k)
    obtain ⟨g1, g2, g3, g4⟩ := remove_same s k
    exact ⟨h1.trans g1, h2.trans g2, h3.trans g3, h4.trans g4⟩

theorem users_same (us : List String) (s : State) : (ConnMap.closeUsers s us).destroyed = s.destroyed ∧
    (ConnMap.closeUsers s us).dead = s.dead ∧ (ConnMap.closeUsers s us).created = s.created ∧ (ConnMap.closeUsers s us).next = s.next := by
  unfold ConnMap.closeUsers
  induction us generalizing s with
  | nil => simp
  | cons u us ih =>
    obtain ⟨h1, h2, h3, h4⟩ := ih (((s.userConns.filter fun c => c.cid.user = u).map (·.cid.key)).foldl ConnMap.removeKey s)
    obtain ⟨g1, g2, g3, g4⟩ := removes_same ((s.userConns.filter fun c => c.cid.user = u).map (·.cid.key)) s
    exact ⟨h1.trans g1, h2.trans g2, h3.trans g3, h4.trans g4⟩

/-- What a look-up does: it may close a connection of the cache. -/
theorem get_spec (s : State) (cid : CID) :
    ((ConnMap.getConn s cid).1 = s ∨ ∃ c, s.cache.lookup cid.key = some c ∧ (ConnMap.getConn s cid).1 = ConnMap.closeConn s c) ∧
      ∀ c, (ConnMap.getConn s cid).2 = some c → s.cache.lookup cid.key = some c := by
  unfold ConnMap.getConn
  split
  · exact ⟨.inl rfl, by simp⟩
  · rename_i c hc
    split
    · exact ⟨.inr ⟨c, hc, rfl⟩, by simp⟩
    · exact ⟨.inl rfl, fun _ h => by cases h; exact hc⟩

/-- What making a connection does: those of the cache under its key are destroyed. -/
theorem create_spec (s : State) (cid : CID) : ∃ l, (ConnMap.createConn s cid).destroyed = l ++ s.destroyed ∧
    (∀ i ∈ l, ∃ c, s.cache.lookup cid.key = some c ∧ c.id = i) ∧ (∀ c, s.cache.lookup cid.key = some c → c.id ∈ l) ∧
    (ConnMap.createConn s cid).dead = s.dead ∧ (ConnMap.createConn s cid).created = s.created ++ [⟨s.next, cid⟩] ∧
    (ConnMap.createConn s cid).next = s.next + 1 ∧ (ConnMap.createConn s cid).pending = s.pending ∧
    (ConnMap.createConn s cid).cache = (cid.key, ⟨s.next, cid⟩) :: s.cache.filter fun p => p.1 ≠ cid.key := by
  unfold ConnMap.createConn ConnMap.getConn
  cases hl : s.cache.lookup cid.key with
  | none => exact ⟨[], by simp⟩
  | some c =>
    by_cases hd : c.id ∈ s.dead
    · simp only [hd, if_true]
      exact ⟨[c.id], by simp [ConnMap.closeConn]⟩
    · simp only [hd, if_false]
      exact ⟨[c.id], by simp [ConnMap.closeConn]⟩

/-- What the steps do that make no connection. -/
theorem other_spec (s : State) (o : Op) (ho : ∀ c, o ≠ .create c) : (∃ l, (ConnMap.step s o).destroyed = l ++ s.destroyed) ∧
    (ConnMap.step s o).created = s.created ∧ (ConnMap.step s o).next = s.next := by
  cases o with
  | create c => exact absurd rfl (ho c)
  | lookup c =>
    rcases (get_spec s c).1 with h | ⟨d, _, h⟩ <;> rw [ConnMap.step, h]
    · exact ⟨⟨[], rfl⟩, rfl, rfl⟩
    · exact ⟨⟨[d.id], rfl⟩, rfl, rfl⟩
  | die id =>
    simp only [ConnMap.step]
    split
    · exact ⟨⟨[], rfl⟩, rfl, rfl⟩
    · exact ⟨⟨[], rfl⟩, rfl, rfl⟩
  | expire k =>
    obtain ⟨h1, _, h3, h4⟩ := remove_same s k
    exact ⟨⟨[], h1⟩, h3, h4⟩
  | closeDevice u d =>
    obtain ⟨h1, _, h3, h4⟩ := removes_same ((s.userConns.filter fun c => c.cid.user = u && c.cid.device = d).map (·.cid.key)) s
    exact ⟨⟨[], h1⟩, h3, h4⟩
  | closeUsers us =>
    obtain ⟨h1, _, h3, h4⟩ := users_same us s
    exact ⟨⟨[], h1⟩, h3, h4⟩
  | callback i =>
    simp only [ConnMap.step, ConnMap.callback]
    split
    · exact ⟨⟨[], rfl⟩, rfl, rfl⟩
    · rename_i c _
      exact ⟨⟨[c.id], rfl⟩, rfl, rfl⟩

theorem other_dead (s : State) (o : Op) : (ConnMap.step s o).dead = (match o with | .die id => if id < s.next then [id] else [] | _ => []) ++ s.dead := by
  cases o with
  | create c =>
    obtain ⟨_, _, _, _, h, _⟩ := create_spec s c
    exact h
  | lookup c => rcases (get_spec s c).1 with h | ⟨d, _, h⟩ <;> simp only [ConnMap.step, h] <;> rfl
  | die id => simp only [ConnMap.step]; split <;> simp
  | expire k => exact (remove_same s k).2.1
  | closeDevice u d => exact (removes_same _ s).2.1
  | closeUsers us => exact (users_same us s).2.1
  | callback i =>
    simp only [ConnMap.step, ConnMap.callback]
    split <;> rfl

/-! ## No connection is forgotten -/

/-- Where a connection is that was made. -/
def Somewhere (s : State) (c : Conn) : Prop := c.id ∈ s.destroyed ∨ c ∈ s.pending ∨ (c.cid.key, c) ∈ s.cache

theorem somewhere_remove {s : State} {c : Conn} (hn : (s.cache.map (·.1)).Nodup)
    (h : Somewhere s c) (k : String) : Somewhere (ConnMap.removeKey s k) c := by
  unfold ConnMap.removeKey
  cases hl : s.cache.lookup k with
  | none => exact h
  | some d =>
    rcases h with h | h | h
    · exact .inl h
    · exact .inr (.inl (List.mem_append_left _ h))
    · by_cases he : c.cid.key = k
      · have := ConnMap.mem_lookup hn h
        rw [he, hl] at this
        cases this
        exact .inr (.inl (List.mem_append_right _ (by simp)))
      · exact .inr (.inr (List.mem_filter.2 ⟨h, by simpa using he⟩))

theorem somewhere_removes (ks : List String) {s : State} {c : Conn} (hi : ConnMap.Inv s) (h : Somewhere s c) :
    Somewhere (ks.foldl ConnMap.removeKey s) c := by
  induction ks generalizing s with
  | nil => exact h
  | cons k ks ih =>
    exact ih (ConnMap.inv_removeKey hi k) (somewhere_remove hi.keys h k)

theorem somewhere_step {s : State} {c : Conn} (hi : ConnMap.Inv s) (h : Somewhere s c) (o : Op) : Somewhere (ConnMap.step s o) c := by
  cases o with
  | create cid =>
    obtain ⟨l, h1, _, h3, _, _, _, h7, h8⟩ := create_spec s cid
    simp only [ConnMap.step, Somewhere, h1, h7, h8]
    rcases h with h | h | h
    · exact .inl (List.mem_append_right _ h)
    · exact .inr (.inl h)
    · by_cases he : c.cid.key = cid.key
      · have := ConnMap.mem_lookup hi.keys h
        rw [he] at this
        exact .inl (List.mem_append_left _ (h3 c this))
      · exact .inr (.inr (List.mem_cons_of_mem _ (List.mem_filter.2 ⟨h, by simpa using he⟩)))
  | lookup cid =>
    rcases (get_spec s cid).1 with e | ⟨d, _, e⟩ <;> simp only [ConnMap.step, e]
    · exact h
    · rcases h with h | h
      · exact .inl (List.mem_cons_of_mem _ h)
      · exact .inr h
  | die id =>
    simp only [ConnMap.step]
    split <;> exact h
  | expire k => exact somewhere_remove hi.keys h k
  | closeDevice u d => exact somewhere_removes _ hi h
  | closeUsers us =>
    simp only [ConnMap.step, ConnMap.closeUsers]
    induction us generalizing s with
    | nil => exact h
    | cons u us ih => exact ih (ConnMap.inv_foldl_remove hi _) (somewhere_removes _ hi h)
  | callback i =>
    simp only [ConnMap.step, ConnMap.callback]
    split
    · exact h
    · rename_i d hd
      rcases h with h | h | h
      · exact .inl (List.mem_cons_of_mem _ h)
      · by_cases he : c = d
        · subst he; exact .inl (List.mem_cons_self ..)
        · refine .inr (.inl ?_)
          obtain ⟨j, hj⟩ := List.getElem?_of_mem h
          refine (List.mem_eraseIdx_iff_getElem?).2 ⟨j, ?_, hj⟩
          rintro rfl
          rw [hd] at hj
          cases hj
          exact he rfl
      · exact .inr (.inr h)

/-! ## Subscriptions -/

structure Inv (w : W) : Prop where
  conns : ConnMap.Inv w.conns
  deadlt : ∀ i ∈ w.conns.dead, i < w.conns.next
  fresh : ∀ c u i, w.sub c = some (u, i) → c < w.conns.next ∧ i < w.next u
  inj : ∀ c d u i, w.sub c = some (u, i) → w.sub d = some (u, i) → c = d
  lis : ∀ u i c, (i, c) ∈ w.listeners u ↔ w.sub c = some (u, i) ∧ c ∉ w.conns.destroyed ∧ c ∉ w.conns.dead
  made : ∀ c ∈ w.conns.created, ∃ i, w.sub c.id = some (c.cid.user, i)
  conn : ∀ d u i, w.sub d = some (u, i) → ∃ c ∈ w.conns.created, c.id = d ∧ c.cid.user = u
  kept : ∀ c ∈ w.conns.created, Somewhere w.conns c

theorem unsub_same (w : W) (c : Nat) : (unsubscribe w c).sub = w.sub ∧ (unsubscribe w c).next = w.next := by
  unfold unsubscribe
  split <;> exact ⟨rfl, rfl⟩

theorem unsubs_same (l : List Nat) (w : W) : (l.foldl unsubscribe w).sub = w.sub ∧ (l.foldl unsubscribe w).next = w.next := by
  induction l generalizing w with
  | nil => exact ⟨rfl, rfl⟩
  | cons c l ih => exact ⟨(ih _).1.trans (unsub_same w c).1, (ih _).2.trans (unsub_same w c).2⟩

theorem unsub_mem {w : W} (hinj : ∀ c d u i, w.sub c = some (u, i) → w.sub d = some (u, i) → c = d)
    (hs : ∀ u i c, (i, c) ∈ w.listeners u → w.sub c = some (u, i)) (d : Nat) (u : String) (i c : Nat) :
    (i, c) ∈ (unsubscribe w d).listeners u ↔ (i, c) ∈ w.listeners u ∧ c ≠ d := by
  unfold unsubscribe
  cases hd : w.sub d with
  | none =>
    refine ⟨fun h => ⟨h, ?_⟩, fun h => h.1⟩
    rintro rfl
    have := hs u i c h
    rw [hd] at this
    cases this
  | some p =>
    obtain ⟨v, j⟩ := p
    simp only
    by_cases hv : u = v
    · subst hv
      simp only [if_true, List.mem_filter, decide_eq_true_eq]
      refine and_congr_right fun hm => ⟨?_, ?_⟩
      · rintro hij rfl
        have := hs u i c hm
        rw [hd] at this
        cases this
        exact hij rfl
      · rintro hcd rfl
        exact hcd (hinj c d u i (hs u i c hm) hd)
    · simp only [if_neg hv]
      refine ⟨fun h => ⟨h, ?_⟩, fun h => h.1⟩
      rintro rfl
      have := hs u i c h
      rw [hd] at this
      cases this
      exact hv rfl

theorem unsubs_mem (l : List Nat) {w : W} (hinj : ∀ c d u i, w.sub c = some (u, i) → w.sub d = some (u, i) → c = d)
    (hs : ∀ u i c, (i, c) ∈ w.listeners u → w.sub c = some (u, i)) (u : String) (i c : Nat) :
    (i, c) ∈ (l.foldl unsubscribe w).listeners u ↔ (i, c) ∈ w.listeners u ∧ c ∉ l := by
  induction l generalizing w with
  | nil => simp
  | cons d l ih =>
    have h1 := (unsub_same w d).1
    have := ih (w := unsubscribe w d) (by rw [h1]; exact hinj) (fun u i c h => by
      rw [h1]; exact hs u i c ((unsub_mem hinj hs d u i c).1 h).1)
    rw [List.foldl_cons, this, unsub_mem hinj hs, List.mem_cons]
    constructor
    · rintro ⟨⟨h1, h2⟩, h3⟩; exact ⟨h1, fun h => h.elim h2 h3⟩
    · rintro ⟨h1, h2⟩; exact ⟨⟨h1, fun h => h2 (.inl h)⟩, fun h => h2 (.inr h)⟩

theorem ended_mem {s : State} {o : Op} {l : List Nat} (hl : (ConnMap.step s o).destroyed = l ++ s.destroyed) (c : Nat) :
    (c ∉ ended s (ConnMap.step s o) o ∧ c ∉ s.destroyed ∧ c ∉ s.dead) ↔
      c ∉ (ConnMap.step s o).destroyed ∧ c ∉ (ConnMap.step s o).dead := by
  have hd := other_dead s o
  cases o with
  | die id =>
    have : (ConnMap.step s (.die id)).destroyed = s.destroyed := by simp only [ConnMap.step]; split <;> rfl
    rw [this, hd]
    simp only [ended, List.mem_append]
    constructor
    · rintro ⟨h1, h2, h3⟩; exact ⟨h2, fun h => h.elim h1 h3⟩
    · rintro ⟨h1, h2⟩; exact ⟨fun h => h2 (.inl h), h1, fun h => h2 (.inr h)⟩
  | _ =>
    rw [hd]
    simp only [ended, hl, List.length_append, Nat.add_sub_cancel, List.take_left', List.mem_append, List.nil_append]
    constructor
    · rintro ⟨h1, h2, h3⟩; exact ⟨fun h => h.elim h1 h2, h3⟩
    · rintro ⟨h1, h2⟩; exact ⟨fun h => h1 (.inl h), fun h => h1 (.inr h), h2⟩

theorem inv_init : Inv {} :=
  ⟨ConnMap.inv_run [], by simp, by simp, by simp, by simp, by simp, by simp, by simp⟩

theorem step_inv {w : W} (h : Inv w) (o : Op) : Inv (step w o) := by
  have hc := ConnMap.inv_step h.conns o
  have hsub := fun u i c => ((h.lis u i c).1 · |>.1)
  have hmem := unsubs_mem (ended w.conns (ConnMap.step w.conns o) o) h.inj hsub
  have hsame := unsubs_same (ended w.conns (ConnMap.step w.conns o) o) w
  have hdead := other_dead w.conns o
  by_cases ho : ∃ cid, o = .create cid
  · obtain ⟨cid, rfl⟩ := ho
    obtain ⟨l, h1, h2, h3, h4, h5, h6, h7, h8⟩ := create_spec w.conns cid
    have hend := ended_mem (o := .create cid) h1
    generalize he : ended w.conns (ConnMap.step w.conns (.create cid)) (.create cid) = e at hmem hsame hend
    have hnl : w.conns.next ∉ (ConnMap.step w.conns (.create cid)).destroyed := by
      simp only [ConnMap.step, h1, List.mem_append]
      rintro (hm | hm)
      · obtain ⟨c, hl, hid⟩ := h2 _ hm
        have := (h.conns.keyed _ (ConnMap.lookup_mem hl)).2
        simp only at this
        omega
      · exact absurd (h.conns.destlt _ hm) (by omega)
    have hnd : w.conns.next ∉ (ConnMap.step w.conns (.create cid)).dead := by
      simp only [ConnMap.step, h4]
      intro hm
      exact absurd (h.deadlt _ hm) (by omega)
    have hstep : step w (.create cid) =
        { subscribe (e.foldl unsubscribe w) cid.user w.conns.next with conns := ConnMap.step w.conns (.create cid) } := by
      simp only [step, he]
    have hnone : w.sub w.conns.next = none := by
      cases hx : w.sub w.conns.next with
      | none => rfl
      | some p => exact absurd (h.fresh _ p.1 p.2 hx).1 (by omega)
    have hs : ∀ d, (step w (.create cid)).sub d = if d = w.conns.next then some (cid.user, w.next cid.user) else w.sub d := by
      intro d
      rw [hstep]
      simp only [subscribe, hsame.1, hsame.2]
    have hnx : ∀ v, (step w (.create cid)).next v = if v = cid.user then w.next cid.user + 1 else w.next v := by
      intro v
      rw [hstep]
      simp only [subscribe, hsame.2]
    have hl : ∀ v i c, (i, c) ∈ (step w (.create cid)).listeners v ↔
        (v = cid.user ∧ i = w.next cid.user ∧ c = w.conns.next) ∨ ((i, c) ∈ w.listeners v ∧ c ∉ e) := by
      intro v i c
      rw [hstep]
      simp only [subscribe, hsame.2]
      by_cases hv : v = cid.user
      · subst hv
        simp only [if_true, List.mem_cons, Prod.mk.injEq, List.mem_filter, decide_eq_true_eq, hmem, true_and]
        refine or_congr_right ⟨fun h => h.1, fun hm => ⟨hm, ?_⟩⟩
        have := (h.fresh _ _ _ (hsub _ _ _ hm.1)).2
        omega
      · rw [if_neg hv, hmem]
        simp only [hv, false_and, false_or]
    have hcs : (step w (.create cid)).conns = ConnMap.step w.conns (.create cid) := by rw [hstep]
    have hcr : (ConnMap.step w.conns (.create cid)).created = w.conns.created ++ [⟨w.conns.next, cid⟩] := h5
    refine ⟨by rw [hcs]; exact hc, ?_, ?_, ?_, ?_, ?_, ?_, ?_⟩
    · rw [hcs]
      intro i hi
      have : i ∈ w.conns.dead := by simpa only [ConnMap.step, h4] using hi
      have := h.deadlt i this
      simp only [ConnMap.step, h6]; omega
    · intro c u i hx
      rw [hs] at hx
      rw [hcs, hnx]
      simp only [ConnMap.step, h6]
      by_cases hcn : c = w.conns.next
      · rw [if_pos hcn] at hx
        cases hx
        simp only [if_true]; omega
      · rw [if_neg hcn] at hx
        have := h.fresh c u i hx
        split
        · rename_i hu; subst hu; omega
        · omega
    · intro c d u i hx hy
      rw [hs] at hx hy
      by_cases h1 : c = w.conns.next <;> by_cases h2 : d = w.conns.next
      · rw [h1, h2]
      · rw [if_pos h1] at hx; rw [if_neg h2] at hy
        cases hx
        exact absurd (h.fresh d _ _ hy).2 (by omega)
      · rw [if_neg h1] at hx; rw [if_pos h2] at hy
        cases hy
        exact absurd (h.fresh c _ _ hx).2 (by omega)
      · rw [if_neg h1] at hx; rw [if_neg h2] at hy
        exact h.inj c d u i hx hy
    · intro u i c
      rw [hl, hs, hcs, ← hend c]
      by_cases hcn : c = w.conns.next
      · subst hcn
        have hn : (i, w.conns.next) ∉ w.listeners u := by
          intro hm
          have := hsub _ _ _ hm
          rw [hnone] at this
          cases this
        simp only [hn, false_and, or_false, if_true, Option.some.injEq, Prod.mk.injEq, and_true]
        have := (hend w.conns.next).2 ⟨hnl, hnd⟩
        constructor
        · rintro ⟨rfl, rfl⟩; exact ⟨⟨rfl, rfl⟩, this⟩
        · rintro ⟨⟨rfl, rfl⟩, _⟩; exact ⟨rfl, rfl⟩
      · simp only [hcn, and_false, false_or, if_false, h.lis]
        constructor
        · rintro ⟨⟨a, b, c⟩, d⟩; exact ⟨a, d, b, c⟩
        · rintro ⟨a, d, b, c⟩; exact ⟨⟨a, b, c⟩, d⟩
    · rw [hcs, hcr]
      intro c hm
      rw [hs]
      rcases List.mem_append.1 hm with hm | hm
      · obtain ⟨i, hi⟩ := h.made c hm
        have : c.id ≠ w.conns.next := by
          intro hh
          rw [hh, hnone] at hi
          cases hi
        exact ⟨i, by rw [if_neg this]; exact hi⟩
      · simp only [List.mem_singleton] at hm
        subst hm
        exact ⟨w.next cid.user, by simp⟩
    · rw [hcs, hcr]
      intro d u i hx
      rw [hs] at hx
      by_cases hd : d = w.conns.next
      · rw [if_pos hd] at hx
        cases hx
        exact ⟨⟨w.conns.next, cid⟩, by simp, hd.symm, rfl⟩
      · rw [if_neg hd] at hx
        obtain ⟨c, h1, h2⟩ := h.conn d u i hx
        exact ⟨c, List.mem_append_left _ h1, h2⟩
    · rw [hcs, hcr]
      intro c hm
      rcases List.mem_append.1 hm with hm | hm
      · exact somewhere_step h.conns (h.kept c hm) (.create cid)
      · simp only [List.mem_singleton] at hm
        subst hm
        refine .inr (.inr ?_)
        simp only [ConnMap.step, h8]
        exact List.mem_cons_self ..
  · have hne : ∀ c, o ≠ .create c := fun c hh => ho ⟨c, hh⟩
    obtain ⟨⟨l, h1⟩, h2, h3⟩ := other_spec w.conns o hne
    have hend := ended_mem h1
    have hstep : step w o = { (ended w.conns (ConnMap.step w.conns o) o).foldl unsubscribe w with conns := ConnMap.step w.conns o } := by
      cases o with
      | create c => exact absurd rfl (hne c)
      | _ => rfl
    rw [hstep]
    generalize he : ended w.conns (ConnMap.step w.conns o) o = e at hmem hsame hend
    refine ⟨hc, ?_, ?_, ?_, ?_, ?_, ?_, ?_⟩
    · simp only [hdead, h3]
      intro i hi
      rcases List.mem_append.1 hi with hi | hi
      · cases o with
        | die id =>
          simp only at hi
          split at hi
          · rename_i hlt
            simp only [List.mem_singleton] at hi
            omega
          · cases hi
        | _ => cases hi
      · exact h.deadlt i hi
    · simp only [hsame.1, hsame.2, h3]; exact h.fresh
    · simp only [hsame.1]; exact h.inj
    · intro u i c
      simp only [hmem, hsame.1, h.lis]
      rw [← hend c]
      constructor
      · rintro ⟨⟨a, b, c⟩, d⟩; exact ⟨a, d, b, c⟩
      · rintro ⟨a, d, b, c⟩; exact ⟨⟨a, b, c⟩, d⟩
    · simp only [hsame.1, h2]; exact h.made
    · simp only [hsame.1, h2]; exact h.conn
    · simp only [h2]
      intro c hm
      exact somewhere_step h.conns (h.kept c hm) o

theorem run_inv (ops : List Op) : Inv (run ops) := by
  have : ∀ (ops : List Op) (w : W), Inv w → Inv (ops.foldl step w) := by
    intro ops
    induction ops with
    | nil => exact fun _ h => h
    | cons o os ih => exact fun w h => ih _ (step_inv h o)
  exact this ops {} inv_init

theorem run_conns (ops : List Op) : (run ops).conns = ConnMap.run ops := by
  have : ∀ (ops : List Op) (w : W) (s : State), w.conns = s → (ops.foldl step w).conns = ops.foldl ConnMap.step s := by
    intro ops
    induction ops with
    | nil => exact fun _ _ h => h
    | cons o os ih => exact fun w s h => ih _ _ (by rw [← h]; rfl)
  exact this ops {} {} rfl

/-! ## C148 -/

/-- The connection listens to the cache of the user. -/
def Listens (w : W) (u : String) (c : Nat) : Prop := ∃ i, (i, c) ∈ w.listeners u

/-- C148: a connection that a look-up returns gets the updates of its user. -/
theorem C148_usable (ops : List Op) (cid : CID) (c : Conn) (h : (ConnMap.getConn (run ops).conns cid).2 = some c) :
    Listens (run ops) c.cid.user c.id := by
  have hi := run_inv ops
  have hl := (get_spec _ cid).2 c h
  have hiso := ConnMap.C19_lookup_isolated ops cid c (by rw [← run_conns]; exact h)
  rw [← run_conns] at hiso
  have hm := ConnMap.lookup_mem hl
  have hsome : ∃ i, (run ops).sub c.id = some (c.cid.user, i) := by
    have key : ∀ (ops : List Op) (s : State), (∀ p ∈ s.cache, p.2 ∈ s.created) → ∀ p ∈ (ops.foldl ConnMap.step s).cache,
        p.2 ∈ (ops.foldl ConnMap.step s).created := by
      intro ops
      induction ops with
      | nil => exact fun _ h => h
      | cons o os ih =>
        intro s hs
        refine ih _ ?_
        have hrem : ∀ (ks : List String) (s : State), (∀ p ∈ s.cache, p.2 ∈ s.created) → ∀ p ∈ (ks.foldl ConnMap.removeKey s).cache,
            p.2 ∈ (ks.foldl ConnMap.removeKey s).created := by
          intro ks
          induction ks with
          | nil => exact fun _ h => h
          | cons k ks ih =>
            intro s hs
            refine ih _ fun p hp => ?_
            rw [(remove_same s k).2.2.1]
            exact hs p ((ConnMap.mem_cache_remove s k p).1 hp).1
        cases o with
        | create cid =>
          obtain ⟨l, h1, h2, h3, h4, h5, h6, h7, h8⟩ := create_spec s cid
          intro p hp
          simp only [ConnMap.step, h5, h8] at hp ⊢
          rcases List.mem_cons.1 hp with rfl | hp
          · exact List.mem_append_right _ (by simp)
          · exact List.mem_append_left _ (hs p (List.mem_filter.1 hp).1)
        | lookup cid =>
          rcases (get_spec s cid).1 with e | ⟨d, _, e⟩ <;> simp only [ConnMap.step, e] <;> exact hs
        | die id => simp only [ConnMap.step]; split <;> exact hs
        | expire k => exact hrem [k] s hs
        | closeDevice u d => exact hrem _ s hs
        | closeUsers us =>
          simp only [ConnMap.step, ConnMap.closeUsers]
          clear ih
          induction us generalizing s with
          | nil => exact hs
          | cons u us ih => exact ih _ (hrem _ s hs)
        | callback i =>
          simp only [ConnMap.step, ConnMap.callback]
          split <;> exact hs
    have hcm : (cid.key, c).2 ∈ (run ops).conns.created := by
      rw [run_conns] at hm ⊢
      exact key ops {} (by simp) _ hm
    exact hi.made c hcm
  obtain ⟨i, hs⟩ := hsome
  exact ⟨i, (hi.lis _ i _).2 ⟨hs, hiso.2.2.1, hiso.2.2.2⟩⟩

/-- C148: nothing listens but connections that can be used, each to the cache of its own user, except connections
whose closing is under way. -/
theorem C148_no_leak (ops : List Op) (u : String) (d : Nat) (h : Listens (run ops) u d) :
    ∃ c : Conn, c.id = d ∧ c.cid.user = u ∧
      ((ConnMap.getConn (run ops).conns c.cid).2 = some c ∨ c ∈ (run ops).conns.pending) := by
  have hi := run_inv ops
  obtain ⟨i, hm⟩ := h
  obtain ⟨hs, hnd, hna⟩ := (hi.lis u i d).1 hm
  obtain ⟨c, hc, rfl, hu⟩ := hi.conn d u i hs
  refine ⟨c, rfl, hu, ?_⟩
  rcases hi.kept c hc with hk | hk | hk
  · exact absurd hk hnd
  · exact .inr hk
  · left
    unfold ConnMap.getConn
    rw [ConnMap.mem_lookup hi.conns.keys hk]
    simp only [hna, if_false]

/-- C148: an update is given to a connection once. -/
theorem C148_once (ops : List Op) (u : String) (i j d : Nat) (hi : (i, d) ∈ (run ops).listeners u) (hj : (j, d) ∈ (run ops).listeners u) :
    i = j := by
  have h := run_inv ops
  have h1 := ((h.lis u i d).1 hi).1
  rw [((h.lis u j d).1 hj).1] at h1
  cases h1
  rfl

/-! ## Cases -/

def a1 : CID := ⟨"@a:x", "D", "1"⟩
def a2 : CID := ⟨"@a:x", "D", "2"⟩

/-- A connection that is used, one whose buffer is full, and one that has expired. -/
example : let w := run [.create a1, .create a2, .create ⟨"@a:x", "E", ""⟩, .die 1, .expire "@a:x|E|"]
    w.listeners "@a:x" = [(2, 2), (0, 0)] ∧ w.conns.pending = [⟨2, ⟨"@a:x", "E", ""⟩⟩] ∧
    (ConnMap.getConn w.conns a1).2 = some ⟨0, a1⟩ := by decide +kernel

/-- One connection after the other, and late callbacks: one listener. -/
example : (run [.create a1, .create a1, .expire "@a:x|D|1", .create a1, .callback 0, .die 1]).listeners "@a:x" = [(2, 2)] := by
  decide +kernel

end Verif.Lifecycle
