import Verif.Ignoring
import Verif.ConnLoadProps
import Verif.UserFlagsProps
/-!
# C122: messages of ignored users, and only they, are left out of the timelines
-/
namespace Verif.Ignoring
open Verif

/-! ## Specification -/

/-- What came for the user. -/
def usersOf (ops : List Op) : List UserFlags.Op := ops.filterMap fun o => match o with
  | .user u => some u
  | _ => none

/-- The events stored. -/
def eventsOf (ops : List Op) : List Ev := ops.filterMap fun o => match o with
  | .append e => some e
  | _ => none

/-- The users in the last `m.ignored_user_list` that came. -/
def ignored (us : List UserFlags.Op) : List String :=
  ((UserFlags.lastData us "" "m.ignored_user_list").bind (·.ignored)).getD []

/-- Every `m.ignored_user_list` has an object of users. -/
def WellFormed (us : List UserFlags.Op) : Prop := ∀ x, .data "" "m.ignored_user_list" x ∈ us → x.ignored.isSome = true

/-- Events are taken from the queue in the order of their positions, starting with number `q`, each after it was stored. -/
def InOrder (n q : Nat) : List Op → Prop
  | [] => True
  | .append _ :: os => InOrder (n + 1) q os
  | .user _ :: os => InOrder n q os
  | .request _ :: os => InOrder n q os
  | .deliver i _ _ :: os => i = q ∧ q < n ∧ InOrder n (q + 1) os

/-- How many events were taken from the queue. -/
def taken (ops : List Op) : Nat := ops.countP fun o => match o with
  | .deliver .. => true
  | _ => false

/-- Every timeline limit is at least one. -/
def PosLimits (ops : List Op) : Prop := ∀ o ∈ ops, ∀ i vis xs, (o = .request xs ∨ o = .deliver i vis xs) → ∀ x ∈ xs, 1 ≤ x.2

/-! ## The log and the flags -/

theorem load1_keeps (s : State) (x : Nat × Nat) : (load1 s x).1.log = s.log ∧ (load1 s x).1.flags = s.flags ∧ (load1 s x).1.anchor = s.anchor :=
  ⟨rfl, rfl, rfl⟩

theorem loads_keeps (s : State) (xs : List (Nat × Nat)) :
    (loads s xs).1.log = s.log ∧ (loads s xs).1.flags = s.flags ∧ (loads s xs).1.anchor = s.anchor := by
  induction xs generalizing s with
  | nil => exact ⟨rfl, rfl, rfl⟩
  | cons x xs ih => exact ih (load1 s x).1

theorem deliver_keeps (s : State) (e : Ev) (n : Nat) (vis : Bool) (xs : List (Nat × Nat)) :
    (deliver s e n vis xs).1.log = s.log ∧ (deliver s e n vis xs).1.flags = s.flags := by
  have h := loads_keeps { s with anchor := max s.anchor n } xs
  unfold deliver
  split
  · exact ⟨rfl, rfl⟩
  · split
    · exact ⟨rfl, rfl⟩
    · dsimp only
      split
      · exact ⟨h.1, h.2.1⟩
      · split
        · exact ⟨h.1, h.2.1⟩
        · exact ⟨h.1, h.2.1⟩

theorem run_snoc (s : State) (ops : List Op) (o : Op) : run s (ops ++ [o]) = (step (run s ops) o).1 := by
  unfold run; rw [List.foldl_append]; rfl

theorem run_keeps (s : State) (ops : List Op) :
    (run s ops).log = s.log ++ eventsOf ops ∧ (run s ops).flags = (usersOf ops).foldl UserFlags.step s.flags := by
  induction ops using Verif.Util.snocRec with
  | nil => exact ⟨by simp [run, eventsOf], rfl⟩
  | append_singleton ops o ih =>
    rw [run_snoc]
    unfold eventsOf usersOf at *
    rw [List.filterMap_append, List.filterMap_append, List.foldl_append, ← List.append_assoc, ← ih.1, ← ih.2]
    cases o with
    | append e => exact ⟨rfl, rfl⟩
    | user u => exact ⟨by simp [step], rfl⟩
    | request xs =>
      have := loads_keeps (run s ops) xs
      exact ⟨by simpa [step] using this.1, by simpa [step] using this.2.1⟩
    | deliver i vis xs =>
      cases hi : (run s ops).log[i]? with
      | none =>
        have hs : step (run s ops) (.deliver i vis xs) = (run s ops, []) := by unfold step; simp only [hi]
        rw [hs]
        exact ⟨by simp, rfl⟩
      | some e =>
        have hs : step (run s ops) (.deliver i vis xs) = deliver (run s ops) e (i + 1) vis xs := by unfold step; simp only [hi]
        rw [hs]
        have := deliver_keeps (run s ops) e (i + 1) vis xs
        exact ⟨by simpa using this.1, by simpa using this.2⟩

/-- What the cache of the user has. -/
theorem ignores (log : List Ev) (us : List UserFlags.Op) (ops : List Op) (hwf : WellFormed (us ++ usersOf ops)) (x : String) :
    shouldIgnore (run (connect log (UserFlags.run us)) ops) x = true ↔ x ∈ ignored (us ++ usersOf ops) := by
  unfold shouldIgnore
  rw [(run_keeps _ ops).2]
  have h : (usersOf ops).foldl UserFlags.step (connect log (UserFlags.run us)).flags = UserFlags.run (us ++ usersOf ops) := by
    unfold UserFlags.run
    rw [List.foldl_append]
    rfl
  rw [h, UserFlags.C104_ignored_partial _ hwf]
  unfold ignored
  simp

/-! ## What is sent -/

/-- The event may be sent. -/
def Fine (s : State) (r n : Nat) : Prop :=
  1 ≤ n ∧ ∃ e, s.log[n - 1]? = some e ∧ e.room = r ∧ (e.isState = true ∨ shouldIgnore s e.sender = false)

theorem mem_evs_log {log : List Ev} {r n : Nat} (h : n ∈ ConnLoad.evs (rooms log) r) : 1 ≤ n ∧ ∃ e, log[n - 1]? = some e ∧ e.room = r := by
  unfold ConnLoad.evs rooms at h
  simp only [List.mem_filter, List.mem_map, List.mem_range] at h
  obtain ⟨⟨i, _, rfl⟩, h⟩ := h
  refine ⟨by omega, ?_⟩
  have h := of_decide_eq_true h
  rw [List.getElem?_map, Option.map_eq_some_iff] at h
  exact h

theorem evs_log_mem {log : List Ev} {i : Nat} {e : Ev} (h : log[i]? = some e) : i + 1 ∈ ConnLoad.evs (rooms log) e.room := by
  apply ConnLoad.mem_evs
  unfold rooms
  rw [List.getElem?_map, h]
  rfl

theorem latest_mem {log : List Nat} {a k r n : Nat} (h : n ∈ ConnLoad.latest log a k r) : n ∈ ConnLoad.evs log r ∧ n ≤ a := by
  have := List.mem_of_mem_drop h
  have := List.mem_filter.1 this
  exact ⟨this.1, by simpa using this.2⟩

theorem load1_fine (s : State) (x : Nat × Nat) : ∀ n ∈ (load1 s x).2.timeline, Fine s (load1 s x).2.room n := by
  intro n hn
  have hn := List.mem_filter.1 (show n ∈ (ConnLoad.latest (rooms s.log) s.anchor x.2 x.1).filter (keeps s) from hn)
  obtain ⟨h1, e, he, hr⟩ := mem_evs_log (latest_mem hn.1).1
  refine ⟨h1, e, he, hr, ?_⟩
  have hk := hn.2
  unfold keeps at hk
  rw [he] at hk
  simpa using hk

theorem loads_fine (s : State) (xs : List (Nat × Nat)) : ∀ it ∈ (loads s xs).2, ∀ n ∈ it.timeline, Fine s it.room n := by
  induction xs generalizing s with
  | nil => intro it hit; cases hit
  | cons x xs ih =>
    intro it hit n hn
    rcases List.mem_cons.1 hit with rfl | hit
    · exact load1_fine s x n hn
    · exact ih (load1 s x).1 it hit n hn

theorem step_fine (s : State) (o : Op) : ∀ it ∈ (step s o).2, ∀ n ∈ it.timeline, Fine s it.room n := by
  cases o with
  | append e => intro it hit; cases hit
  | user u => intro it hit; cases hit
  | request xs => exact loads_fine s xs
  | deliver i vis xs =>
    cases hi : s.log[i]? with
    | none =>
      have hs : step s (.deliver i vis xs) = (s, []) := by unfold step; simp only [hi]
      rw [hs]
      intro it hit; cases hit
    | some e =>
      have hs : step s (.deliver i vis xs) = deliver s e (i + 1) vis xs := by unfold step; simp only [hi]
      rw [hs]
      intro it hit n hn
      have hl := loads_fine { s with anchor := max s.anchor (i + 1) } xs
      unfold deliver at hit
      split at hit
      · cases hit
      · split at hit
        · cases hit
        · rename_i hig
          dsimp only at hit
          split at hit
          · rcases List.mem_append.1 hit with hit | hit
            · exact hl it hit n hn
            · unfold appendLive at hit
              dsimp only at hit
              split at hit
              · cases hit
              · have hit := List.mem_singleton.1 hit
                subst hit
                have hn := List.mem_singleton.1 hn
                subst hn
                refine ⟨by omega, e, hi, rfl, ?_⟩
                cases hs : e.isState
                · right
                  cases hg : shouldIgnore s e.sender
                  · rfl
                  · exact absurd ⟨hs, hg⟩ hig
                · exact Or.inl rfl
          · split at hit
            · exact hl it hit n hn
            · exact hl it hit n hn

/-- **C122.** No timeline of a response – of a room's initial data or of live data – has a message by a user who is in the last list
of ignored users that came before; every event in it is a stored event of the room.  (Lists without an object of users: C104.) -/
theorem C122_never (log : List Ev) (us : List UserFlags.Op) (ops : List Op) (hwf : WellFormed (us ++ usersOf ops)) (o : Op) (it : Item)
    (hit : it ∈ (step (run (connect log (UserFlags.run us)) ops) o).2) (n : Nat) (hn : n ∈ it.timeline) :
    ∃ e, (log ++ eventsOf ops)[n - 1]? = some e ∧ e.room = it.room ∧ (e.isState = true ∨ e.sender ∉ ignored (us ++ usersOf ops)) := by
  obtain ⟨_, e, he, hr, h⟩ := step_fine _ o it hit n hn
  rw [(run_keeps _ ops).1] at he
  refine ⟨e, he, hr, h.imp_right fun h hm => ?_⟩
  rw [(ignores log us ops hwf e.sender).2 hm] at h
  cases h

/-! ## What is not sent -/

/-- The event is a message by a user who was ignored at some time. -/
def Out (P : String → Prop) (log : List Ev) (n : Nat) : Prop := ∃ e, log[n - 1]? = some e ∧ e.isState = false ∧ P e.sender

/-- What the client has of a room up to position `m`. -/
structure Whole (P : String → Prop) (log : List Ev) (r m : Nat) (v : Nat × List Nat) : Prop where
  first : v.1 ≤ m
  sorted : v.2.Pairwise (· < ·)
  mem : ∀ n ∈ v.2, n ∈ ConnLoad.evs (rooms log) r ∧ v.1 ≤ n ∧ n ≤ m
  all : ∀ n ∈ ConnLoad.evs (rooms log) r, v.1 ≤ n → n ≤ m → n ∈ v.2 ∨ Out P log n

/-- `A` is the position of the initial load, `p` events were taken from the queue, and all that is to be done for the first `q` of
them is done. -/
structure Inv (P : String → Prop) (A q p : Nat) (s : State) : Prop where
  lo : A ≤ s.anchor
  hi : s.anchor ≤ max A p
  passed : ∀ r, ∀ n ∈ ConnLoad.evs (rooms s.log) r, n ≤ p → n ≤ s.anchor ∨ Out P s.log n
  lpA : ∀ r, s.lp r ≤ s.anchor
  known : ∀ r, ∀ n ∈ ConnLoad.evs (rooms s.log) r, n ≤ A → n ≤ s.lp r
  view : ∀ r v, s.view r = some v → Whole P s.log r (s.lp r) v ∧ ∀ n ∈ ConnLoad.evs (rooms s.log) r, s.lp r < n → n ≤ q → Out P s.log n

theorem inv_connect (P : String → Prop) (log : List Ev) (f : UserFlags.State) (q : Nat) (hq : q ≤ log.length) :
    Inv P log.length q q (connect log f) := by
  have hl := fun r => ConnLoad.getLast_max (ConnLoad.evs (rooms log) r) (ConnLoad.evs_sorted (rooms log) r)
  have hlen : (rooms log).length = log.length := by unfold rooms; simp
  refine ⟨Nat.le_refl _, by show log.length ≤ _; omega, ?_, ?_, ?_, nofun⟩
  · intro r n hn _
    have := (ConnLoad.evs_le _ _ _ hn).2
    exact Or.inl (Nat.le_trans this (Nat.le_of_eq hlen))
  · intro r
    show (ConnLoad.evs (rooms log) r).getLast?.getD 0 ≤ log.length
    rcases (hl r).2 with h | h
    · omega
    · exact hlen ▸ (ConnLoad.evs_le _ _ _ h).2
  · intro r n hn _; exact (hl r).1 n hn

theorem drop_ge {l : List Nat} (h : l.Pairwise (· < ·)) {j a n : Nat} (ha : (l.drop j).head? = some a) (hn : n ∈ l) (hle : a ≤ n) : n ∈ l.drop j := by
  rw [← List.take_append_drop j l] at h hn
  rcases List.mem_append.1 hn with hn | hn
  · have := (List.pairwise_append.1 h).2.2 n hn a (List.mem_of_head? ha)
    omega
  · exact hn

theorem drop_head_le {l : List Nat} (h : l.Pairwise (· < ·)) {a n : Nat} (ha : l.head? = some a) (hn : n ∈ l) : a ≤ n := by
  cases l with
  | nil => cases hn
  | cons b l =>
    cases ha
    rcases List.mem_cons.1 hn with rfl | hn
    · exact Nat.le_refl _
    · exact Nat.le_of_lt ((List.pairwise_cons.1 h).1 n hn)

theorem latest_nil {log : List Nat} {a k r : Nat} (hk : 1 ≤ k) (h : ConnLoad.latest log a k r = []) : (ConnLoad.evs log r).filter (· ≤ a) = [] := by
  unfold ConnLoad.latest ConnLoad.lastN at h
  have := congrArg List.length h
  rw [List.length_drop, List.length_nil] at this
  exact List.eq_nil_of_length_eq_zero (by omega)

theorem load1_lp (s : State) (x : Nat × Nat) (hx : 1 ≤ x.2) (r : Nat) :
    (load1 s x).1.lp r = if r = x.1 then ConnLoad.top (rooms s.log) s.anchor r else s.lp r := by
  show ConnLoad.set s.lp x.1 _ r = _
  unfold ConnLoad.set
  by_cases h : r = x.1
  · rw [if_pos h, if_pos h, ConnLoad.latest_last _ _ _ _ hx, h]
  · rw [if_neg h, if_neg h]

theorem load1_view (s : State) (x : Nat × Nat) (r : Nat) : (load1 s x).1.view r =
    if r = x.1 then some ((ConnLoad.latest (rooms s.log) s.anchor x.2 x.1).head?.getD 0,
      (ConnLoad.latest (rooms s.log) s.anchor x.2 x.1).filter (keeps s)) else s.view r := rfl

theorem load1_inv {P : String → Prop} {A q p : Nat} {s : State} (x : Nat × Nat) (hx : 1 ≤ x.2) (hqp : q ≤ p)
    (hP : ∀ u, shouldIgnore s u = true → P u) (h : Inv P A q p s) : Inv P A q p (load1 s x).1 := by
  have hsort := (ConnLoad.evs_sorted (rooms s.log) x.1).filter (· ≤ s.anchor)
  have htop := ConnLoad.top_spec (rooms s.log) s.anchor x.1
  refine ⟨h.lo, h.hi, h.passed, ?_, ?_, ?_⟩
  · intro r
    rw [load1_lp s x hx r]
    split
    · rename_i hr; subst hr; exact htop.2.2
    · exact h.lpA r
  · intro r n hn hA
    rw [load1_lp s x hx r]
    split
    · rename_i hr; subst hr; exact htop.1 n hn (Nat.le_trans hA h.lo)
    · exact h.known r n hn hA
  · intro r v hv
    rw [load1_lp s x hx r]
    rw [load1_view] at hv
    by_cases hr : r = x.1
    · subst hr
      rw [if_pos rfl] at hv
      rw [if_pos rfl]
      cases hv
      generalize ht : ConnLoad.latest (rooms s.log) s.anchor x.2 x.1 = t
      have hts : t.Pairwise (· < ·) := by
        rw [← ht]; exact hsort.sublist (List.drop_sublist _ _)
      have hin : ∀ n ∈ t, n ∈ ConnLoad.evs (rooms s.log) x.1 ∧ n ≤ ConnLoad.top (rooms s.log) s.anchor x.1 := by
        intro n hn
        rw [← ht] at hn
        have := latest_mem hn
        exact ⟨this.1, htop.1 n this.1 this.2⟩
      refine ⟨⟨?_, hts.filter _, ?_, ?_⟩, ?_⟩
      · cases hh : t.head? with
        | none => exact Nat.zero_le _
        | some a => exact (hin a (List.mem_of_head? hh)).2
      · intro n hn
        have hn := (List.mem_filter.1 hn).1
        refine ⟨(hin n hn).1, ?_, (hin n hn).2⟩
        show t.head?.getD 0 ≤ n
        cases hh : t.head? with
        | none => exact Nat.zero_le _
        | some a => exact drop_head_le hts hh hn
      · intro n hn hs hle
        have hle' : n ≤ s.anchor := Nat.le_trans hle htop.2.2
        have hmf : n ∈ (ConnLoad.evs (rooms s.log) x.1).filter (· ≤ s.anchor) := List.mem_filter.2 ⟨hn, by simpa using hle'⟩
        have hnt : n ∈ t := by
          cases hh : t.head? with
          | none =>
            have := latest_nil hx (ht.trans (List.head?_eq_none_iff.1 hh))
            rw [this] at hmf; cases hmf
          | some a =>
            replace hs : t.head?.getD 0 ≤ n := hs
            rw [hh] at hs
            rw [← ht] at hh ⊢
            exact drop_ge hsort hh hmf hs
        cases hk : keeps s n with
        | true => exact Or.inl (List.mem_filter.2 ⟨hnt, hk⟩)
        | false =>
          right
          obtain ⟨_, e, he, _⟩ := mem_evs_log (log := s.log) hn
          unfold keeps at hk
          rw [he] at hk
          simp only [Bool.or_eq_false_iff, Bool.not_eq_false'] at hk
          exact ⟨e, he, hk.1, hP _ hk.2⟩
      · intro n hn hlt hq
        rcases h.passed x.1 n hn (Nat.le_trans hq hqp) with ha | ha
        · have := htop.1 n hn ha
          omega
        · exact ha
    · rw [if_neg hr] at hv
      rw [if_neg hr]
      exact h.view r v hv

theorem loads_inv {P : String → Prop} {A q p : Nat} {s : State} (xs : List (Nat × Nat)) (hx : ∀ x ∈ xs, 1 ≤ x.2) (hqp : q ≤ p)
    (hP : ∀ u, shouldIgnore s u = true → P u) (h : Inv P A q p s) : Inv P A q p (loads s xs).1 := by
  induction xs generalizing s with
  | nil => exact h
  | cons x xs ih =>
    exact ih (fun y hy => hx y (List.mem_cons_of_mem _ hy)) hP (load1_inv x (hx x (by simp)) hqp hP h)

theorem loads_lp (s : State) (xs : List (Nat × Nat)) (hx : ∀ x ∈ xs, 1 ≤ x.2) (r : Nat) :
    (loads s xs).1.lp r = if xs.any (·.1 = r) then ConnLoad.top (rooms s.log) s.anchor r else s.lp r := by
  induction xs generalizing s with
  | nil => rfl
  | cons x xs ih =>
    show (loads (load1 s x).1 xs).1.lp r = _
    rw [ih _ fun y hy => hx y (List.mem_cons_of_mem _ hy), load1_lp s x (hx x (by simp)), (load1_keeps s x).1, (load1_keeps s x).2.2,
      List.any_cons]
    by_cases h1 : x.1 = r
    · simp [h1]
    · have : ¬ r = x.1 := fun h => h1 h.symm
      rw [if_neg this, decide_eq_false h1, Bool.false_or]

theorem same_room {log : List Ev} {q r : Nat} {e : Ev} (he : log[q]? = some e) (h : q + 1 ∈ ConnLoad.evs (rooms log) r) : r = e.room := by
  obtain ⟨_, e', he', hr⟩ := mem_evs_log h
  rw [Nat.add_sub_cancel, he] at he'
  cases he'
  exact hr.symm

/-- Nothing is left to be done for the event that was taken. -/
theorem settle {P : String → Prop} {A q : Nat} {s : State} {e : Ev} (he : s.log[q]? = some e) (h : Inv P A q (q + 1) s)
    (hd : q + 1 ≤ s.lp e.room ∨ Out P s.log (q + 1) ∨ s.view e.room = none) : Inv P A (q + 1) (q + 1) s := by
  refine ⟨h.lo, h.hi, h.passed, h.lpA, h.known, fun r v hv => ⟨(h.view r v hv).1, fun n hn hlt hle => ?_⟩⟩
  by_cases hq : n ≤ q
  · exact (h.view r v hv).2 n hn hlt hq
  · have : n = q + 1 := by omega
    subst this
    have := same_room he hn
    subst this
    rcases hd with hd | hd | hd
    · omega
    · exact hd
    · rw [hd] at hv; cases hv

theorem deliver_inv {P : String → Prop} {A q : Nat} {s : State} {e : Ev} (he : s.log[q]? = some e) (vis : Bool) (xs : List (Nat × Nat))
    (hx : ∀ x ∈ xs, 1 ≤ x.2) (hP : ∀ u, shouldIgnore s u = true → P u) (h : Inv P A q q s) :
    Inv P A (q + 1) (q + 1) (deliver s e (q + 1) vis xs).1 := by
  have hmem := evs_log_mem he
  have up : ∀ (hp : q + 1 ≤ s.anchor ∨ Out P s.log (q + 1)), Inv P A q (q + 1) s := by
    intro hp
    refine ⟨h.lo, Nat.le_trans h.hi (by omega), fun r n hn hle => ?_, h.lpA, h.known, h.view⟩
    by_cases hq : n ≤ q
    · exact h.passed r n hn hq
    · have : n = q + 1 := by omega
      subst this; exact hp
  unfold deliver
  split
  · rename_i hsk
    have := h.lpA e.room
    exact settle he (up (Or.inl (by omega))) (Or.inl (Nat.le_of_lt hsk.2))
  · rename_i hsk
    split
    · rename_i hig
      have hout : Out P s.log (q + 1) := ⟨e, he, hig.1, hP _ hig.2⟩
      exact settle he (up (Or.inr hout)) (Or.inr (Or.inl hout))
    · dsimp only
      have h0 : Inv P A q (q + 1) { s with anchor := max s.anchor (q + 1) } := by
        refine ⟨Nat.le_trans h.lo (Nat.le_max_left _ _), ?_, fun r n hn hle => Or.inl ?_, fun r => ?_, h.known, h.view⟩
        · have := h.hi
          show max s.anchor (q + 1) ≤ _
          omega
        · show n ≤ max s.anchor (q + 1)
          omega
        · have := h.lpA r
          show s.lp r ≤ max s.anchor (q + 1)
          omega
      have h1 := loads_inv (s := { s with anchor := max s.anchor (q + 1) }) xs hx (Nat.le_succ q) hP h0
      have hk := loads_keeps { s with anchor := max s.anchor (q + 1) } xs
      have hlp := loads_lp { s with anchor := max s.anchor (q + 1) } xs hx e.room
      have he1 : (loads { s with anchor := max s.anchor (q + 1) } xs).1.log[q]? = some e := by rw [hk.1]; exact he
      have htop := ConnLoad.top_spec (rooms s.log) (max s.anchor (q + 1)) e.room
      have hAq : q + 1 ≤ A → s.lp e.room = q + 1 := by
        intro hA
        have := h.known e.room (q + 1) hmem hA
        omega
      generalize hs1 : (loads { s with anchor := max s.anchor (q + 1) } xs) = s1 at *
      have hlpn : q + 1 ≤ s1.1.lp e.room → s1.1.lp e.room = q + 1 := by
        intro hle
        by_cases hA : q + 1 ≤ A
        · have h3 := hAq hA
          rw [hlp]
          split
          · show ConnLoad.top (rooms s.log) (max s.anchor (q + 1)) e.room = q + 1
            have h4 := htop.1 (q + 1) hmem (Nat.le_max_right _ _)
            rcases htop.2.1 with h5 | h5
            · omega
            · have h6 := h.hi
              have h7 := h.known e.room _ h5 (by omega)
              omega
          · exact h3
        · have h3 := h1.lpA e.room
          have h4 := h1.hi
          omega
      split
      · -- of interest
        unfold appendLive
        dsimp only
        by_cases hle : q + 1 ≤ s1.1.lp e.room
        · rw [if_pos hle]
          have hset : ConnLoad.set s1.1.lp e.room (q + 1) = s1.1.lp := by
            funext r
            unfold ConnLoad.set
            split
            · rename_i hr; subst hr; exact (hlpn hle).symm
            · rfl
          rw [hset]
          exact settle he1 h1 (Or.inl hle)
        · rw [if_neg hle]
          have hmem1 := evs_log_mem he1
          refine ⟨h1.lo, h1.hi, h1.passed, fun r => ?_, fun r n hn hA => ?_, fun r v hv => ?_⟩
          · show ConnLoad.set s1.1.lp e.room (q + 1) r ≤ s1.1.anchor
            unfold ConnLoad.set
            split
            · rw [hk.2.2]; exact Nat.le_max_right _ _
            · exact h1.lpA r
          · have h2 := h1.known r n hn hA
            show n ≤ ConnLoad.set s1.1.lp e.room (q + 1) r
            unfold ConnLoad.set
            split
            · rename_i hr; subst hr; omega
            · exact h2
          · show Whole P s1.1.log r (ConnLoad.set s1.1.lp e.room (q + 1) r) v ∧
              ∀ n ∈ ConnLoad.evs (rooms s1.1.log) r, ConnLoad.set s1.1.lp e.room (q + 1) r < n → n ≤ q + 1 → Out P s1.1.log n
            by_cases hr : r = e.room
            · subst hr
              have hlp' : ConnLoad.set s1.1.lp e.room (q + 1) e.room = q + 1 := by simp [ConnLoad.set]
              rw [hlp']
              refine ⟨?_, fun n _ h3 h4 => absurd h4 (by omega)⟩
              have hv : some (((s1.1.view e.room).getD (q + 1, [])).1, ((s1.1.view e.room).getD (q + 1, [])).2 ++ [q + 1]) = some v := by
                have : ConnLoad.set s1.1.view e.room (some (((s1.1.view e.room).getD (q + 1, [])).1,
                  ((s1.1.view e.room).getD (q + 1, [])).2 ++ [q + 1])) e.room = some v := hv
                simpa [ConnLoad.set] using this
              cases hw : s1.1.view e.room with
              | none =>
                rw [hw] at hv
                cases hv
                refine ⟨Nat.le_refl _, by simp, ?_, ?_⟩
                · intro n hn
                  have hn : n = q + 1 := by simpa using hn
                  subst hn
                  exact ⟨hmem1, Nat.le_refl _, Nat.le_refl _⟩
                · intro n _ h3 h4
                  have h3 : q + 1 ≤ n := h3
                  have : n = q + 1 := by omega
                  subst this
                  exact Or.inl (by simp)
              | some w =>
                rw [hw] at hv
                cases hv
                obtain ⟨hW, hO⟩ := h1.view e.room w hw
                refine ⟨?_, ?_, ?_, ?_⟩
                · have := hW.first
                  show w.1 ≤ q + 1
                  omega
                · show (w.2 ++ [q + 1]).Pairwise (· < ·)
                  rw [List.pairwise_append]
                  refine ⟨hW.sorted, by simp, ?_⟩
                  intro a ha b hb
                  have hb : b = q + 1 := by simpa using hb
                  have := (hW.mem a ha).2.2
                  omega
                · intro n hn
                  rcases List.mem_append.1 (show n ∈ w.2 ++ [q + 1] from hn) with hn | hn
                  · have := hW.mem n hn
                    exact ⟨this.1, this.2.1, by omega⟩
                  · have hn : n = q + 1 := by simpa using hn
                    subst hn
                    have := hW.first
                    exact ⟨hmem1, by show w.1 ≤ q + 1; omega, Nat.le_refl _⟩
                · intro n hn h3 h4
                  show n ∈ w.2 ++ [q + 1] ∨ _
                  by_cases h5 : n = q + 1
                  · exact Or.inl (by simp [h5])
                  · by_cases h6 : n ≤ s1.1.lp e.room
                    · exact (hW.all n hn h3 h6).imp_left fun h => List.mem_append_left _ h
                    · exact Or.inr (hO n hn (by omega) (by omega))
            · have hlp' : ConnLoad.set s1.1.lp e.room (q + 1) r = s1.1.lp r := by simp [ConnLoad.set, hr]
              rw [hlp']
              have hv : s1.1.view r = some v := by
                have : ConnLoad.set s1.1.view e.room (some (((s1.1.view e.room).getD (q + 1, [])).1,
                  ((s1.1.view e.room).getD (q + 1, [])).2 ++ [q + 1])) r = some v := hv
                simpa [ConnLoad.set, hr] using this
              refine ⟨(h1.view r v hv).1, fun n hn h3 h4 => ?_⟩
              by_cases h5 : n ≤ q
              · exact (h1.view r v hv).2 n hn h3 h5
              · have : n = q + 1 := by omega
                subst this
                exact absurd (same_room he1 hn) hr
      · split
        · rename_i hany
          rw [if_pos hany] at hlp
          refine settle he1 h1 (Or.inl ?_)
          rw [hlp]
          exact htop.1 (q + 1) hmem (Nat.le_max_right _ _)
        · refine settle he1 ⟨h1.lo, h1.hi, h1.passed, h1.lpA, h1.known, fun r v hv => ?_⟩ (Or.inr (Or.inr ?_))
          · have hv : ConnLoad.set s1.1.view e.room none r = some v := hv
            unfold ConnLoad.set at hv
            split at hv
            · cases hv
            · exact h1.view r v hv
          · show ConnLoad.set s1.1.view e.room none e.room = none
            simp [ConnLoad.set]

theorem Out.more {P : String → Prop} {log : List Ev} {n : Nat} (h : Out P log n) (l : List Ev) : Out P (log ++ l) n := by
  obtain ⟨e, he, h⟩ := h
  refine ⟨e, ?_, h⟩
  rw [List.getElem?_append_left (by
    rcases Nat.lt_or_ge (n - 1) log.length with h' | h'
    · exact h'
    · rw [List.getElem?_eq_none h'] at he; cases he)]
  exact he

theorem append_inv {P : String → Prop} {A q : Nat} {s : State} (e : Ev) (hA : A ≤ s.log.length) (hq : q ≤ s.log.length)
    (h : Inv P A q q s) : Inv P A q q { s with log := s.log ++ [e] } := by
  have hlen : (rooms s.log).length = s.log.length := by unfold rooms; simp
  have old : ∀ r n, n ∈ ConnLoad.evs (rooms (s.log ++ [e])) r → n ≤ s.log.length → n ∈ ConnLoad.evs (rooms s.log) r := by
    intro r n hn hle
    have : rooms (s.log ++ [e]) = rooms s.log ++ [e.room] := by unfold rooms; simp
    rw [this, ConnLoad.evs_append] at hn
    rcases List.mem_append.1 hn with hn | hn
    · exact hn
    · split at hn
      · have := List.mem_singleton.1 hn
        omega
      · cases hn
  have new : ∀ r n, n ∈ ConnLoad.evs (rooms s.log) r → n ∈ ConnLoad.evs (rooms (s.log ++ [e])) r := by
    intro r n hn
    have : rooms (s.log ++ [e]) = rooms s.log ++ [e.room] := by unfold rooms; simp
    rw [this, ConnLoad.evs_append]
    exact List.mem_append_left _ hn
  have hanc : s.anchor ≤ s.log.length := by have := h.hi; omega
  refine ⟨h.lo, h.hi, fun r n hn hle => ?_, h.lpA, fun r n hn hle => h.known r n (old r n hn (by omega)) hle, fun r v hv => ?_⟩
  · exact (h.passed r n (old r n hn (by omega)) hle).imp_right fun h => h.more _
  · obtain ⟨hW, hO⟩ := h.view r v hv
    refine ⟨⟨hW.first, hW.sorted, fun n hn => ⟨new r n (hW.mem n hn).1, (hW.mem n hn).2⟩, fun n hn h1 h2 => ?_⟩,
      fun n hn h1 h2 => (hO n (old r n hn (by omega)) h1 h2).more _⟩
    have := h.lpA r
    have h2' : n ≤ s.lp r := h2
    exact (hW.all n (old r n hn (by omega)) h1 h2).imp_right fun h => h.more _

theorem run_inv {P : String → Prop} {A q : Nat} {s : State} (ops : List Op) (hA : A ≤ s.log.length) (hq : q ≤ s.log.length)
    (hp : PosLimits ops) (ho : InOrder s.log.length q ops) (hP : ∀ o1 o2, ops = o1 ++ o2 → ∀ u, shouldIgnore (run s o1) u = true → P u)
    (h : Inv P A q q s) : Inv P A (q + taken ops) (q + taken ops) (run s ops) := by
  induction ops generalizing s q with
  | nil => exact h
  | cons o ops ih =>
    have hp' : PosLimits ops := fun o ho => hp o (List.mem_cons_of_mem _ ho)
    have hP0 : ∀ u, shouldIgnore s u = true → P u := hP [] (o :: ops) rfl
    have hP' : ∀ o1 o2, ops = o1 ++ o2 → ∀ u, shouldIgnore (run (step s o).1 o1) u = true → P u :=
      fun o1 o2 e u hu => hP (o :: o1) o2 (by rw [e]; rfl) u hu
    cases o with
    | append e =>
      have := ih (s := (step s (.append e)).1) (q := q) (by show A ≤ (s.log ++ [e]).length; simp; omega)
        (by show q ≤ (s.log ++ [e]).length; simp; omega) hp' (by show InOrder (s.log ++ [e]).length q ops; simpa [InOrder] using ho) hP'
        (append_inv e hA hq h)
      simpa [taken, run] using this
    | user u =>
      have := ih (s := (step s (.user u)).1) (q := q) hA hq hp' ho hP' ⟨h.lo, h.hi, h.passed, h.lpA, h.known, h.view⟩
      simpa [taken, run] using this
    | request xs =>
      have hl : (step s (.request xs)).1.log = s.log := (loads_keeps s xs).1
      have := ih (s := (step s (.request xs)).1) (q := q) (by rw [hl]; exact hA) (by rw [hl]; exact hq) hp' (by rw [hl]; exact ho) hP'
        (loads_inv xs (hp _ (by simp) 0 true xs (Or.inl rfl)) (Nat.le_refl _) hP0 h)
      simpa [taken, run] using this
    | deliver i vis xs =>
      obtain ⟨rfl, hlt, ho⟩ := ho
      have he := List.getElem?_eq_getElem hlt
      have hst : step s (.deliver i vis xs) = deliver s s.log[i] (i + 1) vis xs := by
        unfold step; simp only [he]
      have hl : (step s (.deliver i vis xs)).1.log = s.log := by rw [hst]; exact (deliver_keeps s _ (i + 1) vis xs).1
      have := ih (s := (step s (.deliver i vis xs)).1) (q := i + 1) (by rw [hl]; exact hA) (by rw [hl]; exact hlt) hp'
        (by rw [hl]; exact ho) hP' (by rw [hst]; exact deliver_inv he vis xs (hp _ (by simp) i vis xs (Or.inr rfl)) hP0 h)
      have ht : taken (.deliver i vis xs :: ops) = taken ops + 1 := by unfold taken; simp
      rw [ht]
      have e : i + (taken ops + 1) = i + 1 + taken ops := by omega
      rw [e]
      exact this

/-- **C122.** Only messages of ignored users are left out.  Whatever the client has of a room starts at an event, is in order and has
every event of the room from there up to the last that was taken from the queue, but for messages by users who were in the last list
of ignored users at some time since the connection was made – in every execution with timeline limits of at least one in which events
are taken in the order of their positions (C24 is about the others). -/
theorem C122_only_partial (log : List Ev) (us : List UserFlags.Op) (ops : List Op) (hwf : WellFormed (us ++ usersOf ops)) (q : Nat)
    (hq : q ≤ log.length) (hp : PosLimits ops) (ho : InOrder log.length q ops) (r start : Nat) (l : List Nat)
    (hv : (run (connect log (UserFlags.run us)) ops).view r = some (start, l)) :
    l.Pairwise (· < ·) ∧ (∀ n ∈ l, start ≤ n ∧ 1 ≤ n ∧ ∃ e, (log ++ eventsOf ops)[n - 1]? = some e ∧ e.room = r) ∧
      ∀ i e, (log ++ eventsOf ops)[i]? = some e → e.room = r → start ≤ i + 1 → i < q + taken ops → i + 1 ∈ l ∨
        (e.isState = false ∧ ∃ o1 o2, ops = o1 ++ o2 ∧ e.sender ∈ ignored (us ++ usersOf o1)) := by
  have hP : ∀ o1 o2, ops = o1 ++ o2 → ∀ u, shouldIgnore (run (connect log (UserFlags.run us)) o1) u = true →
      ∃ o1 o2, ops = o1 ++ o2 ∧ u ∈ ignored (us ++ usersOf o1) := by
    intro o1 o2 e u hu
    refine ⟨o1, o2, e, (ignores log us o1 ?_ u).1 hu⟩
    intro x hx
    refine hwf x ?_
    rw [e]
    unfold usersOf at hx ⊢
    rw [List.filterMap_append]
    rcases List.mem_append.1 hx with hx | hx
    · exact List.mem_append_left _ hx
    · exact List.mem_append_right _ (List.mem_append_left _ hx)
  have h := run_inv (P := fun u => ∃ o1 o2, ops = o1 ++ o2 ∧ u ∈ ignored (us ++ usersOf o1)) (s := connect log (UserFlags.run us))
    ops (Nat.le_refl _) hq hp ho hP (inv_connect _ log _ q hq)
  have hlog : (run (connect log (UserFlags.run us)) ops).log = log ++ eventsOf ops := (run_keeps _ ops).1
  obtain ⟨hW, hO⟩ := h.view r (start, l) hv
  rw [hlog] at hW hO
  refine ⟨hW.sorted, fun n hn => ⟨(hW.mem n hn).2.1, (mem_evs_log (hW.mem n hn).1).1, (mem_evs_log (hW.mem n hn).1).2⟩, ?_⟩
  intro i e he hr hs hi
  subst hr
  have hm := evs_log_mem he
  have key : i + 1 ∈ l ∨ Out (fun u => ∃ o1 o2, ops = o1 ++ o2 ∧ u ∈ ignored (us ++ usersOf o1)) (log ++ eventsOf ops) (i + 1) := by
    by_cases hle : i + 1 ≤ (run (connect log (UserFlags.run us)) ops).lp e.room
    · exact hW.all (i + 1) hm hs hle
    · exact Or.inr (hO (i + 1) hm (by omega) (by omega))
  refine key.imp_right fun hout => ?_
  obtain ⟨e', he', hst, hu⟩ := hout
  rw [Nat.add_sub_cancel, he] at he'
  cases he'
  exact ⟨hst, hu⟩

/-! ## The hypotheses are met -/

/-- One stored event; the room is loaded; `@x` is ignored; a message and a topic by `@x` and a message by `@y` come and are taken;
`@x` is ignored no more, and the room is loaded again. -/
def sampleOps : List Op :=
  [.request [(1, 2)], .user (.data "" "m.ignored_user_list" { ignored := some ["@x"] }), .append ⟨1, "@x", false⟩, .append ⟨1, "@x", true⟩,
    .append ⟨1, "@y", false⟩, .deliver 1 true [], .deliver 2 true [], .deliver 3 true [],
    .user (.data "" "m.ignored_user_list" { ignored := some [] })]

example : let log : List Ev := [⟨1, "@x", false⟩]
    WellFormed ([] ++ usersOf sampleOps) ∧ PosLimits sampleOps ∧ InOrder log.length 1 sampleOps ∧
    (run (connect log (UserFlags.run [])) sampleOps).view 1 = some (1, [1, 3, 4]) ∧
    (step (run (connect log (UserFlags.run [])) sampleOps) (.request [(1, 3)])).2 = [⟨1, some 2, [2, 3, 4]⟩] ∧
    (step (run (connect log (UserFlags.run [])) (sampleOps.take 8)) (.request [(1, 3)])).2 = [⟨1, some 2, [3, 4]⟩] := by
  refine ⟨?_, ?_, by simp [InOrder, sampleOps], by decide +kernel, by decide +kernel, by decide +kernel⟩
  · intro x hx
    simp [usersOf, sampleOps] at hx
    rcases hx with rfl | rfl <;> rfl
  · intro o ho i vis xs h x hx
    simp only [sampleOps, List.mem_cons, List.not_mem_nil, or_false] at ho
    rcases ho with rfl | rfl | rfl | rfl | rfl | rfl | rfl | rfl | rfl <;> rcases h with h | h <;> cases h <;>
      simp only [List.mem_cons, List.not_mem_nil, or_false] at hx <;> subst hx <;> decide

end Verif.Ignoring
