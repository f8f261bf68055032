import Verif.Tracker
/-! # C20, C21: the joined rooms tracker -/
namespace Verif.Tracker

/-! ## Specification: last writer wins, per user and room -/

/-- What an operation says about whether `u` is joined to `r`. -/
def saysJoined (u r : String) : Op → Option Bool
  | .join us r' => if r' = r ∧ u ∈ us then some true else none
  | .leave u' r' => if r' = r ∧ u' = u then some false else none
  | .invite _ _ => none
  | .reload r' j _ => if r' = r then some (decide (u ∈ j)) else none

/-- What an operation says about whether `u` is invited to `r`. -/
def saysInvited (u r : String) : Op → Option Bool
  | .join us r' => if r' = r ∧ u ∈ us then some false else none
  | .leave u' r' => if r' = r ∧ u' = u then some false else none
  | .invite us r' => if r' = r ∧ u ∈ us then some true else none
  | .reload r' _ i => if r' = r then some (decide (u ∈ i)) else none

/-- The verdict of the last operation that says anything, else the initial value. -/
def lastSays (says : Op → Option Bool) (init : Bool) (ops : List Op) : Bool :=
  ((ops.filterMap says).getLast?).getD init

/-- Listed at startup. -/
def listed (m : List (String × List String)) (u r : String) : Prop := ∃ us, (r, us) ∈ m ∧ u ∈ us

instance (m : List (String × List String)) (u r : String) : Decidable (listed m u r) :=
  decidable_of_iff (∃ p ∈ m, p.1 = r ∧ u ∈ p.2) (by
    unfold listed
    constructor
    · rintro ⟨⟨r', us⟩, h, rfl, hu⟩; exact ⟨us, h, hu⟩
    · rintro ⟨us, h, hu⟩; exact ⟨(r, us), h, rfl, hu⟩)

/-! ## Lemmas about sets -/

theorem mem_sadd {s : SSet} {x y : String} : y ∈ sadd s x ↔ y ∈ s ∨ y = x := by
  unfold sadd
  split
  · constructor
    · exact Or.inl
    · rintro (h | rfl)
      · exact h
      · assumption
  · simp

theorem mem_sdel {s : SSet} {x y : String} : y ∈ sdel s x ↔ y ∈ s ∧ y ≠ x := by
  simp [sdel]

theorem nodup_sadd {s : SSet} {x : String} (h : s.Nodup) : (sadd s x).Nodup := by
  unfold sadd
  split
  · exact h
  · rename_i hx
    rw [List.nodup_append]
    refine ⟨h, by simp, ?_⟩
    intro a ha b hb hab
    simp only [List.mem_singleton] at hb
    subst hb; subst hab; exact hx ha

theorem nodup_sdel {s : SSet} {x : String} (h : s.Nodup) : (sdel s x).Nodup := h.filter _

theorem mem_foldl_sadd (us : List String) (s : SSet) (y : String) : y ∈ us.foldl sadd s ↔ y ∈ s ∨ y ∈ us := by
  induction us generalizing s with
  | nil => simp
  | cons u us ih => rw [List.foldl_cons, ih, mem_sadd, List.mem_cons, or_assoc]

theorem nodup_foldl_sadd (us : List String) {s : SSet} (h : s.Nodup) : (us.foldl sadd s).Nodup := by
  induction us generalizing s with
  | nil => exact h
  | cons u us ih => exact ih (nodup_sadd h)

theorem mem_foldl_upd_add (us : List String) (room : String) (jr : SMap) (x r : String) :
    r ∈ us.foldl (fun jr u => upd jr u (sadd (jr u) room)) jr x ↔ r ∈ jr x ∨ (r = room ∧ x ∈ us) := by
  induction us generalizing jr with
  | nil => simp
  | cons u us ih =>
    rw [List.foldl_cons, ih]
    unfold upd
    split
    · rename_i h; subst h
      rw [mem_sadd]; simp only [List.mem_cons, true_or, and_true]
      constructor
      · rintro ((h | h) | ⟨h, _⟩)
        · exact Or.inl h
        · exact Or.inr h
        · exact Or.inr h
      · rintro (h | h)
        · exact Or.inl (Or.inl h)
        · exact Or.inl (Or.inr h)
    · rename_i h
      simp [List.mem_cons, h]

theorem nodup_foldl_upd_add (us : List String) (room : String) (jr : SMap) (h : ∀ x, (jr x).Nodup) (x : String) :
    (us.foldl (fun jr u => upd jr u (sadd (jr u) room)) jr x).Nodup := by
  induction us generalizing jr with
  | nil => exact h x
  | cons u us ih =>
    rw [List.foldl_cons]
    apply ih
    intro y
    unfold upd
    split
    · exact nodup_sadd (h _)
    · exact h y

theorem mem_foldl_upd_del (us : List String) (keep : SSet) (room : String) (jr : SMap) (x r : String) :
    r ∈ us.foldl (fun jr u => if u ∈ keep then jr else upd jr u (sdel (jr u) room)) jr x ↔
      r ∈ jr x ∧ ¬ (r = room ∧ x ∈ us ∧ x ∉ keep) := by
  induction us generalizing jr with
  | nil => simp
  | cons u us ih =>
    rw [List.foldl_cons, ih]
    by_cases hk : u ∈ keep
    · rw [if_pos hk]
      constructor
      · rintro ⟨h1, h2⟩
        refine ⟨h1, ?_⟩
        rintro ⟨h3, h4, h5⟩
        rcases List.mem_cons.1 h4 with rfl | h4
        · exact h5 hk
        · exact h2 ⟨h3, h4, h5⟩
      · rintro ⟨h1, h2⟩
        exact ⟨h1, fun ⟨h3, h4, h5⟩ => h2 ⟨h3, List.mem_cons_of_mem _ h4, h5⟩⟩
    · rw [if_neg hk]
      unfold upd
      split
      · rename_i h; subst h
        rw [mem_sdel]
        constructor
        · rintro ⟨⟨h1, h2⟩, _⟩
          exact ⟨h1, fun h => h2 h.1⟩
        · rintro ⟨h1, h2⟩
          have : r ≠ room := fun h => h2 ⟨h, by simp, hk⟩
          exact ⟨⟨h1, this⟩, fun h => this h.1⟩
      · rename_i h
        simp [List.mem_cons, h]

/-! ## Effect of each operation -/

theorem join_fields (us : List String) (room : String) (t : State) :
    let t' := (usersJoinedRoom t us room).1
    (∀ x r, x ∈ t'.joinedUsers r ↔ x ∈ t.joinedUsers r ∨ (r = room ∧ x ∈ us)) ∧
    (∀ x r, r ∈ t'.joinedRooms x ↔ r ∈ t.joinedRooms x ∨ (r = room ∧ x ∈ us)) ∧
    (∀ x r, x ∈ t'.invited r ↔ x ∈ t.invited r ∧ ¬ (r = room ∧ x ∈ us)) := by
  simp only [usersJoinedRoom]
  induction us generalizing t with
  | nil => simp
  | cons u us ih =>
    rw [List.foldl_cons]
    obtain ⟨h1, h2, h3⟩ := ih { invited := upd t.invited room (sdel (t.invited room) u)
                                joinedRooms := upd t.joinedRooms u (sadd (t.joinedRooms u) room)
                                joinedUsers := upd t.joinedUsers room (sadd (t.joinedUsers room) u) }
    refine ⟨?_, ?_, ?_⟩
    · intro x r
      rw [h1]
      simp only [upd]
      split
      · rename_i h; subst h; rw [mem_sadd]; simp [or_assoc]
      · rename_i h; simp [h]
    · intro x r
      rw [h2]
      simp only [upd]
      split
      · rename_i h; subst h; rw [mem_sadd]; simp only [List.mem_cons, true_or, and_true]
        grind
      · rename_i h; simp [h]
    · intro x r
      rw [h3]
      simp only [upd]
      split
      · rename_i h; subst h; rw [mem_sdel]; simp only [List.mem_cons, true_and, not_or, and_assoc]
      · rename_i h; simp [h]

/-- Both indexes are duplicate free and inverse to each other. -/
structure Inv (t : State) : Prop where
  agree : ∀ x r, x ∈ t.joinedUsers r ↔ r ∈ t.joinedRooms x
  nodupU : ∀ r, (t.joinedUsers r).Nodup
  nodupR : ∀ x, (t.joinedRooms x).Nodup
  nodupI : ∀ r, (t.invited r).Nodup

theorem join_nodup (us : List String) (room : String) (t : State)
    (hu : ∀ r, (t.joinedUsers r).Nodup) (hr : ∀ x, (t.joinedRooms x).Nodup) (hi : ∀ r, (t.invited r).Nodup) :
    let t' := (usersJoinedRoom t us room).1
    (∀ r, (t'.joinedUsers r).Nodup) ∧ (∀ x, (t'.joinedRooms x).Nodup) ∧ (∀ r, (t'.invited r).Nodup) := by
  simp only [usersJoinedRoom]
  induction us generalizing t with
  | nil => exact ⟨hu, hr, hi⟩
  | cons u us ih =>
    rw [List.foldl_cons]
    apply ih
    · intro r; simp only [upd]; split
      · exact nodup_sadd (hu _)
      · exact hu r
    · intro r; simp only [upd]; split
      · exact nodup_sadd (hr _)
      · exact hr r
    · intro r; simp only [upd]; split
      · exact nodup_sdel (hi _)
      · exact hi r

theorem leave_fields (u room : String) (t : State) :
    let t' := (userLeftRoom t u room).1
    (∀ x r, x ∈ t'.joinedUsers r ↔ x ∈ t.joinedUsers r ∧ ¬ (r = room ∧ x = u)) ∧
    (∀ x r, r ∈ t'.joinedRooms x ↔ r ∈ t.joinedRooms x ∧ ¬ (r = room ∧ x = u)) ∧
    (∀ x r, x ∈ t'.invited r ↔ x ∈ t.invited r ∧ ¬ (r = room ∧ x = u)) := by
  simp only [userLeftRoom, upd]
  refine ⟨?_, ?_, ?_⟩ <;> intro x r <;> split <;> rename_i h
  · subst h; rw [mem_sdel]; simp
  · simp [h]
  · subst h; rw [mem_sdel]; simp
  · simp [h]
  · subst h; rw [mem_sdel]; simp
  · simp [h]

theorem startup_fields (m : List (String × List String)) (hm : (m.map (·.1)).Nodup) :
    (∀ x r, x ∈ (startup m).joinedUsers r ↔ listed m x r) ∧
    (∀ x r, r ∈ (startup m).joinedRooms x ↔ listed m x r) ∧
    (∀ r, (startup m).invited r = []) ∧
    (∀ r, ((startup m).joinedUsers r).Nodup) ∧ (∀ x, ((startup m).joinedRooms x).Nodup) := by
  unfold startup
  suffices H : ∀ (t : State), (∀ r, (t.joinedUsers r).Nodup) → (∀ x, (t.joinedRooms x).Nodup) →
      (∀ p ∈ m, t.joinedUsers p.1 = []) →
      let t' := m.foldl (fun t (x : String × List String) =>
        { t with
          joinedRooms := x.2.foldl (fun jr u => upd jr u (sadd (jr u) x.1)) t.joinedRooms
          joinedUsers := upd t.joinedUsers x.1 (x.2.foldl sadd []) }) t
      (∀ x r, x ∈ t'.joinedUsers r ↔ x ∈ t.joinedUsers r ∨ listed m x r) ∧
      (∀ x r, r ∈ t'.joinedRooms x ↔ r ∈ t.joinedRooms x ∨ listed m x r) ∧
      (t'.invited = t.invited) ∧ (∀ r, (t'.joinedUsers r).Nodup) ∧ (∀ x, (t'.joinedRooms x).Nodup) by
    obtain ⟨h1, h2, h3, h4, h5⟩ := H empty (by simp [empty]) (by simp [empty]) (by simp [empty])
    refine ⟨?_, ?_, ?_, h4, h5⟩
    · intro x r; rw [h1]; simp [empty]
    · intro x r; rw [h2]; simp [empty]
    · intro r; rw [h3]; simp [empty]
  induction m with
  | nil => intro t h1 h2 _; simp [listed, h1, h2]
  | cons p m ih =>
    intro t hu hr hd
    simp only [List.map_cons, List.nodup_cons] at hm
    rw [List.foldl_cons]
    have hpm : ∀ q ∈ m, q.1 ≠ p.1 := fun q hq he => hm.1 (List.mem_map.2 ⟨q, hq, he⟩)
    obtain ⟨h1, h2, h3, h4, h5⟩ := ih hm.2
      { t with
          joinedRooms := p.2.foldl (fun jr u => upd jr u (sadd (jr u) p.1)) t.joinedRooms
          joinedUsers := upd t.joinedUsers p.1 (p.2.foldl sadd []) }
      (by
        intro r; simp only [upd]; split
        · exact nodup_foldl_sadd _ (by simp)
        · exact hu r)
      (by intro x; exact nodup_foldl_upd_add _ _ _ hr x)
      (by
        intro q hq
        simp only [upd]
        rw [if_neg (hpm q hq)]
        exact hd q (by simp [hq]))
    have hlist : ∀ x r, listed (p :: m) x r ↔ (r = p.1 ∧ x ∈ p.2) ∨ listed m x r := by
      intro x r
      unfold listed
      constructor
      · rintro ⟨us, h, hx⟩
        rcases List.mem_cons.1 h with h | h
        · left; rw [← h]; exact ⟨rfl, hx⟩
        · exact Or.inr ⟨us, h, hx⟩
      · rintro (⟨rfl, hx⟩ | ⟨us, h, hx⟩)
        · exact ⟨p.2, by simp, hx⟩
        · exact ⟨us, by simp [h], hx⟩
    refine ⟨?_, ?_, h3, h4, h5⟩
    · intro x r
      rw [h1, hlist]
      simp only [upd]
      split
      · rename_i h; subst h
        rw [mem_foldl_sadd, hd p (by simp)]
        simp
      · rename_i h; simp [h]
    · intro x r
      rw [h2, hlist, mem_foldl_upd_add, or_assoc]

theorem inv_startup (m : List (String × List String)) (hm : (m.map (·.1)).Nodup) : Inv (startup m) := by
  obtain ⟨h1, h2, h3, h4, h5⟩ := startup_fields m hm
  exact ⟨fun x r => by rw [h1, h2], h4, h5, fun r => by rw [h3]; simp⟩

theorem inv_step {t : State} (h : Inv t) (o : Op) : Inv (step t o) := by
  cases o with
  | join us r =>
    obtain ⟨h1, h2, h3⟩ := join_fields us r t
    obtain ⟨h4, h5, h6⟩ := join_nodup us r t h.nodupU h.nodupR h.nodupI
    exact ⟨fun x r' => by simp only [step]; rw [h1, h2, h.agree], h4, h5, h6⟩
  | leave u r =>
    obtain ⟨h1, h2, h3⟩ := leave_fields u r t
    refine ⟨fun x r' => by simp only [step]; rw [h1, h2, h.agree], ?_, ?_, ?_⟩ <;> intro y <;>
      simp only [step, userLeftRoom, upd] <;> split
    · exact nodup_sdel (h.nodupU _)
    · exact h.nodupU y
    · exact nodup_sdel (h.nodupR _)
    · exact h.nodupR y
    · exact nodup_sdel (h.nodupI _)
    · exact h.nodupI y
  | invite us r =>
    refine ⟨h.agree, h.nodupU, h.nodupR, ?_⟩
    intro y
    simp only [step, usersInvitedToRoom, upd]
    split
    · exact nodup_foldl_sadd _ (h.nodupI _)
    · exact h.nodupI y
  | reload room j i =>
    refine ⟨?_, ?_, ?_, ?_⟩
    · intro x r
      simp only [step, reload]
      rw [mem_foldl_upd_del, mem_foldl_upd_add]
      simp only [upd, mem_foldl_sadd, List.not_mem_nil, false_or]
      have ha := h.agree x r
      split
      · rename_i hr
        subst hr
        rw [mem_foldl_sadd]
        simp only [List.not_mem_nil, false_or, true_and]
        constructor
        · intro hx; exact ⟨Or.inr hx, fun hh => hh.2 hx⟩
        · rintro ⟨h1 | h1, h2⟩
          · by_cases hx : x ∈ j
            · exact hx
            · exact absurd ⟨ha.2 h1, hx⟩ h2
          · exact h1
      · rename_i hr
        simp [hr, ha]
    · intro y
      simp only [step, reload, upd]; split
      · exact nodup_foldl_sadd _ (by simp)
      · exact h.nodupU y
    · intro y
      simp only [step, reload]
      have hn := nodup_foldl_upd_add (j.foldl sadd []) room t.joinedRooms h.nodupR
      generalize hjr : (j.foldl sadd []).foldl (fun jr u => upd jr u (sadd (jr u) room)) t.joinedRooms = jr at hn
      generalize t.joinedUsers room = old
      clear hjr
      induction old generalizing jr with
      | nil => exact hn y
      | cons u us ih =>
        rw [List.foldl_cons]
        apply ih
        intro z
        split
        · exact hn z
        · simp only [upd]; split
          · exact nodup_sdel (hn _)
          · exact hn z
    · intro y
      simp only [step, reload, upd]; split
      · exact nodup_foldl_sadd _ (by simp)
      · exact h.nodupI y

theorem inv_run (m : List (String × List String)) (hm : (m.map (·.1)).Nodup) (ops : List Op) : Inv (run m ops) := by
  unfold run
  suffices ∀ t, Inv t → Inv (ops.foldl step t) from this _ (inv_startup m hm)
  induction ops with
  | nil => intro t h; exact h
  | cons o ops ih => intro t h; exact ih _ (inv_step h o)

/-- C20. The two indexes are inverse to each other after any history. -/
theorem C20_indexes_agree (m : List (String × List String)) (hm : (m.map (·.1)).Nodup) (ops : List Op)
    (user room : String) :
    room ∈ joinedRoomsForUser (run m ops) user ↔
      user ∈ (joinedUsersForRoom (run m ops) room (fun _ => true)).1 := by
  have e : (run m ops).joinedUsers room = ((run m ops).joinedUsers room).filter (fun _ => true) :=
    (List.filter_eq_self.2 (by simp)).symm
  simp only [joinedRoomsForUser, joinedUsersForRoom, ← e]
  exact ((inv_run m hm ops).agree user room).symm

example : joinedRoomsForUser (run [("!r", ["@a"])] [.join ["@b", "@a"] "!s", .reload "!r" ["@b"] []]) "@a" = ["!s"] := by
  decide +kernel

theorem says_step (t : State) (o : Op) (x r : String) :
    (x ∈ (step t o).joinedUsers r ↔ (saysJoined x r o).getD (decide (x ∈ t.joinedUsers r)) = true) ∧
    (x ∈ (step t o).invited r ↔ (saysInvited x r o).getD (decide (x ∈ t.invited r)) = true) := by
  cases o with
  | join us room =>
    obtain ⟨h1, h2, h3⟩ := join_fields us room t
    simp only [step, saysJoined, saysInvited]
    rw [h1, h3]
    by_cases hc : room = r ∧ x ∈ us
    · rw [if_pos hc, if_pos hc]
      obtain ⟨rfl, hx⟩ := hc
      simp [hx]
    · rw [if_neg hc, if_neg hc]
      have : ¬ (r = room ∧ x ∈ us) := fun h => hc ⟨h.1.symm, h.2⟩
      simp [this]
  | leave u room =>
    obtain ⟨h1, h2, h3⟩ := leave_fields u room t
    simp only [step, saysJoined, saysInvited]
    rw [h1, h3]
    by_cases hc : room = r ∧ u = x
    · rw [if_pos hc]
      obtain ⟨rfl, rfl⟩ := hc
      simp
    · rw [if_neg hc]
      have : ¬ (r = room ∧ x = u) := fun h => hc ⟨h.1.symm, h.2.symm⟩
      simp [this]
  | invite us room =>
    simp only [step, saysJoined, saysInvited, usersInvitedToRoom, upd]
    by_cases hr : room = r
    · subst hr
      simp only [if_true, true_and, mem_foldl_sadd]
      by_cases hx : x ∈ us <;> simp [hx]
    · have : ¬ r = room := fun h => hr h.symm
      simp [this, hr]
  | reload room j i =>
    simp only [step, saysJoined, saysInvited, reload, upd]
    by_cases hr : room = r
    · subst hr
      simp [mem_foldl_sadd]
    · have : ¬ r = room := fun h => hr h.symm
      simp [this, hr]

theorem lastSays_append (says : Op → Option Bool) (b : Bool) (ops : List Op) (o : Op) :
    lastSays says b (ops ++ [o]) = (says o).getD (lastSays says b ops) := by
  unfold lastSays
  rw [List.filterMap_append]
  cases h : says o with
  | none => simp [h]
  | some v => simp [h]

theorem says_run (m : List (String × List String)) (hm : (m.map (·.1)).Nodup) (ops : List Op) (x r : String) :
    (x ∈ (run m ops).joinedUsers r ↔ lastSays (saysJoined x r) (decide (listed m x r)) ops = true) ∧
    (x ∈ (run m ops).invited r ↔ lastSays (saysInvited x r) false ops = true) := by
  have hrev : ∃ l : List Op, l.reverse = ops := ⟨ops.reverse, by simp⟩
  obtain ⟨l, rfl⟩ := hrev
  induction l with
  | nil =>
    obtain ⟨h1, _, h3, _⟩ := startup_fields m hm
    constructor
    · simp only [run, List.reverse_nil, List.foldl_nil, h1, lastSays]
      simp
    · simp only [run, List.reverse_nil, List.foldl_nil, h3, lastSays]
      simp
  | cons o l ih =>
    have e : run m (o :: l).reverse = step (run m l.reverse) o := by
      simp [run, List.foldl_append]
    rw [e, List.reverse_cons, lastSays_append, lastSays_append]
    obtain ⟨s1, s2⟩ := says_step (run m l.reverse) o x r
    rw [s1, s2]
    have a1 : decide (x ∈ (run m l.reverse).joinedUsers r) = lastSays (saysJoined x r) (decide (listed m x r)) l.reverse := by
      rw [Bool.eq_iff_iff, decide_eq_true_eq]; exact ih.1
    have a2 : decide (x ∈ (run m l.reverse).invited r) = lastSays (saysInvited x r) false l.reverse := by
      rw [Bool.eq_iff_iff, decide_eq_true_eq]; exact ih.2
    rw [a1, a2]
    exact ⟨Iff.rfl, Iff.rfl⟩

/-- C21. A user is joined exactly if the last operation concerning the user and
the room says so. -/
theorem C21_joined_last_write (m : List (String × List String)) (hm : (m.map (·.1)).Nodup) (ops : List Op)
    (user room : String) :
    isUserJoined (run m ops) user room = lastSays (saysJoined user room) (decide (listed m user room)) ops := by
  rw [Bool.eq_iff_iff]
  rw [← (says_run m hm ops user room).1]
  simp [isUserJoined]

/-- C21. The invite count is the number of distinct users whose last operation
says invited. -/
theorem C21_invited_last_write (m : List (String × List String)) (hm : (m.map (·.1)).Nodup) (ops : List Op)
    (room : String) :
    ∃ users : List String, users.Nodup ∧ numInvited (run m ops) room = users.length ∧
      ∀ u, u ∈ users ↔ lastSays (saysInvited u room) false ops = true :=
  ⟨(run m ops).invited room, (inv_run m hm ops).nodupI room, rfl, fun u => (says_run m hm ops u room).2⟩

/-- C21. The reported transitions: a join reports whether someone was not joined
before, a leave whether the user was joined or invited before; the join count is
the number of joined users. -/
theorem C21_transitions (m : List (String × List String)) (hm : (m.map (·.1)).Nodup) (ops : List Op)
    (users : List String) (user room : String) :
    ((usersJoinedRoom (run m ops) users room).2 = true ↔
      ∃ u ∈ users, lastSays (saysJoined u room) (decide (listed m u room)) ops = false) ∧
    ((userLeftRoom (run m ops) user room).2 = true ↔
      lastSays (saysJoined user room) (decide (listed m user room)) ops = true ∨
      lastSays (saysInvited user room) false ops = true) ∧
    (∃ us : List String, us.Nodup ∧ (joinedUsersForRoom (run m ops) room (fun _ => true)).2 = us.length ∧
      ∀ u, u ∈ us ↔ lastSays (saysJoined u room) (decide (listed m u room)) ops = true) := by
  refine ⟨?_, ?_, ?_⟩
  · simp only [usersJoinedRoom, Bool.not_eq_true', List.all_eq_false, decide_eq_true_eq]
    constructor
    · rintro ⟨u, hu, hn⟩
      refine ⟨u, hu, ?_⟩
      rw [(says_run m hm ops u room).1] at hn
      simpa using hn
    · rintro ⟨u, hu, hn⟩
      refine ⟨u, hu, ?_⟩
      rw [(says_run m hm ops u room).1, hn]
      simp
  · simp only [userLeftRoom, Bool.or_eq_true, decide_eq_true_eq]
    rw [(says_run m hm ops user room).1, (says_run m hm ops user room).2]
  · exact ⟨(run m ops).joinedUsers room, (inv_run m hm ops).nodupU room, rfl, fun u => (says_run m hm ops u room).1⟩

example : isUserJoined (run [("!r", ["@a"])] [.leave "@a" "!r", .invite ["@a"] "!r", .join ["@a"] "!r"]) "@a" "!r" = true ∧
    numInvited (run [] [.invite ["@a", "@b"] "!r", .join ["@a"] "!r"]) "!r" = 1 := by decide +kernel

end Verif.Tracker
