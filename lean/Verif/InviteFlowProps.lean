import Verif.InviteFlow
import Verif.Util
/-!
# C96: invites and highlight counts shown for a room are the current ones

Specification: the membership and the highlight count of the user are those of the last items of what happened upstream. They are
said with positions, apart from the model: `Member h k m` is a member event at a position.
-/
namespace Verif.InviteFlow
open Verif.Leaving (Membership track)

/-- There is a member event at this place. -/
def Member (h : List Item) (k : Nat) (m : Membership) : Prop := h[k]? = some (.member m)

/-- No member event from one place to another. -/
def Quiet (h : List Item) (a b : Nat) : Prop := ∀ k m, a ≤ k → k < b → ¬ Member h k m

/-- The last member event before a place. -/
def Last (h : List Item) (n : Nat) (m : Membership) : Prop := ∃ k, k < n ∧ Member h k m ∧ Quiet h (k + 1) n

/-! ## Positions -/

theorem mem_members {l : List Item} {m : Membership} : m ∈ members l ↔ Item.member m ∈ l := by
  simp only [members, List.mem_filterMap]
  constructor
  · rintro ⟨a, ha, h⟩
    cases a with
    | member x => simp only [Option.some.injEq] at h; subst h; exact ha
    | count _ => simp at h
  · intro h; exact ⟨_, h, rfl⟩

theorem mem_between {h : List Item} {a b : Nat} {m : Membership} :
    m ∈ between h a b ↔ ∃ k, a ≤ k ∧ k < b ∧ Member h k m := by
  unfold between Member
  rw [mem_members, List.mem_iff_getElem?]
  constructor
  · rintro ⟨i, hi⟩
    rw [List.getElem?_drop, List.getElem?_take] at hi
    split at hi
    · exact ⟨a + i, by omega, by omega, hi⟩
    · cases hi
  · rintro ⟨k, h1, h2, h3⟩
    refine ⟨k - a, ?_⟩
    rw [List.getElem?_drop, List.getElem?_take, if_pos (by omega), show a + (k - a) = k by omega]
    exact h3

theorem between_nil {h : List Item} {a b : Nat} : between h a b = [] ↔ Quiet h a b := by
  rw [List.eq_nil_iff_forall_not_mem]
  constructor
  · intro hn k m h1 h2 h3; exact hn m (mem_between.2 ⟨k, h1, h2, h3⟩)
  · intro hq m hm
    obtain ⟨k, h1, h2, h3⟩ := mem_between.1 hm
    exact hq k m h1 h2 h3

theorem members_append (a b : List Item) : members (a ++ b) = members a ++ members b := by simp [members]

theorem Member.lt {h : List Item} {k : Nat} {m : Membership} (hm : Member h k m) : k < h.length := by
  unfold Member at hm
  obtain ⟨h1, -⟩ := List.getElem?_eq_some_iff.1 hm
  exact h1

theorem Member.inj {h : List Item} {k : Nat} {m m' : Membership} (h1 : Member h k m) (h2 : Member h k m') : m = m' := by
  unfold Member at h1 h2; rw [h1] at h2; simpa using h2

theorem between_last {h : List Item} {a b : Nat} {m : Membership} :
    (between h a b).getLast? = some m ↔ ∃ k, a ≤ k ∧ k < b ∧ Member h k m ∧ Quiet h (k + 1) b := by
  induction b with
  | zero =>
    simp [between, members]
  | succ b ih =>
    by_cases hb : b < h.length
    · have e : h.take (b + 1) = h.take b ++ [h[b]] := by rw [List.take_succ, List.getElem?_eq_getElem hb]; rfl
      by_cases hab : a ≤ b
      · have e2 : between h a (b + 1) = between h a b ++ members [h[b]] := by
          unfold between
          rw [e, List.drop_append_of_le_length (by rw [List.length_take]; omega), members_append]
        cases hx : h[b] with
        | member x =>
          have hm : Member h b x := by unfold Member; rw [List.getElem?_eq_getElem hb, hx]
          rw [e2, hx, show members [Item.member x] = [x] from rfl, List.getLast?_concat]
          constructor
          · rintro h'; cases h'
            exact ⟨b, hab, by omega, hm, fun k' m' h1 h2 => by omega⟩
          · rintro ⟨k, h1, h2, h3, h4⟩
            by_cases hk : k = b
            · subst hk; rw [hm.inj h3]
            · exact absurd hm (h4 b x (by omega) (by omega))
        | count x =>
          have hm : ∀ y, ¬ Member h b y := by
            intro y hy; unfold Member at hy; rw [List.getElem?_eq_getElem hb, hx] at hy; cases hy
          rw [e2, hx, show members [Item.count x] = [] from rfl, List.append_nil, ih]
          constructor
          · rintro ⟨k, h1, h2, h3, h4⟩
            refine ⟨k, h1, by omega, h3, fun k' m' h5 h6 => ?_⟩
            by_cases hk : k' = b
            · subst hk; exact hm _
            · exact h4 k' m' h5 (by omega)
          · rintro ⟨k, h1, h2, h3, h4⟩
            refine ⟨k, h1, ?_, h3, fun k' m' h5 h6 => h4 k' m' h5 (by omega)⟩
            rcases Nat.lt_or_ge k b with h5 | h5
            · exact h5
            · have : k = b := by omega
              subst this; exact absurd h3 (hm _)
      · have e2 : between h a (b + 1) = [] := between_nil.2 fun k m h1 h2 => by omega
        rw [e2]
        constructor
        · intro h'; cases h'
        · rintro ⟨k, h1, h2, -⟩; omega
    · have e2 : between h a (b + 1) = between h a b := by
        unfold between
        rw [List.take_of_length_le (by omega), List.take_of_length_le (by omega)]
      rw [e2, ih]
      constructor
      · rintro ⟨k, h1, h2, h3, h4⟩
        exact ⟨k, h1, by omega, h3, fun k' m' h5 h6 h7 => by have := h7.lt; exact h4 k' m' h5 (by omega) h7⟩
      · rintro ⟨k, h1, h2, h3, h4⟩
        have := h3.lt
        exact ⟨k, h1, by omega, h3, fun k' m' h5 h6 => h4 k' m' h5 (by omega)⟩

theorem memAt_eq (h : List Item) (n : Nat) : memAt h n = (between h 0 n).getLast? := by
  simp [memAt, between]

theorem memAt_some {h : List Item} {n : Nat} {m : Membership} : memAt h n = some m ↔ Last h n m := by
  rw [memAt_eq, between_last]
  unfold Last
  constructor
  · rintro ⟨k, -, h2, h3, h4⟩; exact ⟨k, h2, h3, h4⟩
  · rintro ⟨k, h2, h3, h4⟩; exact ⟨k, by omega, h2, h3, h4⟩

theorem memAt_none {h : List Item} {n : Nat} : memAt h n = none ↔ Quiet h 0 n := by
  rw [memAt_eq, List.getLast?_eq_none_iff, between_nil]

/-- The membership does not change without member events. -/
theorem memAt_quiet {h : List Item} {a b : Nat} (hab : a ≤ b) (hq : Quiet h a b) : memAt h b = memAt h a := by
  cases hb : memAt h a with
  | none =>
    rw [memAt_none] at hb ⊢
    intro k m h1 h2
    rcases Nat.lt_or_ge k a with h3 | h3
    · exact hb k m h1 h3
    · exact hq k m h3 h2
  | some m =>
    rw [memAt_some] at hb ⊢
    obtain ⟨k, h1, h2, h3⟩ := hb
    refine ⟨k, by omega, h2, fun k' m' h4 h5 => ?_⟩
    rcases Nat.lt_or_ge k' a with h6 | h6
    · exact h3 k' m' h4 h6
    · exact hq k' m' h6 h5

theorem Quiet.mono {h : List Item} {a b a' b' : Nat} (hq : Quiet h a b) (h1 : a ≤ a') (h2 : b' ≤ b) : Quiet h a' b' :=
  fun k m h3 h4 => hq k m (by omega) (by omega)

theorem member_append {h : List Item} {x : Item} {k : Nat} {m : Membership} (hk : k < h.length) :
    Member (h ++ [x]) k m ↔ Member h k m := by
  unfold Member; rw [List.getElem?_append_left hk]

theorem quiet_append {h : List Item} {x : Item} {a b : Nat} (hb : b ≤ h.length) :
    Quiet (h ++ [x]) a b ↔ Quiet h a b := by
  constructor
  · intro hq k m h1 h2 h3; exact hq k m h1 h2 ((member_append (by omega)).2 h3)
  · intro hq k m h1 h2 h3; exact hq k m h1 h2 ((member_append (by omega)).1 h3)

theorem memAt_append {h : List Item} {x : Item} {n : Nat} (hn : n ≤ h.length) : memAt (h ++ [x]) n = memAt h n := by
  unfold memAt; rw [List.take_append_of_le_length hn]

theorem between_append {h : List Item} {x : Item} {a b : Nat} (hb : b ≤ h.length) :
    between (h ++ [x]) a b = between h a b := by
  unfold between; rw [List.take_append_of_le_length hb]

theorem countAt_append {h : List Item} {x : Item} {n : Nat} (hn : n ≤ h.length) : countAt (h ++ [x]) n = countAt h n := by
  unfold countAt; rw [List.take_append_of_le_length hn]

/-! ## Executions -/

/-- How far the deliveries so far have come. -/
def reach (ops : List Op) : Nat :=
  ops.foldl (fun n o => match o with
    | .deliver _ j => max n j
    | .other j => max n j
    | _ => n) 0

/-- How far those of the user's own pollers have come. -/
def own (ops : List Op) : Nat :=
  ops.foldl (fun n o => match o with
    | .deliver _ j => max n j
    | _ => n) 0

/-- An operation that brings no membership older than one delivered before. What is delivered has happened, and a poller does not
go back. Of a delivery: no member event after its end was delivered already. If it ends with a ban, the user was not invited at its
start or during it, or it has a leave. If it is from another user: it brings no new member event older than what was delivered,
except invites. -/
def Timely (s : State) (D : Nat) : Op → Prop
  | .deliver d j =>
    s.pos d ≤ j ∧ j ≤ s.hist.length ∧ Quiet s.hist j D ∧
      (Last s.hist j .ban → Quiet s.hist (s.pos d) j ∨ (∃ k, s.pos d ≤ k ∧ k < j ∧ Member s.hist k .leave) ∨
        (¬ Last s.hist (s.pos d) .invite ∧ ∀ k, s.pos d ≤ k → k < j → ¬ Member s.hist k .invite))
  | .other j => j ≤ s.hist.length ∧ Quiet s.hist j D ∧ ∀ k m, s.top ≤ k → k < D → Member s.hist k m → m = .invite
  | _ => True

/-- Nothing comes late. -/
def AllTimely (ops : List Op) : Prop := ∀ pre o post, ops = pre ++ o :: post → Timely (run pre) (reach pre) o

/-- An invite at this place is current as far as these places have come. -/
def Current (s : State) (D i : Nat) : Prop :=
  i < D ∧ Member s.hist i .invite ∧ ∀ d k m, i ≤ k → k < s.pos d → Member s.hist k m → m = .invite

structure Inv (s : State) (D : Nat) : Prop where
  len : D ≤ s.hist.length
  pos : ∀ d, s.pos d ≤ D
  top : s.top ≤ D
  flag : s.urd.isInvite = true →
    ∃ i, Current s D i ∧ ∀ k, i ≤ k → k < s.top → ¬ Member s.hist k .join
  row : s.row = true → ∃ i, Current s D i ∧ ∀ k m, i ≤ k → k < s.top → Member s.hist k m → m = .invite
  seen : ∀ d, Quiet s.hist (s.pos d) D → memAt s.hist D = some .invite → s.urd.isInvite = true ∧ s.row = true
  one : s.urd.isInvite = true → s.urd.highlight = 1

/-! ## Parts of a step -/

theorem dispatch_frame (s : State) (m : Membership) :
    (dispatch s m).hist = s.hist ∧ (dispatch s m).pos = s.pos ∧ (dispatch s m).top = s.top ∧ (dispatch s m).row = s.row ∧
      (dispatch s m).stored = s.stored ∧ (dispatch s m).last = s.last ∧ (dispatch s m).room = s.room := by
  simp [dispatch]

theorem foldl_frame (ms : List Membership) (s : State) :
    (ms.foldl dispatch s).hist = s.hist ∧ (ms.foldl dispatch s).pos = s.pos ∧ (ms.foldl dispatch s).top = s.top ∧
      (ms.foldl dispatch s).row = s.row ∧ (ms.foldl dispatch s).stored = s.stored ∧ (ms.foldl dispatch s).last = s.last := by
  induction ms generalizing s with
  | nil => simp
  | cons m ms ih =>
    obtain ⟨a, b, c, d, e, f, -⟩ := dispatch_frame s m
    simpa [a, b, c, d, e, f] using ih (dispatch s m)

/-- What one event does to the flag and the count. -/
theorem dispatch_urd (s : State) (m : Membership) :
    ((dispatch s m).urd = s.urd ∧ (s.urd.isInvite = true → m ≠ .join)) ∨
      ((dispatch s m).urd.isInvite = false ∧ s.urd.isInvite = true ∧ m ≠ .invite) := by
  unfold dispatch
  cases hi : s.urd.isInvite <;> cases m <;> cases hj : s.joined <;> cases hv : s.invited <;> simp [track, onEvent, hi]

theorem foldl_urd (ms : List Membership) (s : State) :
    ((ms.foldl dispatch s).urd = s.urd ∧ (s.urd.isInvite = true → Membership.join ∉ ms)) ∨
      ((ms.foldl dispatch s).urd.isInvite = false ∧ s.urd.isInvite = true ∧ ∃ m ∈ ms, m ≠ .invite) := by
  induction ms generalizing s with
  | nil => simp
  | cons m ms ih =>
    rw [List.foldl_cons]
    rcases dispatch_urd s m with ⟨h1, h2⟩ | ⟨h1, h2, h3⟩
    · rcases ih (dispatch s m) with ⟨h4, h5⟩ | ⟨h4, h5, x, hx, h6⟩
      · left
        refine ⟨h4.trans h1, fun h => ?_⟩
        rw [List.mem_cons, not_or]
        exact ⟨fun e => h2 h e.symm, h5 (by rw [h1]; exact h)⟩
      · right
        exact ⟨h4, by rw [h1] at h5; exact h5, x, List.mem_cons_of_mem _ hx, h6⟩
    · right
      refine ⟨?_, h2, m, List.mem_cons_self, h3⟩
      rcases ih (dispatch s m) with ⟨h4, -⟩ | ⟨h4, -⟩
      · rw [h4]; exact h1
      · exact h4

/-- `accumulate` leaves everything else alone. -/
theorem acc_frame (s : State) (a b : Nat) :
    (accumulate s a b).hist = s.hist ∧ (accumulate s a b).pos = s.pos ∧ (accumulate s a b).top = max s.top b ∧
      (accumulate s a b).row = supersede s.row (between s.hist (max a s.top) b) ∧ (accumulate s a b).stored = s.stored ∧
      (accumulate s a b).last = s.last := by
  unfold accumulate
  exact foldl_frame _ _

theorem acc_urd (s : State) (a b : Nat) :
    ((accumulate s a b).urd = s.urd ∧ (s.urd.isInvite = true → ∀ k, max a s.top ≤ k → k < b → ¬ Member s.hist k .join)) ∨
      ((accumulate s a b).urd.isInvite = false ∧ s.urd.isInvite = true ∧
        ∃ k m, max a s.top ≤ k ∧ k < b ∧ Member s.hist k m ∧ m ≠ .invite) := by
  unfold accumulate
  rcases foldl_urd (between s.hist (max a s.top) b)
    { s with row := supersede s.row (between s.hist (max a s.top) b), top := max s.top b } with ⟨h1, h2⟩ | ⟨h1, h2, m, hm, h3⟩
  · left
    refine ⟨h1, fun h k h4 h5 h6 => h2 h (mem_between.2 ⟨k, h4, h5, h6⟩)⟩
  · right
    obtain ⟨k, h4, h5, h6⟩ := mem_between.1 hm
    exact ⟨h1, h2, k, m, h4, h5, h6, h3⟩

theorem supersede_cases {row : Bool} {h : List Item} {a b : Nat} (hs : supersede row (between h a b) = true) :
    row = true ∧ (Quiet h a b ∨ ∃ k, a ≤ k ∧ k < b ∧ Member h k .invite ∧ Quiet h (k + 1) b) := by
  unfold supersede at hs
  cases hl : (between h a b).getLast? with
  | none => rw [hl] at hs; exact ⟨hs, Or.inl (between_nil.1 (List.getLast?_eq_none_iff.1 hl))⟩
  | some m =>
    rw [hl] at hs
    cases m with
    | invite => exact ⟨hs, Or.inr (between_last.1 hl)⟩
    | _ => simp at hs

theorem supersede_keep {row : Bool} {h : List Item} {a b : Nat} (hr : row = true)
    (hi : ∀ k m, a ≤ k → k < b → Member h k m → m = .invite) : supersede row (between h a b) = true := by
  unfold supersede
  cases hl : (between h a b).getLast? with
  | none => exact hr
  | some m =>
    obtain ⟨k, h1, h2, h3, -⟩ := between_last.1 hl
    rw [hi k m h1 h2 h3]; exact hr

/-! ## The invariant -/

theorem inv_init : Inv {} 0 where
  len := Nat.le_refl _
  pos := fun _ => Nat.le_refl _
  top := Nat.le_refl _
  flag := fun h => by cases h
  row := fun h => by cases h
  seen := fun _ _ h => by cases h
  one := fun h => by cases h

theorem inv_happen {s : State} {D : Nat} (hi : Inv s D) (x : Item) : Inv (step s (.happen x)) D := by
  have hl := hi.len
  have cur : ∀ i, Current s D i → Current { s with hist := s.hist ++ [x] } D i := by
    rintro i ⟨h1, h2, h3⟩
    refine ⟨h1, (member_append (by omega)).2 h2, fun d k m h4 h5 h6 => ?_⟩
    have h5' : k < s.pos d := h5
    have hp := hi.pos d
    exact h3 d k m h4 h5 ((member_append (by omega)).1 h6)
  have ht := hi.top
  constructor
  · show D ≤ (s.hist ++ [x]).length
    rw [List.length_append]; omega
  · exact hi.pos
  · exact hi.top
  · intro h
    obtain ⟨i, h1, h2⟩ := hi.flag h
    refine ⟨i, cur i h1, fun k h3 h4 h5 => ?_⟩
    have h4' : k < s.top := h4
    exact h2 k h3 h4 ((member_append (by omega)).1 h5)
  · intro h
    obtain ⟨i, h1, h2⟩ := hi.row h
    refine ⟨i, cur i h1, fun k m h3 h4 h5 => ?_⟩
    have h4' : k < s.top := h4
    exact h2 k m h3 h4 ((member_append (by omega)).1 h5)
  · intro d hq hm
    exact hi.seen d ((quiet_append hl).1 hq) ((memAt_append hl).symm.trans hm)
  · exact hi.one

theorem inv_load {s : State} {D : Nat} (hi : Inv s D) (l : Option Nat) (v : Bool) :
    Inv { s with urd := load s, last := l, invited := v } D := by
  have hf : (load s).isInvite = s.row := by unfold load; cases s.row <;> rfl
  constructor
  · exact hi.len
  · exact hi.pos
  · exact hi.top
  · intro h
    have h' : s.row = true := by rw [← hf]; exact h
    obtain ⟨i, h1, h2⟩ := hi.row h'
    exact ⟨i, h1, fun k h3 h4 h5 => by have := h2 k _ h3 h4 h5; cases this⟩
  · exact hi.row
  · intro d hq hm
    obtain ⟨-, h2⟩ := hi.seen d hq hm
    exact ⟨hf.trans h2, h2⟩
  · intro h
    have h' : s.row = true := by rw [← hf]; exact h
    show (load s).highlight = 1
    unfold load; rw [if_pos h']; rfl

/-- A current invite is before the end of a timely delivery. -/
theorem Current.before {s : State} {D i j : Nat} (hc : Current s D i) (hq : Quiet s.hist j D) : i < j := by
  rcases Nat.lt_or_ge i j with h | h
  · exact h
  · exact absurd hc.2.1 (hq i _ h hc.1)

theorem inv_other {s : State} {D j : Nat} (hi : Inv s D) (ht : Timely s D (.other j)) :
    Inv (step s (.other j)) (max D j) := by
  obtain ⟨hj, hq, hold⟩ := ht
  simp only [step]
  rw [if_pos hj]
  obtain ⟨e1, e2, e3, e4, e5, e6⟩ := acc_frame { s with room := true } 0 j
  have hu := acc_urd { s with room := true } 0 j
  generalize accumulate { s with room := true } 0 j = s' at *
  simp only [Nat.zero_max] at e4 hu
  have hl := hi.len
  have htop := hi.top
  have cur : ∀ i, Current s D i → Current s' (max D j) i := by
    rintro i ⟨h1, h2, h3⟩
    refine ⟨by omega, by rw [e1]; exact h2, fun d k m h4 h5 h6 => ?_⟩
    rw [e2] at h5; rw [e1] at h6
    exact h3 d k m h4 h5 h6
  constructor
  · rw [e1]; show max D j ≤ s.hist.length; omega
  · intro d; rw [e2]; have := hi.pos d; show s.pos d ≤ max D j; omega
  · rw [e3]; show max s.top j ≤ max D j; omega
  · intro h
    rcases hu with ⟨h1, h2⟩ | ⟨h1, -⟩
    · rw [h1] at h
      obtain ⟨i, h3, h4⟩ := hi.flag h
      refine ⟨i, cur i h3, fun k h5 h6 h7 => ?_⟩
      rw [e3] at h6; rw [e1] at h7
      have h6' : k < max s.top j := h6
      rcases Nat.lt_or_ge k s.top with h8 | h8
      · exact h4 k h5 h8 h7
      · exact h2 h k h8 (by omega) h7
    · rw [h1] at h; cases h
  · intro h
    rw [e4] at h
    obtain ⟨h1, h2⟩ := supersede_cases h
    rcases h2 with h2 | ⟨k, h2, h3, h4, h5⟩
    · obtain ⟨i, h3, h4⟩ := hi.row h1
      refine ⟨i, cur i h3, fun k m h5 h6 h7 => ?_⟩
      rw [e3] at h6; rw [e1] at h7
      have h6' : k < max s.top j := h6
      rcases Nat.lt_or_ge k s.top with h8 | h8
      · exact h4 k m h5 h8 h7
      · exact absurd h7 (h2 k m h8 (by omega))
    · have hnone : ∀ k' m, k < k' → k' < max D j → ¬ Member s.hist k' m := by
        intro k' m h6 h7
        rcases Nat.lt_or_ge k' j with h8 | h8
        · exact h5 k' m h6 h8
        · exact hq k' m h8 (by omega)
      have hall : ∀ k' m, k ≤ k' → k' < max D j → Member s.hist k' m → m = .invite := by
        intro k' m h6 h7 h8
        rcases Nat.lt_or_ge k k' with h9 | h9
        · exact absurd h8 (hnone k' m h9 h7)
        · have : k' = k := by omega
          subst this; exact h8.inj h4
      refine ⟨k, ⟨by omega, by rw [e1]; exact h4, fun d k' m h6 h7 h8 => ?_⟩, fun k' m h6 h7 h8 => ?_⟩
      · rw [e2] at h7; rw [e1] at h8
        have hp := hi.pos d
        have h7' : k' < s.pos d := h7
        exact hall k' m h6 (by omega) h8
      · rw [e3] at h7; rw [e1] at h8
        have h7' : k' < max s.top j := h7
        exact hall k' m h6 (by omega) h8
  · intro d hqd hm
    rw [e1, e2] at hqd; rw [e1] at hm
    have hqd : Quiet s.hist (s.pos d) (max D j) := hqd
    have hm : memAt s.hist (max D j) = some .invite := hm
    have hp := hi.pos d
    have hqd' : Quiet s.hist (s.pos d) D := hqd.mono (Nat.le_refl _) (by omega)
    have hm' : memAt s.hist D = some .invite := by
      rw [← memAt_quiet (a := D) (b := max D j) (by omega) (hqd.mono hp (Nat.le_refl _))]; exact hm
    obtain ⟨h1, h2⟩ := hi.seen d hqd' hm'
    have hinv : ∀ k m, s.top ≤ k → k < j → Member s.hist k m → m = .invite := by
      intro k m h3 h4 h5
      rcases Nat.lt_or_ge k D with h6 | h6
      · exact hold k m h3 h6 h5
      · exact absurd h5 (hqd k m (by omega) (by omega))
    constructor
    · rcases hu with ⟨h3, -⟩ | ⟨-, -, k, m, h3, h4, h5, h6⟩
      · rw [h3]; exact h1
      · exact absurd (hinv k m h3 h4 h5) h6
    · rw [e4]; exact supersede_keep h2 hinv
  · intro h
    rcases hu with ⟨h1, -⟩ | ⟨h1, -⟩
    · rw [h1] at h ⊢; exact hi.one h
    · rw [h1] at h; cases h

/-- A poller has moved on without any member event. -/
theorem inv_move {s : State} {D d j : Nat} (hi : Inv s D) (hj : j ≤ s.hist.length) (hp : s.pos d ≤ j) (hq : Quiet s.hist j D)
    (hseg : Quiet s.hist (s.pos d) j) :
    Inv { s with pos := fun x => if x = d then j else s.pos x } (max D j) := by
  have hl := hi.len
  have htop := hi.top
  have cur : ∀ i, Current s D i → Current { s with pos := fun x => if x = d then j else s.pos x } (max D j) i := by
    rintro i ⟨h1, h2, h3⟩
    refine ⟨by omega, h2, fun d' k m h4 h5 h6 => ?_⟩
    have h5 : k < if d' = d then j else s.pos d' := h5
    split at h5
    · rcases Nat.lt_or_ge k (s.pos d) with h7 | h7
      · exact h3 d k m h4 h7 h6
      · exact absurd h6 (hseg k m h7 h5)
    · exact h3 d' k m h4 h5 h6
  constructor
  · show max D j ≤ s.hist.length; omega
  · intro d'
    show (if d' = d then j else s.pos d') ≤ max D j
    have := hi.pos d'
    split <;> omega
  · show s.top ≤ max D j; omega
  · intro h
    obtain ⟨i, h1, h2⟩ := hi.flag h
    exact ⟨i, cur i h1, h2⟩
  · intro h
    obtain ⟨i, h1, h2⟩ := hi.row h
    exact ⟨i, cur i h1, h2⟩
  · intro d' hqd hm
    have hqd : Quiet s.hist (if d' = d then j else s.pos d') (max D j) := hqd
    have hm : memAt s.hist (max D j) = some .invite := hm
    split at hqd
    · have hq2 : Quiet s.hist (s.pos d) (max D j) := by
        intro k m h1 h2
        rcases Nat.lt_or_ge k j with h3 | h3
        · exact hseg k m h1 h3
        · exact hqd k m h3 h2
      refine hi.seen d (hq2.mono (Nat.le_refl _) (by omega)) ?_
      rw [← memAt_quiet (a := D) (b := max D j) (by omega) (hq2.mono (hi.pos d) (Nat.le_refl _))]; exact hm
    · refine hi.seen d' (hqd.mono (Nat.le_refl _) (by omega)) ?_
      rw [← memAt_quiet (a := D) (b := max D j) (by omega) (hqd.mono (hi.pos d') (Nat.le_refl _))]; exact hm
  · exact hi.one

/-- The state after a delivery which ends the invite. -/
theorem inv_ended {s s' : State} {D d j : Nat} (hi : Inv s D) (hj : j ≤ s.hist.length) (hq : Quiet s.hist j D)
    (hm : memAt s.hist j ≠ some .invite) (e1 : s'.hist = s.hist) (e2 : s'.pos = fun x => if x = d then j else s.pos x)
    (e3 : s'.top ≤ max D j) (e4 : s'.urd.isInvite = false) (e5 : s'.row = false) : Inv s' (max D j) := by
  have hl := hi.len
  constructor
  · rw [e1]; omega
  · intro d'; rw [e2]; have := hi.pos d'
    show (if d' = d then j else s.pos d') ≤ _
    split <;> omega
  · exact e3
  · intro h; rw [e4] at h; cases h
  · intro h; rw [e5] at h; cases h
  · intro d' _ h
    rw [e1, memAt_quiet (a := j) (b := max D j) (by omega)
      (fun k m h1 h2 => hq k m h1 (by omega))] at h
    exact absurd h hm
  · intro h; rw [e4] at h; cases h

theorem seg_last {h : List Item} {a j : Nat} {m : Membership} (hm : memAt h j = some m) (hn : between h a j ≠ []) :
    m ∈ between h a j := by
  obtain ⟨k, h1, h2, h3⟩ := memAt_some.1 hm
  have : ¬ Quiet h a j := fun hq => hn (between_nil.2 hq)
  obtain ⟨k', m', h4, h5, h6⟩ : ∃ k' m', a ≤ k' ∧ k' < j ∧ Member h k' m' :=
    Classical.byContradiction fun hc => this fun k' m' h4 h5 h6 => hc ⟨k', m', h4, h5, h6⟩
  refine mem_between.2 ⟨k, ?_, h1, h2⟩
  rcases Nat.lt_or_ge k k' with h7 | h7
  · exact absurd h6 (h3 k' m' h7 h5)
  · omega

theorem inv_deliver {s : State} {D d j : Nat} (hi : Inv s D) (ht : Timely s D (.deliver d j)) :
    Inv (step s (.deliver d j)) (max D j) := by
  obtain ⟨hp, hj, hq, hban⟩ := ht
  have hl := hi.len
  have htop := hi.top
  have hmx : max s.top j ≤ max D j := by omega
  simp only [step]
  rw [if_pos ⟨hp, hj⟩]
  unfold receive
  cases hm : memAt s.hist j with
  | none =>
    exact inv_move hi hj hp hq ((memAt_none.1 hm).mono (by omega) (Nat.le_refl _))
  | some m =>
    cases m with
    | invite =>
      simp only
      by_cases hseg : between s.hist (s.pos d) j = []
      · rw [if_neg (by simp [hseg])]
        exact inv_move hi hj hp hq (between_nil.1 hseg)
      · rw [if_pos hseg]
        obtain ⟨i, h1, h2, h3⟩ := memAt_some.1 hm
        have hall : ∀ k m, i ≤ k → k < max D j → Member s.hist k m → m = .invite := by
          intro k m h4 h5 h6
          rcases Nat.lt_or_ge i k with h7 | h7
          · rcases Nat.lt_or_ge k j with h8 | h8
            · exact absurd h6 (h3 k m h7 h8)
            · exact absurd h6 (hq k m h8 (by omega))
          · have : k = i := by omega
            subst this; exact h6.inj h2
        have hc : Current { s with pos := fun x => if x = d then j else s.pos x, row := true, urd := onInvite s.urd } (max D j) i := by
          refine ⟨by omega, h2, fun d' k m h4 h5 h6 => ?_⟩
          have h5 : k < if d' = d then j else s.pos d' := h5
          have := hi.pos d'
          exact hall k m h4 (by split at h5 <;> omega) h6
        constructor
        · show max D j ≤ s.hist.length; omega
        · intro d'
          show (if d' = d then j else s.pos d') ≤ max D j
          have := hi.pos d'
          split <;> omega
        · show s.top ≤ max D j; omega
        · intro _
          refine ⟨i, hc, fun k h4 h5 h6 => ?_⟩
          have h5 : k < s.top := h5
          have := hall k _ h4 (by omega) h6
          cases this
        · intro _
          refine ⟨i, hc, fun k m h4 h5 h6 => ?_⟩
          have h5 : k < s.top := h5
          exact hall k m h4 (by omega) h6
        · intro _ _ _; exact ⟨rfl, rfl⟩
        · intro _; rfl
    | join =>
      simp only
      obtain ⟨e1, e2, e3, e4, e5, e6⟩ :=
        acc_frame { s with pos := fun x => if x = d then j else s.pos x, room := true } 0 j
      have hu := acc_urd { s with pos := fun x => if x = d then j else s.pos x, room := true } 0 j
      generalize accumulate { s with pos := fun x => if x = d then j else s.pos x, room := true } 0 j = s' at *
      simp only [Nat.zero_max] at e3 e4 hu e1 e2
      obtain ⟨k, h1, h2, h3⟩ := memAt_some.1 hm
      have after : ∀ i, Current s D i → i ≤ k := by
        intro i hc
        have := hc.before hq
        rcases Nat.lt_or_ge k i with h4 | h4
        · exact absurd hc.2.1 (h3 i _ h4 this)
        · exact h4
      have f1 : s'.urd.isInvite = false := by
        rcases hu with ⟨h4, h5⟩ | ⟨h4, -⟩
        · cases hb : s'.urd.isInvite with
          | false => rfl
          | true =>
            exfalso
            rw [h4] at hb
            obtain ⟨i, hc, h6⟩ := hi.flag hb
            rcases Nat.lt_or_ge k s.top with h7 | h7
            · exact h6 k (after i hc) h7 h2
            · exact h5 hb k h7 h1 h2
        · exact h4
      have f2 : s'.row = false := by
        cases hb : s'.row with
        | false => rfl
        | true =>
          exfalso
          rw [e4] at hb
          obtain ⟨h4, h5⟩ := supersede_cases hb
          rcases h5 with h5 | ⟨k', h5, h6, h7, h8⟩
          · obtain ⟨i, hc, h6⟩ := hi.row h4
            rcases Nat.lt_or_ge k s.top with h7 | h7
            · have := h6 k _ (after i hc) h7 h2; cases this
            · exact h5 k _ h7 h1 h2
          · rcases Nat.lt_trichotomy k k' with h9 | h9 | h9
            · exact h3 k' _ h9 h6 h7
            · subst h9; have := h2.inj h7; cases this
            · exact h8 k _ h9 h1 h2
      have hn : memAt s.hist j ≠ some .invite := by rw [hm]; simp
      unfold unread
      split
      · exact inv_ended (d := d) hi hj hq hn e1 e2 (by rw [e3]; exact hmx) f1 f2
      · exact inv_ended (d := d) hi hj hq hn e1 e2 (by show s'.top ≤ _; rw [e3]; exact hmx) f1 f2
    | leave =>
      simp only
      by_cases hseg : between s.hist (s.pos d) j = []
      · rw [if_pos hseg]; exact inv_move hi hj hp hq (between_nil.1 hseg)
      · rw [if_neg hseg, if_pos (seg_last hm hseg)]
        have hn : memAt s.hist j ≠ some .invite := by rw [hm]; simp
        by_cases hr : s.room = true
        rotate_left
        · rw [if_neg hr]
          exact inv_ended (d := d) hi hj hq hn rfl rfl (by show s.top ≤ _; omega) rfl rfl
        · rw [if_pos hr]
          obtain ⟨e1, e2, e3, -⟩ := acc_frame { s with pos := fun x => if x = d then j else s.pos x } (s.pos d) j
          exact inv_ended (d := d) hi hj hq hn e1 e2 (by show (accumulate _ _ _).top ≤ _; rw [e3]; show max s.top j ≤ _; omega) rfl rfl
    | ban =>
      simp only
      by_cases hseg : between s.hist (s.pos d) j = []
      · rw [if_pos hseg]; exact inv_move hi hj hp hq (between_nil.1 hseg)
      · rw [if_neg hseg]
        have hn : memAt s.hist j ≠ some .invite := by rw [hm]; simp
        by_cases hlv : Membership.leave ∈ between s.hist (s.pos d) j
        · rw [if_pos hlv]
          by_cases hr : s.room = true
          rotate_left
          · rw [if_neg hr]
            exact inv_ended (d := d) hi hj hq hn rfl rfl (by show s.top ≤ _; omega) rfl rfl
          · rw [if_pos hr]
            obtain ⟨e1, e2, e3, -⟩ := acc_frame { s with pos := fun x => if x = d then j else s.pos x } (s.pos d) j
            exact inv_ended (d := d) hi hj hq hn e1 e2 (by show (accumulate _ _ _).top ≤ _; rw [e3]; show max s.top j ≤ _; omega) rfl rfl
        · rw [if_neg hlv]
          have hno : ∀ i, ¬ Current s D i := by
            intro i hc
            have hij := hc.before hq
            rcases hban (memAt_some.1 hm) with h1 | ⟨k, h1, h2, h3⟩ | ⟨h1, h2⟩
            · exact hseg (between_nil.2 h1)
            · exact hlv (mem_between.2 ⟨k, h1, h2, h3⟩)
            · rcases Nat.lt_or_ge i (s.pos d) with h3 | h3
              · cases hx : memAt s.hist (s.pos d) with
                | none => exact memAt_none.1 hx i _ (by omega) h3 hc.2.1
                | some x =>
                  obtain ⟨k, h4, h5, h6⟩ := memAt_some.1 hx
                  have hk : i ≤ k := by
                    rcases Nat.lt_or_ge k i with h7 | h7
                    · exact absurd hc.2.1 (h6 i _ h7 h3)
                    · exact h7
                  have := hc.2.2 d k x hk h4 h5
                  subst this
                  exact h1 ⟨k, h4, h5, h6⟩
              · exact h2 i h3 hij hc.2.1
          have f1 : s.urd.isInvite = false := by
            cases hb : s.urd.isInvite with
            | false => rfl
            | true => obtain ⟨i, hc, -⟩ := hi.flag hb; exact absurd hc (hno i)
          have f2 : s.row = false := by
            cases hb : s.row with
            | false => rfl
            | true => obtain ⟨i, hc, -⟩ := hi.row hb; exact absurd hc (hno i)
          by_cases hr : s.room = true
          rotate_left
          · rw [if_neg hr]
            exact inv_ended (d := d) hi hj hq hn rfl rfl (by show s.top ≤ _; omega) f1 f2
          · rw [if_pos hr]
            obtain ⟨e1, e2, e3, e4, -⟩ := acc_frame { s with pos := fun x => if x = d then j else s.pos x } (s.pos d) j
            have hu := acc_urd { s with pos := fun x => if x = d then j else s.pos x } (s.pos d) j
            refine inv_ended (d := d) hi hj hq hn e1 e2 (by show (accumulate _ _ _).top ≤ _; rw [e3]; show max s.top j ≤ _; omega) ?_ ?_
            · rcases hu with ⟨h1, -⟩ | ⟨h1, -⟩
              · show (accumulate _ _ _).urd.isInvite = false
                rw [h1]; exact f1
              · exact h1
            · show (accumulate _ _ _).row = false
              cases hb : (accumulate { s with pos := fun x => if x = d then j else s.pos x } (s.pos d) j).row with
              | false => rfl
              | true =>
                rw [e4] at hb
                have := (supersede_cases hb).1
                rw [show s.row = true from this] at f2; cases f2

theorem reach_snoc (ops : List Op) (o : Op) : reach (ops ++ [o]) = match o with
    | .deliver _ j => max (reach ops) j
    | .other j => max (reach ops) j
    | _ => reach ops := by
  simp [reach]

theorem run_snoc (ops : List Op) (o : Op) : run (ops ++ [o]) = step (run ops) o := by simp [run]

theorem AllTimely.init {ops : List Op} {o : Op} (h : AllTimely (ops ++ [o])) : AllTimely ops := by
  intro pre x post e
  exact h pre x (post ++ [o]) (by rw [e]; simp)

theorem AllTimely.last {ops : List Op} {o : Op} (h : AllTimely (ops ++ [o])) : Timely (run ops) (reach ops) o :=
  h ops o [] rfl

theorem inv_run (ops : List Op) (ht : AllTimely ops) : Inv (run ops) (reach ops) := by
  induction ops using Verif.Util.snocRec with
  | nil => exact inv_init
  | append_singleton ops o ih =>
    have hi := ih ht.init
    have hl := ht.last
    rw [run_snoc, reach_snoc]
    cases o with
    | happen x => exact inv_happen hi x
    | deliver d j => exact inv_deliver hi hl
    | other j => exact inv_other hi hl
    | reload => exact inv_load hi _ _
    | restart => exact inv_load hi _ _

/-- Once an invite is over nothing else changes, and there is no highlight. -/
theorem foldl_zero (ms : List Membership) (s : State) (h1 : s.urd.isInvite = true) (h2 : (ms.foldl dispatch s).urd.isInvite = false) :
    (ms.foldl dispatch s).urd.highlight = 0 := by
  have keep : ∀ (ms : List Membership) (s : State), s.urd.isInvite = false → (ms.foldl dispatch s).urd = s.urd := by
    intro ms s h
    rcases foldl_urd ms s with ⟨h3, -⟩ | ⟨-, h3, -⟩
    · exact h3
    · rw [h] at h3; cases h3
  induction ms generalizing s with
  | nil => rw [List.foldl_nil, h1] at h2; cases h2
  | cons m ms ih =>
    rw [List.foldl_cons] at h2 ⊢
    cases hd : (dispatch s m).urd.isInvite with
    | true => exact ih _ hd h2
    | false =>
      rw [keep ms _ hd]
      revert hd
      unfold dispatch
      cases m <;> cases hj : s.joined <;> cases hv : s.invited <;> simp [track, onEvent, h1]

/-! ## Deciding concrete cases -/

instance (h : List Item) (a b : Nat) : Decidable (Quiet h a b) := decidable_of_iff _ between_nil

instance (h : List Item) (n : Nat) (m : Membership) : Decidable (Last h n m) := decidable_of_iff _ memAt_some

instance (h : List Item) (k : Nat) (m : Membership) : Decidable (Member h k m) := inferInstanceAs (Decidable (_ = _))

theorem timely_deliver (s : State) (D d j : Nat) : (s.pos d ≤ j ∧ j ≤ s.hist.length ∧ Quiet s.hist j D ∧
      (Last s.hist j .ban → Quiet s.hist (s.pos d) j ∨ Membership.leave ∈ between s.hist (s.pos d) j ∨
        (¬ Last s.hist (s.pos d) .invite ∧ ¬ Membership.invite ∈ between s.hist (s.pos d) j))) ↔ Timely s D (.deliver d j) := by
  have e : (∀ k, s.pos d ≤ k → k < j → ¬ Member s.hist k .invite) ↔ ¬ Membership.invite ∈ between s.hist (s.pos d) j := by
    rw [mem_between]
    constructor
    · rintro h ⟨k, h1, h2, h3⟩; exact h k h1 h2 h3
    · intro h k h1 h2 h3; exact h ⟨k, h1, h2, h3⟩
  simp only [Timely]
  rw [e, mem_between (m := .leave)]

theorem timely_other (s : State) (D j : Nat) : (j ≤ s.hist.length ∧ Quiet s.hist j D ∧ ∀ m ∈ between s.hist s.top D, m = .invite) ↔
    Timely s D (.other j) := by
  have e : (∀ m ∈ between s.hist s.top D, m = .invite) ↔ ∀ k m, s.top ≤ k → k < D → Member s.hist k m → m = .invite := by
    constructor
    · intro h k m h1 h2 h3; exact h m (mem_between.2 ⟨k, h1, h2, h3⟩)
    · intro h m hm
      obtain ⟨k, h1, h2, h3⟩ := mem_between.1 hm
      exact h k m h1 h2 h3
  unfold Timely
  rw [e]

instance (s : State) (D : Nat) : (o : Op) → Decidable (Timely s D o)
  | .deliver d j => decidable_of_iff _ (timely_deliver s D d j)
  | .other j => decidable_of_iff _ (timely_other s D j)
  | .happen _ => isTrue trivial
  | .reload => isTrue trivial
  | .restart => isTrue trivial

theorem allTimely_of {ops : List Op}
    (h : ∀ n, n < ops.length → ∀ o ∈ ops[n]?, Timely (run (ops.take n)) (reach (ops.take n)) o) : AllTimely ops := by
  rintro pre o post e
  have := h pre.length (by rw [e]; simp) o (by rw [e]; simp)
  rw [e, List.take_left] at this
  exact this

/-! ## The claims -/

/-- **C96, partial.** Nothing comes late, and no one is banned while invited. Then, whenever the poller of some device has delivered
all member events, the room is shown as an invite exactly if the user's last membership upstream is an invite; the stored invites
agree, so it is the same after the cache is made anew; and an invite has one highlight. -/
theorem C96_invite_partial (ops : List Op) (ht : AllTimely ops) (d : Nat)
    (hd : Quiet (run ops).hist ((run ops).pos d) (run ops).hist.length) :
    ((run ops).urd.isInvite = true ↔ Last (run ops).hist (run ops).hist.length .invite) ∧
      ((run ops).row = true ↔ Last (run ops).hist (run ops).hist.length .invite) ∧
      ((run ops).urd.isInvite = true → (run ops).urd.highlight = 1) := by
  have hi := inv_run ops ht
  generalize run ops = s at *
  generalize reach ops = D at *
  have hl := hi.len
  have hp := hi.pos d
  have eD : memAt s.hist s.hist.length = memAt s.hist D := memAt_quiet hl (hd.mono hp (Nat.le_refl _))
  have key : ∀ i, Current s D i → Last s.hist s.hist.length .invite := by
    intro i hc
    cases hx : memAt s.hist s.hist.length with
    | none => exact absurd hc.2.1 (memAt_none.1 hx i _ (by omega) (by have := hc.1; omega))
    | some x =>
      have hx' := memAt_some.1 hx
      obtain ⟨k, h1, h2, h3⟩ := hx'
      have hk : i ≤ k := by
        rcases Nat.lt_or_ge k i with h4 | h4
        · exact absurd hc.2.1 (h3 i _ h4 (by have := hc.1; omega))
        · exact h4
      have hkp : k < s.pos d := by
        rcases Nat.lt_or_ge k (s.pos d) with h4 | h4
        · exact h4
        · exact absurd h2 (hd k _ h4 h1)
      have := hc.2.2 d k x hk hkp h2
      subst this
      exact ⟨k, h1, h2, h3⟩
  have back : Last s.hist s.hist.length .invite → s.urd.isInvite = true ∧ s.row = true := by
    intro h
    exact hi.seen d (hd.mono (Nat.le_refl _) hl) (by rw [← eD]; exact memAt_some.2 h)
  exact ⟨⟨fun h => by obtain ⟨i, hc, -⟩ := hi.flag h; exact key i hc, fun h => (back h).1⟩,
    ⟨fun h => by obtain ⟨i, hc, -⟩ := hi.row h; exact key i hc, fun h => (back h).2⟩, hi.one⟩

/-- The hypotheses are met: an invite, seen first by a poller of another user, is accepted, the user is removed, and invited again;
two devices deliver it, with a restart in between. -/
example : AllTimely [.happen (.member .invite), .other 1, .deliver 0 1, .deliver 1 1, .happen (.member .join), .happen (.count 3),
      .deliver 1 3, .restart, .deliver 0 3, .happen (.member .leave), .happen (.member .invite), .deliver 0 5] ∧
    (run [.happen (.member .invite), .other 1, .deliver 0 1, .deliver 1 1, .happen (.member .join), .happen (.count 3),
      .deliver 1 3, .restart, .deliver 0 3, .happen (.member .leave), .happen (.member .invite), .deliver 0 5]).urd.isInvite = true :=
  ⟨allTimely_of (by decide +kernel), by decide +kernel⟩

/-- C96: an invite that is over because a poller of another user delivers the user's join or leave has no highlight left. -/
theorem C96_accepted (ops : List Op) (j : Nat) (h1 : (run ops).urd.isInvite = true)
    (h2 : (run (ops ++ [.other j])).urd.isInvite = false) : (run (ops ++ [.other j])).urd.highlight = 0 := by
  rw [run_snoc] at h2 ⊢
  simp only [step] at h2 ⊢
  split at h2
  · rename_i hj
    rw [if_pos hj]
    exact foldl_zero _ _ h1 h2
  · rw [h1] at h2; cases h2

/-- Such a case. -/
example : (run [.happen (.member .invite), .deliver 0 1, .happen (.member .join)]).urd = ⟨true, false, 1⟩ ∧
    (run ([.happen (.member .invite), .deliver 0 1, .happen (.member .join)] ++ [.other 2])).urd = ⟨false, false, 0⟩ := by
  decide +kernel

/-- **C96 is violated.** The poller of a second device is behind: after the first device has delivered the invite and that the user
joined, the second delivers the invite. The room is an invite again. The second device then delivers the join too, but it is not a
new event, so nothing takes the invite back: both have delivered everything, and the joined room stays an invite, also after a
restart. -/
theorem C96_violated_late :
    ∃ ops : List Op, (∀ d, d < 2 → (run ops).pos d = (run ops).hist.length) ∧
      Last (run ops).hist (run ops).hist.length .join ∧ (run ops).urd.isInvite = true ∧
      (run (ops ++ [.restart])).urd.isInvite = true := by
  refine ⟨[.happen (.member .invite), .deliver 0 1, .happen (.member .join), .deliver 0 2, .deliver 1 1, .deliver 1 2], ?_, ?_, ?_, ?_⟩ <;>
    decide +kernel

/-- **C96 is violated with one device.** The answer to its poller with the invite is on its way when the user joins, and a poller of
another user is the first to deliver the join. -/
theorem C96_violated_race :
    ∃ ops : List Op, (∀ o ∈ ops, ∀ d j, o = .deliver d j → d = 0) ∧ (run ops).pos 0 = (run ops).hist.length ∧
      Last (run ops).hist (run ops).hist.length .join ∧ (run ops).urd.isInvite = true ∧ (run ops).row = true := by
  refine ⟨[.happen (.member .invite), .happen (.member .join), .other 2, .deliver 0 1, .deliver 0 2], ?_, ?_, ?_, ?_, ?_⟩
  · intro o ho d j e
    subst e
    simp only [List.mem_cons, List.not_mem_nil, or_false, reduceCtorEq, Op.deliver.injEq, false_or] at ho
    rcases ho with h | h <;> exact h.1
  all_goals decide +kernel

/-- **C96 is violated by a ban.** A user who is invited to a room that no other user of the proxy is in is banned. The ban is in the
`leave` section, but only a leave is looked for there, and without a snapshot the event is dropped: the invite stays. -/
theorem C96_violated_ban :
    ∃ ops : List Op, (run ops).pos 0 = (run ops).hist.length ∧ Last (run ops).hist (run ops).hist.length .ban ∧
      (run ops).urd.isInvite = true ∧ (run ops).row = true := by
  refine ⟨[.happen (.member .invite), .deliver 0 1, .happen (.member .ban), .deliver 0 2], ?_, ?_, ?_, ?_⟩ <;> decide +kernel

/-- **C96 is violated the other way.** The user leaves and is invited again between two polls; the response with the invite overtakes
the timeline of another user with the leave. The leave is then taken for the end of the invite: it is not shown. -/
theorem C96_violated_lost :
    ∃ ops : List Op, (run ops).pos 0 = (run ops).hist.length ∧ Last (run ops).hist (run ops).hist.length .invite ∧
      (run ops).urd.isInvite = false := by
  refine ⟨[.happen (.member .join), .deliver 0 1, .happen (.member .leave), .happen (.member .invite), .deliver 0 3, .other 2, .other 3],
    ?_, ?_, ?_⟩ <;> decide +kernel

/-! ## Highlight counts -/

/-- An operation that brings no highlight count older than one delivered, nor, after a change of membership that no own poller had
delivered, the count which was the last before. -/
def Fresh (s : State) (C : Nat) : Op → Prop
  | .deliver _ j => C ≤ j ∧ (Last s.hist j .join → ¬ Quiet s.hist C j → s.last ≠ some (countAt s.hist j))
  | _ => True

def AllFresh (ops : List Op) : Prop := ∀ pre o post, ops = pre ++ o :: post → Fresh (run pre) (own pre) o

structure CountInv (s : State) (D C : Nat) : Prop where
  le : C ≤ D
  pos : (∃ d, s.pos d = C) ∨ C = 0
  count : Quiet s.hist C D → Last s.hist D .join →
    s.urd.highlight = countAt s.hist C ∧ s.stored = countAt s.hist C ∧ ∀ n, s.last = some n → n = countAt s.hist C

/-- A joined user has no invite. -/
theorem no_invite {s : State} {D C : Nat} (hi : Inv s D) (hc : CountInv s D C) (hq : Quiet s.hist C D) (hj : Last s.hist D .join) :
    s.urd.isInvite = false ∧ s.row = false := by
  obtain ⟨k, h1, h2, h3⟩ := hj
  have hkC : k < C := by
    rcases Nat.lt_or_ge k C with h | h
    · exact h
    · exact absurd h2 (hq k _ h h1)
  obtain ⟨d, hd⟩ : ∃ d, s.pos d = C := by
    rcases hc.pos with h | h
    · exact h
    · omega
  have hno : ∀ i, ¬ Current s D i := by
    intro i hcu
    have hik : i ≤ k := by
      rcases Nat.lt_or_ge k i with h | h
      · exact absurd hcu.2.1 (h3 i _ h hcu.1)
      · exact h
    have := hcu.2.2 d k _ hik (by omega) h2
    cases this
  constructor
  · cases hb : s.urd.isInvite with
    | false => rfl
    | true => obtain ⟨i, h, -⟩ := hi.flag hb; exact absurd h (hno i)
  · cases hb : s.row with
    | false => rfl
    | true => obtain ⟨i, h, -⟩ := hi.row hb; exact absurd h (hno i)

theorem count_load {s : State} {D C : Nat} (hi : Inv s D) (hc : CountInv s D C) (l : Option Nat) (v : Bool)
    (hl : l = s.last ∨ l = none) : CountInv { s with urd := load s, last := l, invited := v } D C where
  le := hc.le
  pos := hc.pos
  count := by
    intro hq hj
    obtain ⟨h1, h2, h3⟩ := hc.count hq hj
    obtain ⟨-, hr⟩ := no_invite hi hc hq hj
    have hr : s.row = false := hr
    refine ⟨?_, h2, ?_⟩
    · show (load s).highlight = _
      unfold load; rw [hr]; exact h2
    · intro n hn
      have hn : l = some n := hn
      rcases hl with rfl | rfl
      · exact h3 n hn
      · cases hn

theorem last_quiet {h : List Item} {a b : Nat} {m : Membership} (hab : a ≤ b) (hq : Quiet h a b) : Last h b m ↔ Last h a m := by
  rw [← memAt_some, ← memAt_some, memAt_quiet hab hq]

theorem count_other {s : State} {D C j : Nat} (hi : Inv s D) (hc : CountInv s D C) :
    CountInv (step s (.other j)) (max D j) C := by
  simp only [step]
  have hle := hc.le
  by_cases hj : j ≤ s.hist.length
  · rw [if_pos hj]
    obtain ⟨e1, e2, e3, e4, e5, e6⟩ := acc_frame { s with room := true } 0 j
    have hu := acc_urd { s with room := true } 0 j
    generalize accumulate { s with room := true } 0 j = s' at *
    refine ⟨by omega, by rw [e2]; exact hc.pos, fun hq hl => ?_⟩
    rw [e1] at hq hl
    have hq : Quiet s.hist C (max D j) := hq
    have hl : Last s.hist (max D j) .join := hl
    have hq' := hq.mono (Nat.le_refl _) (by omega : D ≤ max D j)
    have hl' := (last_quiet (by omega : D ≤ max D j) (hq.mono hle (Nat.le_refl _))).1 hl
    obtain ⟨h1, h2, h3⟩ := hc.count hq' hl'
    obtain ⟨h4, -⟩ := no_invite hi hc hq' hl'
    rcases hu with ⟨h5, -⟩ | ⟨-, h5, -⟩
    · rw [h5, e5, e6, e1]; exact ⟨h1, h2, h3⟩
    · rw [show s.urd.isInvite = true from h5] at h4; cases h4
  · rw [if_neg hj]
    refine ⟨by omega, hc.pos, fun hq hl => ?_⟩
    have hq' := hq.mono (Nat.le_refl _) (by omega : D ≤ max D j)
    exact hc.count hq' ((last_quiet (by omega : D ≤ max D j) (hq.mono hle (Nat.le_refl _))).1 hl)

/-- A delivery that does not end with the user joined says nothing about counts. -/
theorem count_else {s s' : State} {D C d j : Nat} (hle : C ≤ D) (hC : C ≤ j) (hq : Quiet s.hist j D)
    (hm : ¬ Last s.hist j .join) (e1 : s'.hist = s.hist) (e2 : s'.pos = fun x => if x = d then j else s.pos x) :
    CountInv s' (max D j) (max C j) := by
  refine ⟨by omega, Or.inl ⟨d, by rw [e2]; simp; omega⟩, fun _ hl => ?_⟩
  rw [e1] at hl
  exact absurd ((last_quiet (by omega) (fun k m h1 h2 => hq k m h1 (by omega))).1 hl) hm

theorem count_deliver {s : State} {D C d j : Nat} (hi : Inv s D) (hc : CountInv s D C) (ht : Timely s D (.deliver d j))
    (hf : Fresh s C (.deliver d j)) : CountInv (step s (.deliver d j)) (max D j) (max C j) := by
  obtain ⟨hp, hj, hq, -⟩ := ht
  obtain ⟨hC, hrep⟩ := hf
  have hle := hc.le
  simp only [step]
  rw [if_pos ⟨hp, hj⟩]
  unfold receive
  by_cases hm : memAt s.hist j = some .join
  · rw [hm]
    simp only
    have hjn := memAt_some.1 hm
    obtain ⟨e1, e2, e3, e4, e5, e6⟩ :=
      acc_frame { s with pos := fun x => if x = d then j else s.pos x, room := true } 0 j
    have hu := acc_urd { s with pos := fun x => if x = d then j else s.pos x, room := true } 0 j
    generalize accumulate { s with pos := fun x => if x = d then j else s.pos x, room := true } 0 j = s' at *
    have e1 : s'.hist = s.hist := e1
    have e2 : s'.pos = fun x => if x = d then j else s.pos x := e2
    have e5 : s'.stored = s.stored := e5
    have e6 : s'.last = s.last := e6
    have hCj : max C j = j := by omega
    rw [hCj]
    have hpos : (∃ x, s'.pos x = j) ∨ j = 0 := Or.inl ⟨d, by rw [e2]; simp⟩
    unfold unread
    split
    · rename_i hs
      rw [e6] at hs
      refine ⟨by omega, hpos, fun _ _ => ?_⟩
      have hqC : Quiet s.hist C j := Classical.byContradiction fun hn => hrep hjn hn hs
      have hqD : Quiet s.hist C D := by
        intro k m h1 h2
        rcases Nat.lt_or_ge k j with h3 | h3
        · exact hqC k m h1 h3
        · exact hq k m h3 h2
      have hlD : Last s.hist D .join := by
        rw [last_quiet hle hqD, ← last_quiet hC hqC]; exact hjn
      obtain ⟨h1, h2, h3⟩ := hc.count hqD hlD
      obtain ⟨h4, -⟩ := no_invite hi hc hqD hlD
      have hn := h3 _ hs
      rcases hu with ⟨h5, -⟩ | ⟨-, h5, -⟩
      · rw [h5, e5, e6, e1]
        refine ⟨h1.trans hn.symm, h2.trans hn.symm, fun n h6 => ?_⟩
        rw [hs] at h6; cases h6; rfl
      · rw [show s.urd.isInvite = true from h5] at h4; cases h4
    · refine ⟨by omega, hpos, fun _ _ => ?_⟩
      show countAt s.hist j = countAt s'.hist j ∧ countAt s.hist j = countAt s'.hist j ∧ ∀ n, some (countAt s.hist j) = some n → n = countAt s'.hist j
      rw [e1]
      exact ⟨rfl, rfl, fun n h => by cases h; rfl⟩
  · have hmL : ¬ Last s.hist j .join := fun h => hm (memAt_some.2 h)
    cases hx : memAt s.hist j with
    | none => exact count_else (d := d) hle hC hq hmL rfl rfl
    | some m =>
      cases m with
      | join => exact absurd hx hm
      | invite =>
        simp only
        split <;> exact count_else (d := d) hle hC hq hmL rfl rfl
      | leave =>
        simp only
        obtain ⟨e1, e2, -⟩ := acc_frame { s with pos := fun x => if x = d then j else s.pos x } (s.pos d) j
        split
        · exact count_else (d := d) hle hC hq hmL rfl rfl
        · split <;> split
          · exact count_else (d := d) hle hC hq hmL e1 e2
          · exact count_else (d := d) hle hC hq hmL rfl rfl
          · exact count_else (d := d) hle hC hq hmL e1 e2
          · exact count_else (d := d) hle hC hq hmL rfl rfl
      | ban =>
        simp only
        obtain ⟨e1, e2, -⟩ := acc_frame { s with pos := fun x => if x = d then j else s.pos x } (s.pos d) j
        split
        · exact count_else (d := d) hle hC hq hmL rfl rfl
        · split <;> split
          · exact count_else (d := d) hle hC hq hmL e1 e2
          · exact count_else (d := d) hle hC hq hmL rfl rfl
          · exact count_else (d := d) hle hC hq hmL e1 e2
          · exact count_else (d := d) hle hC hq hmL rfl rfl

theorem own_snoc (ops : List Op) (o : Op) : own (ops ++ [o]) = match o with
    | .deliver _ j => max (own ops) j
    | _ => own ops := by
  simp [own]

theorem count_run (ops : List Op) (ht : AllTimely ops) (hf : AllFresh ops) : CountInv (run ops) (reach ops) (own ops) := by
  induction ops using Verif.Util.snocRec with
  | nil => exact ⟨Nat.le_refl _, Or.inr rfl, fun _ ⟨k, h, _⟩ => absurd h (Nat.not_lt_zero k)⟩
  | append_singleton ops o ih =>
    have hf' : AllFresh ops := fun pre x post e => hf pre x (post ++ [o]) (by rw [e]; simp)
    have hc := ih ht.init hf'
    have hi := inv_run ops ht.init
    have hl := ht.last
    rw [run_snoc, reach_snoc, own_snoc]
    cases o with
    | happen x =>
      have hD := hi.len
      have hle := hc.le
      refine ⟨hle, hc.pos, fun hq hj => ?_⟩
      have e : (step (run ops) (.happen x)).hist = (run ops).hist ++ [x] := rfl
      rw [e] at hq hj ⊢
      rw [countAt_append (show own ops ≤ _ by omega)]
      refine hc.count ((quiet_append hD).1 hq) ?_
      rw [← memAt_some, ← memAt_append hD, memAt_some]; exact hj
    | deliver d j => exact count_deliver hi hc hl (hf ops _ [] rfl)
    | other j => exact count_other hi hc
    | reload => exact count_load hi hc _ _ (Or.inl rfl)
    | restart => exact count_load hi hc _ _ (Or.inr rfl)

/-- **C96, partial.** Nothing comes late and no count is repeated after the user was out of the room. Then, once the own pollers have
delivered everything, the highlight count shown for a room the user is in is the last one upstream, and it is the one stored. -/
theorem C96_count_partial (ops : List Op) (ht : AllTimely ops) (hf : AllFresh ops) (hd : own ops = (run ops).hist.length)
    (hj : Last (run ops).hist (run ops).hist.length .join) :
    (run ops).urd.highlight = countAt (run ops).hist (run ops).hist.length ∧
      (run ops).stored = countAt (run ops).hist (run ops).hist.length := by
  have hi := inv_run ops ht
  have hc := count_run ops ht hf
  have h1 := hi.len
  have h2 := hc.le
  have e : reach ops = (run ops).hist.length := by omega
  rw [e, hd] at hc
  obtain ⟨h3, h4, -⟩ := hc.count (fun k m h5 h6 => by omega) hj
  exact ⟨h3, h4⟩

/-- The hypotheses are met, with a count after an accepted invite. -/
example : ∃ ops, AllTimely ops ∧ AllFresh ops ∧ own ops = (run ops).hist.length ∧
    Last (run ops).hist (run ops).hist.length .join ∧ (run ops).urd.highlight = 2 := by
  refine ⟨[.happen (.member .invite), .deliver 0 1, .happen (.member .join), .happen (.count 2), .deliver 0 3],
    allTimely_of (by decide +kernel), ?_, by decide +kernel, by decide +kernel, by decide +kernel⟩
  rintro pre o post e
  rcases pre with _ | ⟨a, _ | ⟨b, _ | ⟨c, _ | ⟨d, _ | ⟨e', pre⟩⟩⟩⟩⟩ <;>
    simp only [List.nil_append, List.cons_append, List.cons.injEq] at e
  · obtain ⟨rfl, -⟩ := e; trivial
  · obtain ⟨rfl, rfl, -⟩ := e
    exact ⟨by decide +kernel, fun h => absurd h (by decide +kernel)⟩
  · obtain ⟨rfl, rfl, rfl, -⟩ := e; trivial
  · obtain ⟨rfl, rfl, rfl, rfl, -⟩ := e; trivial
  · obtain ⟨rfl, rfl, rfl, rfl, rfl, -⟩ := e
    exact ⟨by decide +kernel, fun _ _ => by decide +kernel⟩
  · obtain ⟨-, -, -, -, -, e⟩ := e; simp at e

/-- A user who is told by their own poller that they left has no invite, no highlights and has left, until the next invite or reload. -/
theorem C96_left (ops : List Op) (d j : Nat) (hj : (run ops).pos d ≤ j ∧ j ≤ (run ops).hist.length)
    (hm : memAt (run ops).hist j = some .leave) (hn : between (run ops).hist ((run ops).pos d) j ≠ []) :
    (run (ops ++ [.deliver d j])).urd = { isInvite := false, hasLeft := true, highlight := 0 } := by
  have hlast : Membership.leave ∈ between (run ops).hist ((run ops).pos d) j := by
    unfold memAt at hm
    unfold between at hn ⊢
    have : members ((run ops).hist.take j) = members (((run ops).hist.take j).take ((run ops).pos d)) ++ members (((run ops).hist.take j).drop ((run ops).pos d)) := by
      unfold members
      rw [← List.filterMap_append, List.take_append_drop]
    rw [this, List.getLast?_append] at hm
    cases hg : (members (((run ops).hist.take j).drop ((run ops).pos d))).getLast? with
    | none => rw [List.getLast?_eq_none_iff] at hg; exact absurd hg hn
    | some m =>
      rw [hg] at hm
      simp only [Option.some_or, Option.some.injEq] at hm
      subst hm
      exact List.mem_of_getLast? hg
  rw [show run (ops ++ [.deliver d j]) = step (run ops) (.deliver d j) by simp [run]]
  simp only [step, hj, and_self, if_true, receive, hm, hn, if_false, hlast]
  rfl

/-- The shown state never says both that the user is invited and that they left. -/
theorem C96_not_both (ops : List Op) : (run ops).urd.isInvite = true → (run ops).urd.hasLeft = false := by
  have hev : ∀ (u : Urd) m, (u.isInvite = true → u.hasLeft = false) → (onEvent u m).isInvite = true → (onEvent u m).hasLeft = false := by
    intro u m h
    unfold onEvent
    split
    · split
      · exact h
      · intro h'; cases h'
    · exact h
  have hacc : ∀ (s : State) a b, (s.urd.isInvite = true → s.urd.hasLeft = false) → (accumulate s a b).urd.isInvite = true →
      (accumulate s a b).urd.hasLeft = false := by
    intro s a b h
    unfold accumulate
    simp only
    generalize between s.hist (max a s.top) b = l
    have : ∀ (l : List Membership) (s : State), (s.urd.isInvite = true → s.urd.hasLeft = false) →
        (l.foldl dispatch s).urd.isInvite = true → (l.foldl dispatch s).urd.hasLeft = false := by
      intro l
      induction l with
      | nil => intro s h; exact h
      | cons m l ih =>
        intro s h
        refine ih _ ?_
        unfold dispatch
        simp only
        split
        · exact hev _ _ h
        · exact h
    exact this l _ h
  have hun : ∀ (s : State) n, (s.urd.isInvite = true → s.urd.hasLeft = false) → (unread s n).urd.isInvite = true → (unread s n).urd.hasLeft = false := by
    intro s n h
    unfold unread
    split
    · exact h
    · exact h
  induction ops using Util.snocRec with
  | nil => intro h; cases h
  | append_singleton ops o ih =>
    rw [show run (ops ++ [o]) = step (run ops) o by simp [run]]
    generalize run ops = s at ih
    cases o with
    | happen x => exact ih
    | other j =>
      simp only [step]
      split
      · exact hacc _ _ _ ih
      · exact ih
    | reload => simp only [step, load]; split <;> simp [onInvite]
    | restart => simp only [step, load]; split <;> simp [onInvite]
    | deliver d j =>
      simp only [step]
      split
      · unfold receive
        simp only
        split
        · exact ih
        · split
          · intro _; rfl
          · exact ih
        · exact hun _ _ (hacc _ _ _ ih)
        · split
          · exact ih
          · split
            · intro h; cases h
            · split
              · exact hacc _ _ _ ih
              · exact ih
      · exact ih

/-- **C96 is violated for counts.** A user with one highlight leaves, which resets the count that is shown, and comes back; when the
next response has one highlight again, it is taken for a duplicate: none is shown. -/
theorem C96_violated_count :
    ∃ ops : List Op, AllTimely ops ∧ (run ops).pos 0 = (run ops).hist.length ∧
      Last (run ops).hist (run ops).hist.length .join ∧ countAt (run ops).hist (run ops).hist.length = 1 ∧
      (run ops).urd.highlight = 0 := by
  refine ⟨[.happen (.member .join), .happen (.count 1), .deliver 0 2, .happen (.member .leave), .deliver 0 3,
    .happen (.count 0), .happen (.member .join), .happen (.count 1), .deliver 0 6], allTimely_of (by decide +kernel), ?_, ?_, ?_, ?_⟩ <;>
    decide +kernel

end Verif.InviteFlow
