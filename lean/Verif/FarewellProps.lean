import Verif.Farewell
import Verif.ConnLoadProps
/-!
# C135: a user is told once that they are no longer in a room, and nothing else is disturbed by it
-/
namespace Verif.Farewell

/-! ## Specification -/

/-- The events a poller has. -/
def evsOf : Op → List Ev
  | .timeline tl => tl
  | .left tl => tl
  | .invite => []

/-- Nothing happens to the membership of the user but the leave `e`, and no invite is handled. Events are told apart by their ids. -/
def Only (e : Ev) (ops : List Op) : Prop :=
  (∀ o ∈ ops, o ≠ .invite) ∧ ∀ o ∈ ops, ∀ x ∈ evsOf o, (x.own.isSome = true ∨ x.id = e.id) → x = e

/-- A poller of the user has the leave in its `leave` section. -/
def leaves (e : Ev) : Op → Bool
  | .left tl => decide (e ∈ tl)
  | _ => false

/-- How often the connection was told. -/
def times (s : State) (e : Ev) : Nat := s.told.count e.id

/-! ## Proofs -/

/-- What the rest of the state says about the leave. -/
def Same (s t : State) : Prop := t.joined = s.joined ∧ t.invited = s.invited ∧ t.isInvite = s.isInvite

theorem acc1_other (s : State) (e x : Ev) (h1 : x.own = none) (h2 : x.id ≠ e.id) :
    Same s (accumulate1 s x) ∧ times (accumulate1 s x) e = times s e ∧ (e.id ∈ (accumulate1 s x).stored ↔ e.id ∈ s.stored) := by
  have h2' : ¬ e.id = x.id := fun h => h2 h.symm
  unfold accumulate1
  split
  · exact ⟨⟨rfl, rfl, rfl⟩, rfl, Iff.rfl⟩
  · simp only [dispatch, h1, track]
    split
    · refine ⟨⟨rfl, rfl, by simp [onNewEvent, h1]⟩, ?_, ?_⟩
      · simp [times, onNewEvent, h2]
      · simp [onNewEvent, h2']
    · exact ⟨⟨rfl, rfl, rfl⟩, rfl, by simp [h2']⟩

theorem acc1_known (s : State) (e : Ev) (h : e.id ∈ s.stored) : accumulate1 s e = s := if_pos h

theorem acc1_new (s : State) (e : Ev) (he : e.own = some .leave) (h : e.id ∉ s.stored) :
    (accumulate1 s e).isInvite = (s.isInvite && !(s.joined || s.invited)) ∧ e.id ∈ (accumulate1 s e).stored ∧
    times (accumulate1 s e) e = times s e + (s.joined || s.invited).toNat := by
  simp only [accumulate1, if_neg h, dispatch, he, track]
  by_cases ha : (s.joined || s.invited) = true
  · rw [if_pos ha, ha]
    simp [onNewEvent, he, times]
  · rw [if_neg ha]
    simp only [Bool.not_eq_true] at ha
    rw [ha]
    simp [times]

theorem acc_known (e : Ev) (tl : List Ev) (ht : ∀ x ∈ tl, (x.own.isSome = true ∨ x.id = e.id) → x = e) (s : State) (h : e.id ∈ s.stored) :
    (accumulate s tl).isInvite = s.isInvite ∧ times (accumulate s tl) e = times s e ∧ e.id ∈ (accumulate s tl).stored := by
  induction tl generalizing s with
  | nil => exact ⟨rfl, rfl, h⟩
  | cons x tl ih =>
    have e0 : accumulate s (x :: tl) = accumulate (accumulate1 s x) tl := rfl
    have ht' : ∀ y ∈ tl, (y.own.isSome = true ∨ y.id = e.id) → y = e := fun y hy => ht y (List.mem_cons_of_mem _ hy)
    by_cases hx : x = e
    · subst hx
      rw [e0, acc1_known s x h]
      exact ih ht' s h
    · have h1 : x.own = none := by
        cases ho : x.own with
        | none => rfl
        | some m => exact absurd (ht x (by simp) (.inl (by simp [ho]))) hx
      have h2 : x.id ≠ e.id := fun h => hx (ht x (by simp) (.inr h))
      obtain ⟨⟨-, -, k1⟩, k2, k3⟩ := acc1_other s e x h1 h2
      obtain ⟨i1, i2, i3⟩ := ih ht' (accumulate1 s x) (k3.2 h)
      rw [e0]
      exact ⟨i1.trans k1, i2.trans k2, i3⟩

theorem acc_new (e : Ev) (he : e.own = some .leave) (tl : List Ev) (ht : ∀ x ∈ tl, (x.own.isSome = true ∨ x.id = e.id) → x = e) (s : State)
    (h : e.id ∉ s.stored) :
    (e ∉ tl → Same s (accumulate s tl) ∧ times (accumulate s tl) e = times s e ∧ e.id ∉ (accumulate s tl).stored) ∧
    (e ∈ tl → (accumulate s tl).isInvite = (s.isInvite && !(s.joined || s.invited)) ∧ e.id ∈ (accumulate s tl).stored ∧
      times (accumulate s tl) e = times s e + (s.joined || s.invited).toNat) := by
  induction tl generalizing s with
  | nil => exact ⟨fun _ => ⟨⟨rfl, rfl, rfl⟩, rfl, h⟩, fun hm => by cases hm⟩
  | cons x tl ih =>
    have e0 : accumulate s (x :: tl) = accumulate (accumulate1 s x) tl := rfl
    have ht' : ∀ y ∈ tl, (y.own.isSome = true ∨ y.id = e.id) → y = e := fun y hy => ht y (List.mem_cons_of_mem _ hy)
    by_cases hx : x = e
    · subst hx
      refine ⟨fun hm => absurd (List.mem_cons_self ..) hm, fun _ => ?_⟩
      obtain ⟨k1, k2, k3⟩ := acc1_new s x he h
      obtain ⟨i1, i2, i3⟩ := acc_known x tl ht' (accumulate1 s x) k2
      rw [e0]
      exact ⟨i1.trans k1, i3, i2.trans k3⟩
    · have h1 : x.own = none := by
        cases ho : x.own with
        | none => rfl
        | some m => exact absurd (ht x (by simp) (.inl (by simp [ho]))) hx
      have h2 : x.id ≠ e.id := fun h => hx (ht x (by simp) (.inr h))
      obtain ⟨⟨ka, kb, k1⟩, k2, k3⟩ := acc1_other s e x h1 h2
      obtain ⟨i1, i2⟩ := ih ht' (accumulate1 s x) (fun hm => h (k3.1 hm))
      rw [e0]
      constructor
      · intro hm
        obtain ⟨⟨j1, j2, j3⟩, j4, j5⟩ := i1 (fun hm' => hm (List.mem_cons_of_mem _ hm'))
        exact ⟨⟨j1.trans ka, j2.trans kb, j3.trans k1⟩, j4.trans k2, j5⟩
      · intro hm
        have hm' : e ∈ tl := by
          rcases List.mem_cons.1 hm with rfl | hm'
          · exact absurd rfl hx
          · exact hm'
        obtain ⟨j1, j2, j3⟩ := i2 hm'
        rw [ka, kb, k1] at j1
        rw [ka, kb, k2] at j3
        exact ⟨j1, j2, j3⟩

theorem find_leave (e : Ev) (he : e.own = some .leave) (tl : List Ev) (ht : ∀ x ∈ tl, (x.own.isSome = true ∨ x.id = e.id) → x = e) :
    tl.find? isLeave = if e ∈ tl then some e else none := by
  induction tl with
  | nil => rfl
  | cons x tl ih =>
    have ih := ih fun y hy => ht y (List.mem_cons_of_mem _ hy)
    by_cases hx : x = e
    · subst hx
      simp [isLeave, he]
    · have h1 : isLeave x = false := by
        cases hl : isLeave x with
        | false => rfl
        | true =>
          have : x.own = some .leave := by simpa [isLeave] using hl
          exact absurd (ht x (by simp) (.inl (by simp [this]))) hx
      have h2 : ¬ e = x := fun h => hx h.symm
      rw [List.find?_cons, h1, ih]
      simp [h2]

/-- What the sections of the user's pollers add. -/
def extra (isInvite byOther : Bool) (n : Nat) : Nat := if byOther then n else if isInvite && decide (0 < n) then 1 else 0

theorem extra_left (i b : Bool) (n : Nat) : (i || b).toNat + extra false b n = extra i b (n + 1) := by
  cases i <;> cases b <;> simp [extra, Nat.add_comm]

theorem times_left (s : State) (e : Ev) : times (onLeftRoom s e) e = times s e + (s.isInvite || e.byOther).toNat := by
  unfold times onLeftRoom
  by_cases h : (s.isInvite || e.byOther) = true
  · simp [h]
  · simp only [Bool.not_eq_true] at h
    simp [h]

theorem run_known (e : Ev) (he : e.own = some .leave) (ops : List Op) (ho : Only e ops) (s : State) (h : e.id ∈ s.stored) :
    times (run s ops) e = times s e + extra s.isInvite e.byOther (ops.countP (leaves e)) := by
  induction ops generalizing s with
  | nil => cases hb : e.byOther <;> simp [run, extra]
  | cons o ops ih =>
    have ho' : Only e ops := ⟨fun p hp => ho.1 p (List.mem_cons_of_mem _ hp), fun p hp => ho.2 p (List.mem_cons_of_mem _ hp)⟩
    have e0 : run s (o :: ops) = run (step s o) ops := rfl
    cases o with
    | invite => exact absurd rfl (ho.1 .invite (by simp))
    | timeline tl =>
      obtain ⟨k1, k2, k3⟩ := acc_known e tl (ho.2 (.timeline tl) (by simp)) s h
      rw [e0]
      show times (run (accumulate s tl) ops) e = _
      rw [ih ho' _ k3, k2, k1]
      rfl
    | left tl =>
      have hq := ho.2 (.left tl) (by simp)
      obtain ⟨k1, k2, k3⟩ := acc_known e tl hq s h
      by_cases hm : e ∈ tl
      · have es : step s (.left tl) = onLeftRoom (accumulate s tl) e := by
          simp only [step]; rw [find_leave e he tl hq, if_pos hm]
        rw [e0, es, ih ho' (onLeftRoom (accumulate s tl) e) k3, times_left, k2, k1, List.countP_cons]
        have : leaves e (.left tl) = true := by simp [leaves, hm]
        rw [if_pos this, ← extra_left]
        show _ + _ + extra false e.byOther _ = _
        omega
      · have es : step s (.left tl) = accumulate s tl := by
          simp only [step]; rw [find_leave e he tl hq, if_neg hm]
        rw [e0, es, ih ho' _ k3, k2, k1, List.countP_cons]
        have : ¬ leaves e (.left tl) = true := by simp [leaves, hm]
        rw [if_neg this]
        rfl

/-- **C135 (how often).** From any state, with any pollers handing in the leave event and any other events in any order: the user is told
of the leave once by the dispatcher if it knew them as joined or invited, and in addition once for each of the user's own pollers
if they were kicked, or once if it was a pending invite that the dispatcher did not know of. -/
theorem C135_count (s : State) (e : Ev) (he : e.own = some .leave) (hn : e.id ∉ s.stored) (ops : List Op) (ho : Only e ops)
    (hm : ∃ o ∈ ops, e ∈ evsOf o) :
    times (run s ops) e = times s e + (s.joined || s.invited).toNat +
      (if e.byOther then ops.countP (leaves e)
       else if s.isInvite ∧ ¬ (s.joined || s.invited) = true ∧ 0 < ops.countP (leaves e) then 1 else 0) := by
  have main : times (run s ops) e = times s e + (s.joined || s.invited).toNat +
      extra (s.isInvite && !(s.joined || s.invited)) e.byOther (ops.countP (leaves e)) := by
    induction ops generalizing s with
    | nil => obtain ⟨o, ho, -⟩ := hm; cases ho
    | cons o ops ih =>
      have ho' : Only e ops := ⟨fun p hp => ho.1 p (List.mem_cons_of_mem _ hp), fun p hp => ho.2 p (List.mem_cons_of_mem _ hp)⟩
      have e0 : run s (o :: ops) = run (step s o) ops := rfl
      have hq := ho.2 o (by simp)
      obtain ⟨hno, hyes⟩ := acc_new e he (evsOf o) hq s hn
      by_cases hin : e ∈ evsOf o
      · obtain ⟨k1, k2, k3⟩ := hyes hin
        cases o with
        | invite => cases hin
        | timeline tl =>
          rw [e0]
          show times (run (accumulate s tl) ops) e = _
          rw [run_known e he ops ho' (accumulate s tl) k2]
          rw [show times (accumulate s tl) e = _ from k3, show (accumulate s tl).isInvite = _ from k1]
          rfl
        | left tl =>
          have hin' : e ∈ tl := hin
          have es : step s (.left tl) = onLeftRoom (accumulate s tl) e := by
            simp only [step]; rw [find_leave e he tl hq, if_pos hin']
          rw [e0, es, run_known e he ops ho' (onLeftRoom (accumulate s tl) e) k2, times_left]
          rw [show times (accumulate s tl) e = _ from k3, show (accumulate s tl).isInvite = _ from k1, List.countP_cons]
          have : leaves e (.left tl) = true := by simp [leaves, hin']
          rw [if_pos this, ← extra_left]
          show _ + _ + _ + extra false e.byOther _ = _
          omega
      · obtain ⟨⟨j1, j2, j3⟩, k2, k3⟩ := hno hin
        have hm' : ∃ o ∈ ops, e ∈ evsOf o := by
          obtain ⟨p, hp, hpe⟩ := hm
          rcases List.mem_cons.1 hp with rfl | hp
          · exact absurd hpe hin
          · exact ⟨p, hp, hpe⟩
        cases o with
        | invite => exact absurd rfl (ho.1 .invite (by simp))
        | timeline tl =>
          rw [e0]
          show times (run (accumulate s tl) ops) e = _
          rw [ih (accumulate s tl) k3 ho' hm']
          rw [show (accumulate s tl).joined = _ from j1, show (accumulate s tl).invited = _ from j2,
            show (accumulate s tl).isInvite = _ from j3, show times (accumulate s tl) e = _ from k2]
          rfl
        | left tl =>
          have hin' : ¬ e ∈ tl := hin
          have es : step s (.left tl) = accumulate s tl := by
            simp only [step]; rw [find_leave e he tl hq, if_neg hin']
          rw [e0, es, ih (accumulate s tl) k3 ho' hm']
          rw [show (accumulate s tl).joined = _ from j1, show (accumulate s tl).invited = _ from j2,
            show (accumulate s tl).isInvite = _ from j3, show times (accumulate s tl) e = _ from k2, List.countP_cons]
          have : ¬ leaves e (.left tl) = true := by simp [leaves, hin']
          rw [if_neg this]
          rfl
  rw [main]
  congr 1
  unfold extra
  cases e.byOther <;> cases s.isInvite <;> cases s.joined <;> cases s.invited <;> simp

/-- **C135 (once).** Someone who leaves, or rejects an invite, is told exactly once, however many pollers they have and whoever hands in the
event first; provided they were joined or invited. -/
theorem C135_once_partial (s : State) (e : Ev) (he : e.own = some .leave) (hk : e.byOther = false) (hn : e.id ∉ s.stored) (h0 : times s e = 0)
    (ops : List Op) (ho : Only e ops) (hm : ∃ o ∈ ops, leaves e o = true) (hin : s.joined = true ∨ s.invited = true ∨ s.isInvite = true) :
    times (run s ops) e = 1 := by
  obtain ⟨o, ho1, ho2⟩ := hm
  have hm' : ∃ o ∈ ops, e ∈ evsOf o := by
    refine ⟨o, ho1, ?_⟩
    cases o with
    | left tl => simpa [leaves, evsOf] using ho2
    | timeline tl => simp [leaves] at ho2
    | invite => simp [leaves] at ho2
  rw [C135_count s e he hn ops ho hm', h0, hk]
  cases hj : s.joined <;> cases hi : s.invited <;> simp [hj, hi] at hin ⊢
  exact ⟨hin, o, ho1, ho2⟩

/-- Someone kicked from a room they had joined is told twice, by a single poller: the event is dispatched, and sent once more outside
of the log. -/
theorem C135_violated_kick : ∃ (s : State) (e : Ev), s.joined = true ∧ e = { id := 7, own := some .leave, byOther := true } ∧
    (run s [.left [e]]).told = [7, 7] :=
  ⟨{ joined := true }, _, rfl, rfl, rfl⟩

/-- With `n` pollers a kicked user is told `n + 1` times. -/
theorem C135_violated_devices (n : Nat) (hn : 0 < n) : ∃ (s : State) (e : Ev), s.told = [] ∧ e.own = some .leave ∧
    times (run s (List.replicate n (.left [e]))) e = n + 1 := by
  refine ⟨{ joined := true }, { id := 7, own := some .leave, byOther := true }, rfl, rfl, ?_⟩
  rw [C135_count _ _ rfl (by simp) _ ⟨?_, ?_⟩ ⟨.left [{ id := 7, own := some .leave, byOther := true }], List.mem_replicate.2 ⟨by omega, rfl⟩, List.mem_singleton.2 rfl⟩]
  · simp [times, List.countP_replicate, leaves, Nat.add_comm]
  · intro o ho h
    rw [h] at ho
    simp at ho
  · intro o ho x hx _
    rw [List.mem_replicate] at ho
    rw [ho.2] at hx
    simpa [evsOf] using hx

/-- A rejected invite is told twice if another poller in the room hands in the rejection before the user's own has handed in the invite. -/
theorem C135_violated_race : (run {} [.timeline [⟨1, some .invite, true⟩, ⟨2, some .leave, false⟩], .invite, .left [⟨2, some .leave, false⟩]]).told
    = [2, 2] := rfl

/-- Someone banned while invited to a room the proxy does not know the members of is not told, and stays invited. -/
theorem C135_violated_ban : (run {} [.invite, .left [⟨1, some .ban, true⟩]]).told = [] ∧
    (run {} [.invite, .left [⟨1, some .ban, true⟩]]).isInvite = true := ⟨rfl, rfl⟩

/-- A joined user with two pollers leaves while others talk; a pending invite of an unknown room is rejected. -/
example : times (run { joined := true } [.timeline [⟨1, none, true⟩, ⟨2, some .leave, false⟩], .left [⟨2, some .leave, false⟩], .left [⟨2, some .leave, false⟩]])
      ⟨2, some .leave, false⟩ = 1 ∧
    times (run { isInvite := true } [.left [⟨2, some .leave, false⟩], .left [⟨2, some .leave, false⟩]]) ⟨2, some .leave, false⟩ = 1 := by
  decide
example : Only ⟨2, some .leave, false⟩ [.timeline [⟨1, none, true⟩, ⟨2, some .leave, false⟩], .left [⟨2, some .leave, false⟩]] := by
  constructor
  · intro o ho h; subst h; simp at ho
  · intro o ho x hx h
    simp only [List.mem_cons, List.not_mem_nil, or_false] at ho
    rcases ho with rfl | rfl <;> simp [evsOf] at hx
    · rcases hx with rfl | rfl
      · simp at h
      · rfl
    · exact hx

/-! ## At the connection -/

/-- The same without what is sent outside of the log; the rooms loaded with it are loaded as for a request. -/
def base : COp → ConnLoad.Op
  | .base o => o
  | .always _ _ _ xs => .request xs

/-- The events of the log in a timeline. -/
def logOnly (l : List Item) : List Nat := l.filterMap fun | .log n => some n | .out _ => none

/-- The client has the same events of the log as without. -/
def Agree (s : Conn) : Prop := ∀ r, (s.tl r).map logOnly = s.c.view r

theorem logOnly_append (a b : List Item) : logOnly (a ++ b) = logOnly a ++ logOnly b := List.filterMap_append ..

theorem logOnly_map (l : List Nat) : logOnly (l.map .log) = l := by
  simp [logOnly, List.filterMap_map, Function.comp_def]

theorem agree_load1 (s : Conn) (h : Agree s) (x : Nat × Nat) : Agree (load1 s x) := by
  intro r
  simp only [load1, ConnLoad.load1, ConnLoad.set]
  split
  · simp [logOnly_map]
  · exact h r

theorem agree_loads (xs : List (Nat × Nat)) (s : Conn) (h : Agree s) : Agree (loads s xs) ∧ (loads s xs).c = ConnLoad.loads s.c xs := by
  induction xs generalizing s with
  | nil => exact ⟨h, rfl⟩
  | cons x xs ih => exact ih (load1 s x) (agree_load1 s h x)

theorem agree_deliver (s : Conn) (h : Agree s) (r n : Nat) (vis : Bool) (xs : List (Nat × Nat)) :
    Agree (deliver s r n vis xs) ∧ (deliver s r n vis xs).c = ConnLoad.deliver s.c r n vis xs := by
  unfold deliver ConnLoad.deliver
  by_cases hs : 0 < s.c.lp r ∧ n < s.c.lp r
  · rw [if_pos hs, if_pos hs]
    exact ⟨h, rfl⟩
  · rw [if_neg hs, if_neg hs]
    obtain ⟨k1, k2⟩ := agree_loads xs { s with c := { s.c with anchor := max s.c.anchor n } } h
    dsimp only
    rw [← k2]
    generalize loads { s with c := { s.c with anchor := max s.c.anchor n } } xs = s1 at k1 k2
    cases vis with
    | true =>
      refine ⟨fun q => ?_, rfl⟩
      simp only [if_true, ConnLoad.appendLive]
      by_cases hl : n ≤ s1.c.lp r
      · rw [if_pos hl, if_pos hl]
        exact k1 q
      · rw [if_neg hl, if_neg hl]
        simp only [ConnLoad.set]
        by_cases hq : q = r
        · subst hq
          rw [if_pos rfl, if_pos rfl, Option.map_some, logOnly_append, ← k1 q]
          cases s1.tl q <;> rfl
        · rw [if_neg hq, if_neg hq]
          exact k1 q
    | false =>
      by_cases hx : xs.any (·.1 = r) = true
      · simp only [Bool.false_eq_true, if_false, hx, if_true]
        exact ⟨k1, trivial⟩
      · simp only [Bool.false_eq_true, if_false, hx]
        refine ⟨fun q => ?_, trivial⟩
        simp only [ConnLoad.set]
        by_cases hq : q = r
        · rw [if_pos hq, if_pos hq]; rfl
        · rw [if_neg hq, if_neg hq]
          exact k1 q

theorem agree_step (s : Conn) (h : Agree s) (o : COp) : Agree (cstep s o) ∧ (cstep s o).c = ConnLoad.step s.c (base o) := by
  cases o with
  | base o =>
    cases o with
    | append r => exact ⟨h, rfl⟩
    | request xs => exact agree_loads xs s h
    | deliver i vis xs =>
      simp only [cstep, base, ConnLoad.step]
      cases s.c.log[i]? with
      | none => exact ⟨h, rfl⟩
      | some r => exact agree_deliver s h r (i + 1) vis xs
  | always r e vis xs =>
    obtain ⟨k1, k2⟩ := agree_loads xs s h
    simp only [cstep, always, base, ConnLoad.step]
    cases vis with
    | false => exact ⟨k1, k2⟩
    | true =>
      refine ⟨fun q => ?_, k2⟩
      simp only [if_true, ConnLoad.set]
      split
      · next hq =>
        subst hq
        rw [← k1 q]
        cases (loads s xs).tl q <;> simp [logOnly]
      · exact k1 q

/-- **C135 (undisturbed).** What is sent outside of the log neither moves a position nor takes an event of the log out of a timeline or puts one
in: without it, the client would have the same events of the log. -/
theorem C135_undisturbed (log : List Nat) (ops : List COp) :
    (crun (connect log) ops).c = ConnLoad.run (ConnLoad.connect log) (ops.map base) ∧
    ∀ r, ((crun (connect log) ops).tl r).map logOnly = (ConnLoad.run (ConnLoad.connect log) (ops.map base)).view r := by
  have main : ∀ (ops : List COp) (s : Conn), Agree s → Agree (crun s ops) ∧ (crun s ops).c = ConnLoad.run s.c (ops.map base) := by
    intro ops
    induction ops with
    | nil => intro s h; exact ⟨h, rfl⟩
    | cons o ops ih =>
      intro s h
      obtain ⟨k1, k2⟩ := agree_step s h o
      obtain ⟨i1, i2⟩ := ih (cstep s o) k1
      refine ⟨i1, ?_⟩
      rw [show crun s (o :: ops) = crun (cstep s o) ops from rfl, i2, k2]
      rfl
  obtain ⟨h1, h2⟩ := main ops (connect log) (fun r => rfl)
  refine ⟨h2, fun r => ?_⟩
  rw [h1 r, h2]
  rfl

/-- **C135 and C24.** With events sent outside of the log at any time, the events of the log the client has of a room are still a
contiguous part of the room's events, ending at the load position (under the conditions of C24). -/
theorem C135_stream_partial (log : List Nat) (q : Nat) (hq : q ≤ log.length) (ops : List COp) (hp : ConnLoad.PosLimits (ops.map base))
    (ho : ConnLoad.InOrder log.length q (ops.map base)) (r : Nat) (l : List Item) (hv : (crun (connect log) ops).tl r = some l) :
    ∃ before after, ConnLoad.evs (crun (connect log) ops).c.log r = before ++ logOnly l ++ after ∧
      (∀ e ∈ before ++ logOnly l, e ≤ (crun (connect log) ops).c.lp r) ∧ (∀ e ∈ after, (crun (connect log) ops).c.lp r < e) := by
  obtain ⟨h1, h2⟩ := C135_undisturbed log ops
  rw [h1]
  refine ConnLoad.C24_stream_partial log q hq (ops.map base) hp ho r (logOnly l) ?_
  rw [← h2 r, hv]
  rfl

/-- A kick between two events of the room, sent outside of the log and as part of it. -/
example : ConnLoad.InOrder 1 1 ([COp.base (.request [(0, 5)]), .base (.append 0), .base (.deliver 1 true []), .always 0 9 true [],
      .base (.append 0), .base (.deliver 2 true [])].map base) ∧
    (crun (connect [0]) [.base (.request [(0, 5)]), .base (.append 0), .base (.deliver 1 true []), .always 0 9 true [],
      .base (.append 0), .base (.deliver 2 true [])]).tl 0 = some [.log 1, .log 2, .out 9, .log 3] := by
  refine ⟨⟨rfl, by decide, rfl, by decide, trivial⟩, by decide⟩

end Verif.Farewell
