import Verif.Supersede
/-!
# C146: a request is not kept waiting by an older one

The claims are about who can keep a request waiting. `Waits s h`: the request `h` is served and nothing tells it to stop, so that it may
hold the lock until its timeout.
-/
namespace Verif.Supersede

/-! ## Specification -/

/-- `h` has the connection for as long as it likes. -/
def Waits (s : St) (h : Nat) : Prop := s.phase h = .running ∧ s.cancelled h = false

/-- A request between looking for its connection and being served. -/
def Between : Phase → Prop
  | .found => True
  | .bound => True
  | .come => True
  | .locked => True
  | _ => False

/-- A client that sends a request only when those before are being served or answered; none is refused for its form. -/
def Orderly (s : St) : List Op → Prop
  | [] => True
  | o :: os =>
    (∀ i, o = .find i → ∀ j, ¬ Between (s.phase j)) ∧ (∀ i, o ≠ .drop i) ∧ ∀ s', step s o = some s' → Orderly s' os

/-! ## Invariants -/

structure Inv (s : St) : Prop where
  held : ∀ h, s.mu = some h → s.phase h = .locked ∨ s.phase h = .running
  locked : ∀ h, s.phase h = .locked → s.mu = some h
  running : ∀ h, s.phase h = .running → s.mu = some h ∧ s.out = some h

theorem inv_init : Inv {} := ⟨by simp, by simp, by simp⟩

theorem set_eq {α : Type} (f : Nat → α) (i : Nat) (v : α) (j : Nat) : set f i v j = if j = i then v else f j := rfl

theorem cancel_mono {c : Nat → Bool} {o : Option Nat} {i : Nat} (h : c i = true) : cancel c o i = true := by
  cases o with
  | none => exact h
  | some k => simp only [cancel, set_eq]; split <;> simp_all

theorem cancel_self {c : Nat → Bool} {i : Nat} : cancel c (some i) i = true := by simp [cancel, set_eq]

theorem step_inv {s s' : St} (h : Inv s) {o : Op} (hs : step s o = some s') : Inv s' := by
  obtain ⟨h1, h2, h3⟩ := h
  cases o <;> simp only [step, Option.ite_none_right_eq_some, Option.some.injEq] at hs
  case close => subst hs; exact ⟨h1, h2, h3⟩
  case destroy => obtain ⟨_, rfl⟩ := hs; exact ⟨h1, h2, h3⟩
  all_goals
    obtain ⟨hp, rfl⟩ := hs
    refine ⟨fun k hk => ?_, fun k hk => ?_, fun k hk => ?_⟩ <;> simp only [set_eq] at hk ⊢ <;> grind

theorem run_inv {s s' : St} (h : Inv s) {os : List Op} (hs : run s os = some s') : Inv s' := by
  induction os generalizing s with
  | nil => cases hs; exact h
  | cons o os ih =>
    simp only [run, Option.bind_eq_some_iff] at hs
    obtain ⟨s1, h1, h2⟩ := hs
    exact ih (step_inv h h1) h2

theorem run_split {s s' : St} {a b : List Op} (h : run s (a ++ b) = some s') : ∃ s1, run s a = some s1 ∧ run s1 b = some s' := by
  induction a generalizing s with
  | nil => exact ⟨s, rfl, h⟩
  | cons o a ih =>
    simp only [List.cons_append, run, Option.bind_eq_some_iff] at h ⊢
    obtain ⟨s1, h1, h2⟩ := h
    obtain ⟨s2, h3, h4⟩ := ih h2
    exact ⟨s2, ⟨s1, h1, h3⟩, h4⟩

theorem step_waits {s s' : St} {o : Op} {h : Nat} (hs : step s o = some s') (hw : Waits s' h) : Waits s h ∨ o = .register h := by
  have hmono : ∀ {c : Nat → Bool} {k : Option Nat}, cancel c k h = false → c h = false := by
    intro c k hc
    cases hb : c h with
    | false => rfl
    | true => rw [cancel_mono hb] at hc; cases hc
  obtain ⟨hw1, hw2⟩ := hw
  cases o <;> simp only [step, Option.ite_none_right_eq_some, Option.some.injEq] at hs
  case close => subst hs; exact .inl ⟨hw1, hw2⟩
  case destroy => obtain ⟨_, rfl⟩ := hs; exact .inl ⟨hw1, hmono hw2⟩
  case arrive i =>
    obtain ⟨hp, rfl⟩ := hs
    simp only [set_eq] at hw1
    by_cases hi : h = i
    · rw [if_pos hi] at hw1; cases hw1
    · rw [if_neg hi] at hw1; exact .inl ⟨hw1, hmono hw2⟩
  case register i =>
    obtain ⟨hp, rfl⟩ := hs
    simp only [set_eq] at hw1
    by_cases hi : h = i
    · right; rw [hi]
    · rw [if_neg hi] at hw1; exact .inl ⟨hw1, hw2⟩
  all_goals
    obtain ⟨hp, rfl⟩ := hs
    simp only [set_eq] at hw1
    split at hw1
    · cases hw1
    · exact .inl ⟨hw1, hw2⟩

theorem run_waits {s s' : St} {os : List Op} {h : Nat} (hs : run s os = some s') (hw : Waits s' h) : Waits s h ∨ .register h ∈ os := by
  induction os generalizing s with
  | nil => cases hs; exact .inl hw
  | cons o os ih =>
    simp only [run, Option.bind_eq_some_iff] at hs
    obtain ⟨s1, h1, h2⟩ := hs
    rcases ih h2 with h3 | h3
    · rcases step_waits h1 h3 with h4 | h4
      · exact .inl h4
      · exact .inr (h4 ▸ List.mem_cons_self ..)
    · exact .inr (List.mem_cons_of_mem _ h3)

theorem arrive_none {s s' : St} (hi : Inv s) {b : Nat} (hs : step s (.arrive b) = some s') (h : Nat) : ¬ Waits s' h := by
  intro hw
  rcases step_waits hs hw with h1 | h1
  · simp only [step, Option.ite_none_right_eq_some, Option.some.injEq] at hs
    obtain ⟨_, rfl⟩ := hs
    have : cancel s.cancelled s.out h = false := hw.2
    rw [(hi.running h h1.1).2, cancel_self] at this
    cases this
  · cases h1

/-! ## C146 -/

/-- C146: a request that has come is kept waiting only by requests which had not begun to be served when it came. -/
theorem C146_older {a c : List Op} {b : Nat} {s : St} (hr : run {} (a ++ .arrive b :: c) = some s) (h : Nat) (hw : Waits s h) :
    .register h ∈ c := by
  obtain ⟨s1, h1, h2⟩ := run_split hr
  simp only [run, Option.bind_eq_some_iff] at h2
  obtain ⟨s2, h3, h4⟩ := h2
  rcases run_waits h4 hw with h5 | h5
  · exact absurd h5 (arrive_none (run_inv inv_init h1) h3 h)
  · exact h5

/-- Nobody but `b` is about to be served, and whoever is served is told to stop. -/
structure Next (s : St) (b : Nat) : Prop where
  only : ∀ i, i ≠ b → s.phase i ≠ .come ∧ s.phase i ≠ .locked
  told : ∀ i, i ≠ b → ¬ Waits s i

theorem step_next {s s' : St} {b : Nat} (h : Next s b) {o : Op} (ho : ∀ i, o ≠ .arrive i) (hs : step s o = some s') : Next s' b := by
  refine ⟨fun i hi => ?_, fun i hi hw => ?_⟩
  · have := h.only i hi
    cases o <;> simp only [step, Option.ite_none_right_eq_some, Option.some.injEq] at hs
    case close => subst hs; exact this
    case destroy => obtain ⟨_, rfl⟩ := hs; exact this
    case arrive j => exact absurd rfl (ho j)
    all_goals
      obtain ⟨hp, rfl⟩ := hs
      simp only [set_eq]
      grind
  · rcases step_waits hs hw with h1 | h1
    · exact h.told i hi h1
    · subst h1
      simp only [step, Option.ite_none_right_eq_some, Option.some.injEq] at hs
      exact (h.only i hi).2 hs.1

theorem run_next {s s' : St} {b : Nat} (h : Next s b) {os : List Op} (ho : ∀ i, .arrive i ∉ os) (hs : run s os = some s') :
    Next s' b := by
  induction os generalizing s with
  | nil => cases hs; exact h
  | cons o os ih =>
    simp only [run, Option.bind_eq_some_iff] at hs
    obtain ⟨s1, h1, h2⟩ := hs
    exact ih (step_next h (fun i hi => ho i (hi ▸ List.mem_cons_self ..)) h1) (fun i hi => ho i (List.mem_cons_of_mem _ hi)) h2

/-- C146: if no other request was about to be served when the newest one came, then as long as it waits the one that is served is told to
stop, and once it has stopped the newest one can be served: no timeout has to pass. Missing: two requests that come at once, see
`C146_violated_two` and `C146_violated_three`. -/
theorem C146_prompt_partial {a c : List Op} {b : Nat} {s0 s : St} (h0 : run {} a = some s0)
    (hq : ∀ i, i ≠ b → s0.phase i ≠ .come ∧ s0.phase i ≠ .locked) (hc : ∀ i, .arrive i ∉ c)
    (hr : run s0 (.arrive b :: c) = some s) (hb : s.phase b = .come) :
    (∀ h, s.mu = some h → s.phase h = .running ∧ s.cancelled h = true) ∧
      (run s (s.mu.toList.map Op.quit ++ [.lock b, .register b])).map (·.phase b) = some .running := by
  have hi0 := run_inv inv_init h0
  simp only [run, Option.bind_eq_some_iff] at hr
  obtain ⟨s1, h1, h2⟩ := hr
  have hn1 : Next s1 b := by
    refine ⟨fun i hi => ?_, fun i _ => arrive_none hi0 h1 i⟩
    have := hq i hi
    simp only [step, Option.ite_none_right_eq_some, Option.some.injEq] at h1
    obtain ⟨_, rfl⟩ := h1
    simpa only [set_eq, if_neg hi] using this
  have hn := run_next hn1 hc h2
  have hi := run_inv (step_inv hi0 h1) h2
  have hmu : ∀ h, s.mu = some h → s.phase h = .running ∧ s.cancelled h = true := by
    intro h hm
    have hne : h ≠ b := by
      rintro rfl
      rcases hi.held h hm with hp | hp <;> rw [hb] at hp <;> cases hp
    have hp := (hi.held h hm).resolve_left (hn.only h hne).2
    refine ⟨hp, ?_⟩
    cases hcc : s.cancelled h with
    | true => rfl
    | false => exact absurd ⟨hp, hcc⟩ (hn.told h hne)
  refine ⟨hmu, ?_⟩
  cases hm : s.mu with
  | none => simp [run, step, hb, hm, set_eq]
  | some h =>
    obtain ⟨hp, hcc⟩ := hmu h hm
    have hne : b ≠ h := by rintro rfl; rw [hb] at hp; cases hp
    simp [run, step, hb, hp, hcc, set_eq, if_neg hne]

/-! ## A connection that is closed -/

structure Calm (s : St) : Prop where
  one : ∀ i j, Between (s.phase i) → Between (s.phase j) → i = j
  last : ∀ i, s.phase i = .bound ∨ s.phase i = .come ∨ s.phase i = .locked → s.latest = some i
  mine : ∀ h, Waits s h → s.latest = some h ∨ ∃ j, s.phase j = .bound

theorem calm_init : Calm {} := ⟨(fun _ _ h => h.elim), by simp, (fun _ hw => nomatch hw.1)⟩

theorem step_calm {s s' : St} (hi : Inv s) (h : Calm s) {o : Op} (hf : ∀ i, o = .find i → ∀ j, ¬ Between (s.phase j))
    (hd : ∀ i, o ≠ .drop i) (hs : step s o = some s') : Calm s' := by
  have hw := fun k => @step_waits s s' o k hs
  have ha : ∀ b, o = .arrive b → ∀ k, ¬ Waits s' k := fun b hb k => arrive_none hi (hb ▸ hs) k
  obtain ⟨h1, h2, h3⟩ := h
  have hne : ∀ k, Waits s k → ∀ j, Between (s.phase j) → k ≠ j := by
    rintro k hk j hj rfl
    rw [hk.1] at hj
    exact hj
  cases o <;> simp only [step, Option.ite_none_right_eq_some, Option.some.injEq] at hs
  case close => subst hs; exact ⟨h1, h2, h3⟩
  case destroy =>
    obtain ⟨_, rfl⟩ := hs
    exact ⟨h1, h2, fun k hk => h3 k ((hw k hk).resolve_right (by simp))⟩
  case drop i => exact absurd rfl (hd i)
  case find i =>
    obtain ⟨hp, rfl⟩ := hs
    have hn := hf i rfl
    refine ⟨?_, ?_, ?_⟩
    · intro a b ha hb
      simp only [set_eq] at ha hb
      by_cases h1 : a = i <;> by_cases h2 : b = i
      · rw [h1, h2]
      · rw [if_neg h2] at hb; exact absurd hb (hn b)
      · rw [if_neg h1] at ha; exact absurd ha (hn a)
      · rw [if_neg h1] at ha; exact absurd ha (hn a)
    · intro a ha
      simp only [set_eq] at ha
      by_cases h1 : a = i
      · rw [if_pos h1] at ha; simp at ha
      · rw [if_neg h1] at ha; exact h2 a ha
    · intro k hk
      rcases h3 k ((hw k hk).resolve_right (by simp)) with h | ⟨j, hj⟩
      · exact .inl h
      · exact absurd (by rw [hj]; trivial) (hn j)
  case bind i =>
    obtain ⟨hp, rfl⟩ := hs
    have hbi : Between (s.phase i) := by rw [hp]; trivial
    have hbt : ∀ a, Between (set s.phase i .bound a) → Between (s.phase a) := by
      intro a ha
      by_cases h : a = i
      · rw [h]; exact hbi
      · simpa only [set_eq, if_neg h] using ha
    refine ⟨fun a b ha hb => h1 a b (hbt a ha) (hbt b hb), ?_, ?_⟩
    · intro a ha
      have : Between (set s.phase i .bound a) := by
        dsimp only at ha
        rcases ha with h | h | h <;> rw [h] <;> trivial
      dsimp only
      rw [h1 a i (hbt a this) hbi]
    · intro k _
      exact .inr ⟨i, by simp [set_eq]⟩
  case arrive i =>
    obtain ⟨hp, rfl⟩ := hs
    have hbi : Between (s.phase i) := by rw [hp]; trivial
    have hbt : ∀ a, Between (set s.phase i .come a) → Between (s.phase a) := by
      intro a ha
      by_cases h : a = i
      · rw [h]; exact hbi
      · simpa only [set_eq, if_neg h] using ha
    refine ⟨fun a b ha hb => h1 a b (hbt a ha) (hbt b hb), ?_, ?_⟩
    · intro a ha
      simp only [set_eq] at ha
      by_cases h : a = i
      · rw [h]; exact h2 i (.inl hp)
      · rw [if_neg h] at ha; exact h2 a ha
    · intro k hk
      exact absurd hk (ha i rfl k)
  case lock i =>
    obtain ⟨hp, rfl⟩ := hs
    have hbi : Between (s.phase i) := by rw [hp.1]; trivial
    have hbt : ∀ a, Between (set s.phase i .locked a) → Between (s.phase a) := by
      intro a ha
      by_cases h : a = i
      · rw [h]; exact hbi
      · simpa only [set_eq, if_neg h] using ha
    refine ⟨fun a b ha hb => h1 a b (hbt a ha) (hbt b hb), ?_, ?_⟩
    · intro a ha
      simp only [set_eq] at ha
      by_cases h : a = i
      · rw [h]; exact h2 i (.inr (.inl hp.1))
      · rw [if_neg h] at ha; exact h2 a ha
    · intro k hk
      rcases h3 k ((hw k hk).resolve_right (by simp)) with h | ⟨j, hj⟩
      · exact .inl h
      · have := h1 j i (by rw [hj]; trivial) hbi
        rw [this, hp.1] at hj
        cases hj
  case register i =>
    obtain ⟨hp, rfl⟩ := hs
    have hbi : Between (s.phase i) := by rw [hp]; trivial
    have hbt : ∀ a, Between (set s.phase i .running a) → Between (s.phase a) ∧ a ≠ i := by
      intro a ha
      by_cases h : a = i
      · rw [h] at ha; simp only [set_eq, if_true] at ha; exact ha.elim
      · exact ⟨by simpa only [set_eq, if_neg h] using ha, h⟩
    refine ⟨fun a b ha hb => h1 a b (hbt a ha).1 (hbt b hb).1, ?_, ?_⟩
    · intro a ha
      simp only [set_eq] at ha
      by_cases h : a = i
      · rw [if_pos h] at ha; simp at ha
      · rw [if_neg h] at ha; exact h2 a ha
    · intro k hk
      rcases hw k hk with h | h
      · rcases h3 k h with h | ⟨j, hj⟩
        · exact .inl h
        · have := h1 j i (by rw [hj]; trivial) hbi
          rw [this, hp] at hj
          cases hj
      · cases h
        exact .inl (h2 i (.inr (.inr hp)))
  all_goals
    rename_i i
    obtain ⟨hp, rfl⟩ := hs
    have hbt : ∀ a, Between (set s.phase i .done a) → Between (s.phase a) := by
      intro a ha
      by_cases h : a = i
      · rw [h] at ha; simp only [set_eq, if_true] at ha; exact ha.elim
      · simpa only [set_eq, if_neg h] using ha
    refine ⟨fun a b ha hb => h1 a b (hbt a ha) (hbt b hb), ?_, ?_⟩
    · intro a ha
      simp only [set_eq] at ha
      by_cases h : a = i
      · rw [if_pos h] at ha; simp at ha
      · rw [if_neg h] at ha; exact h2 a ha
    · intro k hk
      rcases h3 k ((hw k hk).resolve_right (by simp)) with h | ⟨j, hj⟩
      · exact .inl h
      · refine .inr ⟨j, ?_⟩
        have : j ≠ i := by
          rintro rfl
          rw [hj] at hp
          simp at hp
        simpa only [set_eq, if_neg this] using hj

theorem orderly_split {s s1 : St} {a b : List Op} (h : Orderly s (a ++ b)) (h1 : run s a = some s1) : Orderly s1 b := by
  induction a generalizing s with
  | nil => cases h1; exact h
  | cons o a ih =>
    simp only [run, Option.bind_eq_some_iff] at h1
    obtain ⟨s2, h2, h3⟩ := h1
    exact ih (h.2.2 s2 h2) h3

theorem run_calm {s s' : St} (hi : Inv s) (h : Calm s) {os b : List Op} (ho : Orderly s (os ++ b)) (hs : run s os = some s') : Calm s' := by
  induction os generalizing s with
  | nil => cases hs; exact h
  | cons o os ih =>
    simp only [run, Option.bind_eq_some_iff] at hs
    obtain ⟨s1, h1, h2⟩ := hs
    exact ih (step_inv hi h1) (step_calm hi h ho.1 ho.2.1 h1) (ho.2.2 s1 h1) h2

/-- What holds once the connection was destroyed. -/
structure Shut (s : St) : Prop where
  dead : s.dead = true
  none : ∀ i, s.phase i ≠ .found
  told : ∀ i, Between (s.phase i) → s.cancelled i = true
  served : ∀ h, Waits s h → ∃ j, s.phase j = .bound

theorem step_shut {s s' : St} (hi : Inv s) (h : Shut s) {o : Op} (hd : ∀ i, o ≠ .drop i) (hs : step s o = some s') :
    Shut s' := by
  have hw := fun k => @step_waits s s' o k hs
  have ha : ∀ b, o = .arrive b → ∀ k, ¬ Waits s' k := fun b hb k => arrive_none hi (hb ▸ hs) k
  obtain ⟨h0, h1, h2, h3⟩ := h
  cases o <;> simp only [step, Option.ite_none_right_eq_some, Option.some.injEq] at hs
  case close => subst hs; exact ⟨rfl, h1, h2, h3⟩
  case destroy =>
    obtain ⟨_, rfl⟩ := hs
    exact ⟨h0, h1, fun i hb => cancel_mono (h2 i hb), fun k hk => h3 k ((hw k hk).resolve_right (by simp))⟩
  case drop i => exact absurd rfl (hd i)
  case find i => rw [h0] at hs; simp at hs
  case bind i => exact absurd hs.1 (h1 i)
  case arrive i =>
    obtain ⟨hp, rfl⟩ := hs
    refine ⟨h0, fun k => ?_, fun k hb => ?_, fun k hk => absurd hk (ha i rfl k)⟩
    · simp only [set_eq]; split
      · simp
      · exact h1 k
    · refine cancel_mono (h2 k ?_)
      by_cases h : k = i
      · rw [h, hp]; trivial
      · simpa only [set_eq, if_neg h] using hb
  case lock i =>
    obtain ⟨hp, rfl⟩ := hs
    refine ⟨h0, fun k => ?_, fun k hb => ?_, fun k hk => ?_⟩
    · simp only [set_eq]; split
      · simp
      · exact h1 k
    · refine h2 k ?_
      by_cases h : k = i
      · rw [h, hp.1]; trivial
      · simpa only [set_eq, if_neg h] using hb
    · obtain ⟨j, hj⟩ := h3 k ((hw k hk).resolve_right (by simp))
      have : j ≠ i := by rintro rfl; rw [hj] at hp; simp at hp
      exact ⟨j, by simpa only [set_eq, if_neg this] using hj⟩
  case register i =>
    obtain ⟨hp, rfl⟩ := hs
    have hci := h2 i (by rw [hp]; trivial)
    refine ⟨h0, fun k => ?_, fun k hb => ?_, fun k hk => ?_⟩
    · simp only [set_eq]; split
      · simp
      · exact h1 k
    · refine h2 k ?_
      by_cases h : k = i
      · rw [h, hp]; trivial
      · simpa only [set_eq, if_neg h] using hb
    · rcases hw k hk with h | h
      · obtain ⟨j, hj⟩ := h3 k h
        have : j ≠ i := by rintro rfl; rw [hj] at hp; simp at hp
        exact ⟨j, by simpa only [set_eq, if_neg this] using hj⟩
      · cases h
        have := hk.2
        dsimp only at this
        rw [hci] at this
        cases this
  all_goals
    rename_i i
    obtain ⟨hp, rfl⟩ := hs
    refine ⟨h0, fun k => ?_, fun k hb => ?_, fun k hk => ?_⟩
    · simp only [set_eq]; split
      · simp
      · exact h1 k
    · refine h2 k ?_
      by_cases h : k = i
      · rw [h] at hb; simp only [set_eq, if_true] at hb; exact hb.elim
      · simpa only [set_eq, if_neg h] using hb
    · obtain ⟨j, hj⟩ := h3 k ((hw k hk).resolve_right (by simp))
      have : j ≠ i := by rintro rfl; rw [hj] at hp; simp at hp
      exact ⟨j, by simpa only [set_eq, if_neg this] using hj⟩

/-- C146: requests of an orderly client do not outlast their connection. After `Destroy` each of them is told to stop, but for one that is
still served while another has just set its callback: that one is told as soon as the other reaches the connection. Missing: `Destroy`
between a request's look-up of the connection and its callback (`C146_violated_late`), clients which send several requests at once
(`C146_violated_closed`) and requests that are refused (`C146_violated_refused`). -/
theorem C146_closed_partial {a c : List Op} {s0 s : St} (h0 : run {} a = some s0) (ho : Orderly {} (a ++ .destroy :: c))
    (hf : ∀ i, s0.phase i ≠ .found) (hr : run s0 (.destroy :: c) = some s) :
    ∀ h, Waits s h → ∃ j, s.phase j = .bound := by
  have hi := run_inv inv_init h0
  have hc := run_calm inv_init calm_init ho h0
  have ho1 := orderly_split ho h0
  simp only [run, Option.bind_eq_some_iff] at hr
  obtain ⟨s1, h1, h2⟩ := hr
  have hi1 := step_inv hi h1
  have hc1 := step_calm hi hc ho1.1 ho1.2.1 h1
  have ho2 := ho1.2.2 s1 h1
  have hs1 : Shut s1 := by
    have hw := fun k => @step_waits s0 s1 .destroy k h1
    simp only [step, Option.ite_none_right_eq_some, Option.some.injEq] at h1
    obtain ⟨hd, rfl⟩ := h1
    refine ⟨hd, hf, fun i hb => ?_, fun k hk => ?_⟩
    · have : s0.latest = some i := by
        refine hc.last i ?_
        have hfi := hf i
        dsimp only at hb
        cases hp : s0.phase i <;> rw [hp] at hb hfi <;> simp [Between] at hb hfi ⊢
      dsimp only
      rw [this]
      exact cancel_self
    · rcases hc.mine k ((hw k hk).resolve_right (by simp)) with h | h
      · have h' := hk.2
        dsimp only at h'
        rw [h, cancel_self] at h'
        cases h'
      · exact h
  clear h0 ho hf hi hc ho1 h1
  induction c generalizing s1 with
  | nil => cases h2; exact hs1.served
  | cons o c ih =>
    simp only [run, Option.bind_eq_some_iff] at h2
    obtain ⟨s2, h3, h4⟩ := h2
    exact ih s2 h4 (step_inv hi1 h3) (step_calm hi1 hc1 ho2.1 ho2.2.1 h3) (ho2.2.2 s2 h3) (step_shut hi1 hs1 ho2.2.1 h3)

/-! ## Cases, and what goes wrong -/

/-- A request from its look-up of the connection to the lock. -/
def comes (i : Nat) : List Op := [.find i, .bind i, .arrive i]

def served (i : Nat) : List Op := comes i ++ [.lock i, .register i]

/-- What can be seen of a request. -/
def view (os : List Op) (is : List Nat) : Option (Option Nat × List (Phase × Bool)) :=
  (run {} os).map fun s => (s.mu, is.map fun i => (s.phase i, s.cancelled i))

example : view (served 0 ++ comes 1) [0, 1] = some (some 0, [(.running, true), (.come, false)]) := by decide +kernel

example : view (served 0 ++ comes 1 ++ [.quit 0, .lock 1, .register 1]) [0, 1] = some (some 1, [(.done, true), (.running, false)]) := by
  decide +kernel

example : view (served 0 ++ [.close, .destroy]) [0] = some (some 0, [(.running, true)]) := by decide +kernel

/-- The hypotheses of `C146_prompt_partial`: request 1 comes while request 0 is served, and the connection is closed meanwhile. -/
example : ∃ s0 s, run {} (served 0 ++ [.find 1, .bind 1]) = some s0 ∧ (∀ i, i ≠ 1 → s0.phase i ≠ .come ∧ s0.phase i ≠ .locked) ∧
    run s0 (.arrive 1 :: [.close]) = some s ∧ s.phase 1 = .come ∧ s.mu = some 0 := by
  refine ⟨_, _, rfl, fun i _ => ?_, rfl, rfl, rfl⟩
  simp only [set_eq]
  repeat' split
  all_goals simp

/-- The hypotheses of `C146_closed_partial`: a client with one request after the other. -/
example : ∃ s0 s, run {} (served 0 ++ [.finish 0] ++ served 1 ++ [.close]) = some s0 ∧ (∀ i, s0.phase i ≠ .found) ∧
    Orderly {} (served 0 ++ [.finish 0] ++ served 1 ++ [.close] ++ .destroy :: [.quit 1]) ∧
    run s0 (.destroy :: [.quit 1]) = some s := by
  refine ⟨_, _, rfl, fun i => ?_, ?_, rfl⟩
  · simp only [set_eq]
    repeat' split
    all_goals simp
  · simp [served, comes, Orderly, step, set_eq, Between]
    intro j
    by_cases h : j = 0 <;> simp [h]

/-- Request 0 has the lock but has not yet stored its cancel function when request 1 comes: request 1 cancels nothing, and waits for the
timeout of request 0. -/
theorem C146_violated_two : ∃ os s, run {} os = some s ∧ s.phase 1 = .come ∧ Waits s 0 ∧ s.mu = some 0 ∧
    os = comes 0 ++ [.lock 0] ++ comes 1 ++ [.register 0] := ⟨_, _, rfl, rfl, ⟨rfl, rfl⟩, rfl, rfl⟩

/-- While request 0 is served requests 1 and 2 come, one after the other. Both cancel request 0, and nobody cancels request 1: the newest
request waits for the timeout of request 1, which the client has given up. -/
theorem C146_violated_three : ∃ os s, run {} os = some s ∧ s.phase 2 = .come ∧ Waits s 1 ∧ s.mu = some 1 ∧
    os = served 0 ++ comes 1 ++ comes 2 ++ [.quit 0, .lock 1, .register 1] := ⟨_, _, rfl, rfl, ⟨rfl, rfl⟩, rfl, rfl⟩

/-- A request has got its connection from the `ConnMap` when the connection is destroyed. Its callback is set too late: it is served, and
waits until its timeout for updates of a connection that gets none any more. -/
theorem C146_violated_late : ∃ os s, run {} os = some s ∧ s.dead = true ∧ Waits s 0 ∧
    os = [.find 0, .close, .destroy, .bind 0, .arrive 0, .lock 0, .register 0] := ⟨_, _, rfl, rfl, ⟨rfl, rfl⟩, rfl⟩

/-- `Destroy` cancels the request that came last, which need not be the one that is served. -/
theorem C146_violated_closed : ∃ os s, run {} os = some s ∧ s.dead = true ∧ Waits s 0 ∧ (∀ j, s.phase j ≠ .bound) ∧
    os = comes 0 ++ [.lock 0] ++ comes 1 ++ [.register 0, .close, .destroy] := by
  refine ⟨_, _, rfl, rfl, ⟨rfl, rfl⟩, fun j => ?_, rfl⟩
  simp only [set_eq]
  repeat' split
  all_goals simp

/-- A request that is refused for its form, such as one whose position is no number, has set its callback before: `Destroy` cancels this
one, and the request that is served goes on waiting. -/
theorem C146_violated_refused : ∃ os s, run {} os = some s ∧ s.dead = true ∧ Waits s 0 ∧ (∀ j, s.phase j ≠ .bound) ∧
    os = served 0 ++ [.find 1, .bind 1, .drop 1, .close, .destroy] := by
  refine ⟨_, _, rfl, rfl, ⟨rfl, rfl⟩, fun j => ?_, rfl⟩
  simp only [set_eq]
  repeat' split
  all_goals simp

end Verif.Supersede
