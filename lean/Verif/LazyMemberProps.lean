import Verif.LazyMember
/-! # C26: a lazily loaded member is sent at most once per room -/
namespace Verif.LazyMember

/-- The operation told the client about the user's membership in the room. -/
def Tells (o : Op) (room user : Str) : Prop :=
  match o with
  | .initial r l us => r = room ∧ l = true ∧ user ∈ us
  | .seen r u f => r = room ∧ u = user ∧ f = true

/-- The operation turns on lazy loading in the room. -/
def TurnsOn (o : Op) (room : Str) : Prop :=
  match o with
  | .initial r l us => r = room ∧ l = true ∧ us ≠ []
  | .seen _ _ _ => False

/-- The room of an operation. -/
def Op.room : Op → Str
  | .initial r _ _ => r
  | .seen r _ _ => r

theorem key_inj {r r' u u' : Str} (h : ' ' ∉ r) (h' : ' ' ∉ r') (e : key r u = key r' u') : r = r' ∧ u = u' := by
  unfold key sep at e
  induction r generalizing r' with
  | nil =>
    cases r' with
    | nil => simpa using e
    | cons c r' => simp only [List.nil_append, List.cons_append, List.cons.injEq] at e; exact absurd (List.mem_cons.2 (Or.inl e.1)) h'
  | cons c r ih =>
    cases r' with
    | nil =>
      simp only [List.nil_append, List.cons_append, List.cons.injEq] at e
      exact absurd (by simp [e.1]) h
    | cons c' r' =>
      simp only [List.cons_append, List.cons.injEq] at e
      have := ih (fun x => h (List.mem_cons_of_mem _ x)) (fun x => h' (List.mem_cons_of_mem _ x)) e.2
      exact ⟨by rw [e.1, this.1], this.2⟩

/-- The cache after a history in which lazy loading is turned on before users are seen. -/
structure Inv (s : State) (told : Str → Str → Prop) (on : Str → Prop) : Prop where
  set : ∀ r u, ' ' ∉ r → (isSet s r u = true ↔ told r u)
  lazy : ∀ r, isLazyLoading s r = true ↔ on r

theorem addUser_isSet (s : State) (room user r u : Str) (h : ' ' ∉ room) (hr : ' ' ∉ r) :
    isSet (addUser s room user).1 r u = true ↔ isSet s r u = true ∨ (room = r ∧ user = u) := by
  unfold addUser isSet
  simp only
  split
  · rename_i hin
    simp only [decide_eq_true_eq]
    constructor
    · exact Or.inl
    · rintro (h | ⟨rfl, rfl⟩)
      · exact h
      · exact hin
  · simp only [decide_eq_true_eq, List.mem_cons]
    constructor
    · rintro (e | h')
      · obtain ⟨a, b⟩ := key_inj hr h e
        exact Or.inr ⟨a.symm, b.symm⟩
      · exact Or.inl h'
    · rintro (h' | ⟨rfl, rfl⟩)
      · exact Or.inr h'
      · exact Or.inl rfl

theorem addUser_lazy (s : State) (room user r : Str) :
    isLazyLoading (addUser s room user).1 r = true ↔ isLazyLoading s r = true ∨ room = r := by
  unfold addUser isLazyLoading
  simp only
  split <;> simp only [decide_eq_true_eq, List.mem_cons] <;> (constructor <;> rintro (h | h) <;> simp [h])

theorem add_isSet (s : State) (room r u : Str) (us : List Str) (h : ' ' ∉ room) (hr : ' ' ∉ r) :
    isSet (add s room us) r u = true ↔ isSet s r u = true ∨ (room = r ∧ u ∈ us) := by
  induction us generalizing s with
  | nil => simp [add]
  | cons x us ih =>
    simp only [add, ih, addUser_isSet s room x r u h hr, List.mem_cons]
    constructor
    · rintro ((a | ⟨a, b⟩) | ⟨a, b⟩)
      · exact Or.inl a
      · exact Or.inr ⟨a, Or.inl b.symm⟩
      · exact Or.inr ⟨a, Or.inr b⟩
    · rintro (a | ⟨a, b | b⟩)
      · exact Or.inl (Or.inl a)
      · exact Or.inl (Or.inr ⟨a, b.symm⟩)
      · exact Or.inr ⟨a, b⟩

theorem add_lazy (s : State) (room r : Str) (us : List Str) :
    isLazyLoading (add s room us) r = true ↔ isLazyLoading s r = true ∨ (room = r ∧ us ≠ []) := by
  induction us generalizing s with
  | nil => simp [add]
  | cons x us ih =>
    simp only [add, ih, addUser_lazy]
    simp only [ne_eq, reduceCtorEq, not_false_eq_true, and_true]
    constructor
    · rintro ((a | a) | ⟨a, _⟩)
      · exact Or.inl a
      · exact Or.inr a
      · exact Or.inr a
    · rintro (a | a)
      · exact Or.inl (Or.inl a)
      · exact Or.inl (Or.inr a)

theorem run_append (s : State) (ops : List Op) (o : Op) : run s (ops ++ [o]) = (step (run s ops) o).1 := by
  induction ops generalizing s with
  | nil => rfl
  | cons a ops ih => exact ih _

/-- Lazy loading was turned on for the room by one of the operations. -/
def On (ops : List Op) (room : Str) : Prop := ∃ o ∈ ops, TurnsOn o room

/-- The member event of the user in the room was sent before: in the initial data
of the lazily loaded room, or when it was seen since then and could be loaded. -/
def Told (ops : List Op) (room user : Str) : Prop :=
  ∃ pre o post, ops = pre ++ o :: post ∧ Tells o room user ∧
    (match o with | .seen .. => On pre room | .initial .. => True)

theorem on_snoc (ops : List Op) (o : Op) (room : Str) : On (ops ++ [o]) room ↔ On ops room ∨ TurnsOn o room := by
  unfold On
  simp only [List.mem_append, List.mem_singleton, or_and_right, exists_or, exists_eq_left]

theorem told_snoc (ops : List Op) (o : Op) (room user : Str) :
    Told (ops ++ [o]) room user ↔ Told ops room user ∨
      (Tells o room user ∧ (match o with | .seen .. => On ops room | .initial .. => True)) := by
  constructor
  · rintro ⟨pre, x, post, e, h1, h2⟩
    rcases List.eq_nil_or_concat post with rfl | ⟨post', y, rfl⟩
    · have := List.append_inj' e rfl
      obtain ⟨rfl, e2⟩ := this
      simp only [List.cons.injEq, and_true] at e2
      subst e2
      exact Or.inr ⟨h1, h2⟩
    · left
      refine ⟨pre, x, post', ?_, h1, h2⟩
      have e' : ops ++ [o] = (pre ++ x :: post') ++ [y] := by simp [e]
      exact (List.append_inj' e' rfl).1
  · rintro (⟨pre, x, post, e, h1, h2⟩ | ⟨h1, h2⟩)
    · exact ⟨pre, x, post ++ [o], by simp [e], h1, h2⟩
    · exact ⟨ops, o, [], rfl, h1, h2⟩

theorem inv_run (ops : List Op) (hs : ∀ o ∈ ops, ' ' ∉ o.room) : Inv (run {} ops) (Told ops) (On ops) := by
  induction ops using Verif.Util.snocRec with
  | nil =>
    refine ⟨?_, ?_⟩
    · intro r u _
      simp [run, isSet, Told]
    · intro r; simp [run, isLazyLoading, On]
  | append_singleton ops o ih =>
    have ih := ih fun x hx => hs x (by simp [hx])
    have ho := hs o (by simp)
    rw [run_append]
    generalize hst : run {} ops = s at ih
    obtain ⟨ihs, ihl⟩ := ih
    cases o with
    | initial room l us =>
      simp only [Op.room] at ho
      cases l with
      | false =>
        simp only [step, Bool.false_eq_true, if_false]
        refine ⟨?_, ?_⟩
        · intro r u hr; rw [told_snoc, ihs r u hr]; simp [Tells]
        · intro r; rw [on_snoc, ihl]; simp [TurnsOn]
      | true =>
        simp only [step, if_true]
        refine ⟨?_, ?_⟩
        · intro r u hr
          rw [told_snoc, add_isSet _ _ _ _ _ ho hr, ihs r u hr]
          simp [Tells]
        · intro r
          rw [on_snoc, add_lazy, ihl]
          simp [TurnsOn]
    | seen room user f =>
      simp only [Op.room] at ho
      simp only [step]
      split
      · rename_i hc
        simp only [Bool.and_eq_true, Bool.not_eq_true'] at hc
        have hon := (ihl room).1 hc.1
        cases f with
        | true =>
          simp only [if_true]
          refine ⟨?_, ?_⟩
          · intro r u hr
            rw [told_snoc, addUser_isSet _ _ _ _ _ ho hr, ihs r u hr]
            simp only [Tells, and_true]
            constructor
            · rintro (a | ⟨rfl, rfl⟩)
              · exact Or.inl a
              · exact Or.inr ⟨⟨rfl, rfl⟩, hon⟩
            · rintro (a | ⟨⟨rfl, rfl⟩, _⟩)
              · exact Or.inl a
              · exact Or.inr ⟨rfl, rfl⟩
          · intro r
            rw [on_snoc, addUser_lazy, ihl]
            simp only [TurnsOn, or_false]
            constructor
            · rintro (a | rfl)
              · exact a
              · exact hon
            · exact Or.inl
        | false =>
          simp only [Bool.false_eq_true, if_false]
          refine ⟨?_, ?_⟩
          · intro r u hr; rw [told_snoc, ihs r u hr]; simp [Tells]
          · intro r; rw [on_snoc, ihl]; simp [TurnsOn]
      · rename_i hc
        simp only [Bool.and_eq_true, Bool.not_eq_true', not_and, Bool.not_eq_false] at hc
        refine ⟨?_, ?_⟩
        · intro r u hr
          rw [told_snoc, ihs r u hr]
          constructor
          · exact Or.inl
          · rintro (a | ⟨⟨rfl, rfl, _⟩, hon⟩)
            · exact a
            · exact (ihs _ _ hr).1 (hc ((ihl _).2 hon))
        · intro r; rw [on_snoc, ihl]; simp [TurnsOn]

/-- C26, partial: on a connection whose room ids contain no space, the member event of a
user seen live is sent exactly if lazy loading is on in the room, the event exists,
and it was not sent before.  Missing: room ids with a space (`C26_violated_key`), and
rooms that ask for lazy loading but had no sender in their initial timeline, for which
lazy loading is not on (`C26_violated_empty`). -/
theorem C26_once_partial (ops : List Op) (room user : Str) (found : Bool)
    (hs : ∀ o ∈ ops, ' ' ∉ o.room) (hr : ' ' ∉ room) :
    (step (run {} ops) (.seen room user found)).2 = true ↔ On ops room ∧ found = true ∧ ¬ Told ops room user := by
  obtain ⟨h1, h2⟩ := inv_run ops hs
  rw [← h1 room user hr, ← h2]
  simp only [step]
  cases isLazyLoading (run {} ops) room <;> cases isSet (run {} ops) room user <;> cases found <;> simp

/-- `AddUser` returns true exactly for the first time, for any history of additions. -/
theorem C26_addUser_partial (ops : List Op) (room user : Str) (hs : ∀ o ∈ ops, ' ' ∉ o.room) (hr : ' ' ∉ room) :
    (addUser (run {} ops) room user).2 = true ↔ ¬ Told ops room user := by
  obtain ⟨h1, _⟩ := inv_run ops hs
  rw [← h1 room user hr]
  unfold addUser isSet
  simp only
  split <;> simp_all

/-- C26 is violated for room ids that contain the separator: the user `c` of room `a | b`
is taken for the user `b | c` of room `a`. -/
theorem C26_violated_key : ∃ (ops : List Op) (room user : Str),
    On ops room ∧ ¬ Told ops room user ∧ (step (run {} ops) (.seen room user true)).2 = false := by
  refine ⟨[.initial "a".toList true ["b | c".toList], .initial "a | b".toList true ["x".toList]],
    "a | b".toList, "c".toList, ?_, ?_, by decide +kernel⟩
  · exact ⟨.initial "a | b".toList true ["x".toList], by simp, by simp [TurnsOn]⟩
  · rintro ⟨pre, o, post, e, h1, _⟩
    have hm : o ∈ [Op.initial "a".toList true ["b | c".toList], .initial "a | b".toList true ["x".toList]] := by
      rw [e]; simp
    simp only [List.mem_cons, List.not_mem_nil, or_false] at hm
    rcases hm with rfl | rfl <;> simp [Tells] at h1

/-- C26 is violated for rooms without any sender in the initial timeline (for example with a
timeline limit of 0): lazy loading was requested but members seen live are never sent. -/
theorem C26_violated_empty : ∃ (ops : List Op) (room user : Str),
    (.initial room true [] ∈ ops) ∧ ¬ Told ops room user ∧ (step (run {} ops) (.seen room user true)).2 = false := by
  refine ⟨[.initial "!r".toList true []], "!r".toList, "@u".toList, by simp, ?_, by decide +kernel⟩
  rintro ⟨pre, o, post, e, h1, _⟩
  have hm : o ∈ [Op.initial "!r".toList true []] := by rw [e]; simp
  simp only [List.mem_cons, List.not_mem_nil, or_false] at hm
  subst hm
  simp [Tells] at h1

example :
    let ops := [Op.initial "!r".toList true ["@a".toList], .seen "!r".toList "@b".toList true]
    (step (run {} (ops.take 1)) (.seen "!r".toList "@b".toList true)).2 = true ∧
    (step (run {} ops) (.seen "!r".toList "@b".toList true)).2 = false ∧
    (step (run {} ops) (.seen "!r".toList "@a".toList true)).2 = false ∧
    (step (run {} ops) (.seen "!r".toList "@c".toList true)).2 = true ∧
    (step (run {} ops) (.seen "!q".toList "@c".toList true)).2 = false := by
  decide +kernel

end Verif.LazyMember
