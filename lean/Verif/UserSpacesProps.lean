import Verif.UserSpaces
/-!
# C98: a user's rooms are in the spaces the user is in

Specification, on the events of all rooms in the order in which they were dispatched: for a user a room is in a space if the user's last
membership in the space is a join, the space was created as one, and the last `m.space.child` event for the room in it has a `via` list.
-/
namespace Verif.UserSpaces

abbrev Log := List (String × Ev)

/-- The events of an operation. -/
def Op.events : Op → Log
  | .event r ev => [(r, ev)]
  | .block r evs => evs.map fun e => (r, e)
  | _ => []

/-- All events. -/
def flat (ops : List Op) : Log := ops.flatMap Op.events

def isMember (p : String) (e : String × Ev) : Bool := decide (e.1 = p) && (decide (e.2 = .join) || decide (e.2 = .leave))

/-- The user's last membership in the room is a join. -/
def Joined (log : Log) (p : String) : Prop := log.reverse.find? (isMember p) = some (p, .join)

def isChild (p c : String) (e : String × Ev) : Bool := decide (e = (p, .child c true)) || decide (e = (p, .child c false))

/-- The last event about the child in the room has a `via` list. -/
def Child (log : Log) (p c : String) : Prop := log.reverse.find? (isChild p c) = some (p, .child c true)

def typeOf (p : String) (e : String × Ev) : Option String :=
  match e.2 with
  | .create t => if e.1 = p then some t else none
  | _ => none

/-- The room was created as a space. -/
def Space (log : Log) (p : String) : Prop := log.reverse.findSome? (typeOf p) = some "m.space"

instance (log p) : Decidable (Joined log p) := inferInstanceAs (Decidable (_ = _))
instance (log p c) : Decidable (Child log p c) := inferInstanceAs (Decidable (_ = _))
instance (log p) : Decidable (Space log p) := inferInstanceAs (Decidable (_ = _))

/-- The cache has the room in the space. -/
def Has (s : State) (p c : String) : Prop := ∃ k, s.cache = some k ∧ p ∈ spacesOf k c

/-- The cache is right. -/
def Right (ops : List Op) : Prop :=
  ∀ p c, Has (run {} ops) p c ↔ Joined (flat ops) p ∧ Space (flat ops) p ∧ Child (flat ops) p c

/-- A state block has one member event per user. -/
def Wf (ops : List Op) : Prop := ∀ r evs, .block r evs ∈ ops → ¬ (Ev.join ∈ evs ∧ Ev.leave ∈ evs)

/-- The user stays in the space, which stays a space, and the cache stays or is replaced. -/
def Keeps (p : String) (ops : List Op) : Prop :=
  .drop ∉ ops ∧ (p, .leave) ∉ flat ops ∧ ∀ t, (p, .create t) ∈ flat ops → t = "m.space"

/-! ## Sets -/

theorem mem_add {α : Type} [DecidableEq α] {l : List α} {r x : α} : x ∈ add l r ↔ x ∈ l ∨ x = r := by
  unfold add
  split
  · rename_i h
    constructor
    · exact Or.inl
    · rintro (h' | rfl)
      · exact h'
      · exact h
  · simp

theorem mem_del {α : Type} [DecidableEq α] {l : List α} {r x : α} : x ∈ del l r ↔ x ∈ l ∧ x ≠ r := by
  simp [del]

theorem spacesOf_set (k : Cache) (r q : String) (l : List String) :
    spacesOf (Assoc.set k r l) q = if q = r then l else spacesOf k q := by
  unfold spacesOf
  rw [Assoc.get_set]
  by_cases h : q = r <;> simp [h]

theorem mem_spaceUpdate (k : Cache) (r ch : String) (via : Bool) (p q : String) :
    p ∈ spacesOf (spaceUpdate k r ch via) q ↔
      (p = r ∧ q = ch ∧ via = true) ∨ (p ∈ spacesOf k q ∧ ¬ (p = r ∧ q = ch ∧ via = false)) := by
  unfold spaceUpdate
  rw [spacesOf_set]
  by_cases hq : q = ch
  · subst hq
    cases via
    · simp [mem_del]
    · simp [mem_add, or_comm]
  · simp [hq]

theorem get_spaceUpdate (k : Cache) (r ch : String) (via : Bool) (q : String) (h : (Assoc.get k q).isSome) :
    (Assoc.get (spaceUpdate k r ch via) q).isSome := by
  unfold spaceUpdate
  rw [Assoc.get_set]
  split
  · rfl
  · exact h

theorem spacesOf_none {k : Cache} {q : String} (h : Assoc.get k q = none) : spacesOf k q = [] := by
  unfold spacesOf; rw [h]

/-- An event changes the cache in one place, and not at all if the room had no entry and is its own child. -/
theorem mem_onNewEvent (k : Cache) (r : String) (ev : Ev) (p q : String) :
    p ∈ spacesOf (onNewEvent k r ev) q ↔
      (p = r ∧ ev = .child q true ∧ ¬ (Assoc.get k r = none ∧ q = r)) ∨ (p ∈ spacesOf k q ∧ ¬ (p = r ∧ ev = .child q false)) := by
  have key : p ∈ spacesOf (childPart k r ev) q ↔
      (p = r ∧ ev = .child q true) ∨ (p ∈ spacesOf k q ∧ ¬ (p = r ∧ ev = .child q false)) := by
    cases ev with
    | child ch via =>
      simp only [childPart, mem_spaceUpdate, Ev.child.injEq]
      constructor
      · rintro (⟨h1, h2, h3⟩ | ⟨h1, h2⟩)
        · exact Or.inl ⟨h1, h2.symm, h3⟩
        · exact Or.inr ⟨h1, fun h => h2 ⟨h.1, h.2.1.symm, h.2.2⟩⟩
      · rintro (⟨h1, h2, h3⟩ | ⟨h1, h2⟩)
        · exact Or.inl ⟨h1, h2.symm, h3⟩
        · exact Or.inr ⟨h1, fun h => h2 ⟨h.1, h.2.1.symm, h.2.2⟩⟩
    | join => simp [childPart]
    | leave => simp [childPart]
    | create t => simp [childPart]
    | other => simp [childPart]
  unfold onNewEvent
  cases hg : Assoc.get k r with
  | some l => rw [key]; simp
  | none =>
    simp only [spacesOf_set]
    by_cases hq : q = r
    · subst hq
      rw [if_pos rfl, spacesOf_none hg]; simp
    · rw [if_neg hq, key]; simp [hq]

theorem get_onNewEvent (k : Cache) (r : String) (ev : Ev) (q : String) (h : (Assoc.get k q).isSome ∨ q = r) :
    (Assoc.get (onNewEvent k r ev) q).isSome := by
  have key : ∀ q, (Assoc.get k q).isSome → (Assoc.get (childPart k r ev) q).isSome := by
    intro q h
    cases ev with
    | child ch via => exact get_spaceUpdate k r ch via q h
    | _ => exact h
  unfold onNewEvent
  cases hg : Assoc.get k r with
  | some l =>
    refine key q ?_
    rcases h with h | rfl
    · exact h
    · rw [hg]; rfl
  | none =>
    simp only [Assoc.get_set]
    by_cases hq : q = r
    · rw [if_pos hq]; rfl
    · rw [if_neg hq]; exact key q (h.resolve_right hq)

/-! ## Global data and tracker follow the events -/

structure Inv (s : State) (log : Log) : Prop where
  children : ∀ p c, (p, c) ∈ s.children ↔ Child log p c
  types : ∀ p, isSpace s p = true ↔ Space log p
  joined : ∀ p, p ∈ s.joined ↔ Joined log p

theorem child_snoc (log : Log) (e : String × Ev) (p c : String) :
    Child (log ++ [e]) p c ↔ e = (p, .child c true) ∨ (e ≠ (p, .child c false) ∧ Child log p c) := by
  unfold Child
  rw [List.reverse_append]
  simp only [List.reverse_cons, List.reverse_nil, List.nil_append, List.singleton_append, List.find?_cons]
  by_cases h1 : e = (p, .child c true)
  · simp [isChild, h1]
  · by_cases h2 : e = (p, .child c false)
    · simp [isChild, h2]
    · simp [isChild, h1, h2]

theorem joined_snoc (log : Log) (e : String × Ev) (p : String) :
    Joined (log ++ [e]) p ↔ e = (p, .join) ∨ (e ≠ (p, .leave) ∧ Joined log p) := by
  unfold Joined
  rw [List.reverse_append]
  simp only [List.reverse_cons, List.reverse_nil, List.nil_append, List.singleton_append, List.find?_cons]
  obtain ⟨r, ev⟩ := e
  by_cases hr : r = p
  · subst hr
    cases ev <;> simp [isMember]
  · simp [isMember, hr]

theorem space_snoc (log : Log) (e : String × Ev) (p : String) :
    Space (log ++ [e]) p ↔ match typeOf p e with
      | some t => t = "m.space"
      | none => Space log p := by
  unfold Space
  rw [List.reverse_append]
  simp only [List.reverse_cons, List.reverse_nil, List.nil_append, List.singleton_append, List.findSome?_cons]
  cases typeOf p e <;> simp

/-- The parts of the global data. -/
structure GInv (s : State) (log : Log) : Prop where
  children : ∀ p c, (p, c) ∈ s.children ↔ Child log p c
  types : ∀ p, isSpace s p = true ↔ Space log p

theorem global_inv {s : State} {log : Log} (h : GInv s log) (r : String) (ev : Ev) : GInv (global s r ev) (log ++ [(r, ev)]) := by
  constructor
  · intro p c
    rw [child_snoc]
    cases ev with
    | child ch via =>
      cases via
      · show (p, c) ∈ del s.children (r, ch) ↔ _
        rw [mem_del, h.children]
        simp only [Prod.mk.injEq, Ev.child.injEq, ne_eq, and_comm, Bool.false_eq_true, and_false, false_or, reduceCtorEq, false_and]
        simp [eq_comm, and_comm]
      · show (p, c) ∈ add s.children (r, ch) ↔ _
        rw [mem_add, h.children]
        simp only [Prod.mk.injEq, Ev.child.injEq, ne_eq, and_true, Bool.true_eq_false, and_false, not_false_eq_true, true_and]
        rw [or_comm, eq_comm (a := p), eq_comm (a := c)]
    | join => simpa [global] using h.children p c
    | leave => simpa [global] using h.children p c
    | create t => simpa [global] using h.children p c
    | other => simpa [global] using h.children p c
  · intro p
    rw [space_snoc]
    cases ev with
    | create t =>
      simp only [isSpace, global, Assoc.get_set, typeOf]
      by_cases hp : p = r
      · subst hp; simp
      · simpa [hp, Ne.symm hp, isSpace] using h.types p
    | child ch via => cases via <;> exact h.types p
    | join => exact h.types p
    | leave => exact h.types p
    | other => exact h.types p

theorem notify_same (s : State) (r : String) (ev : Ev) (told : Bool) : (notify s r ev told).children = (global s r ev).children ∧
    (notify s r ev told).types = (global s r ev).types ∧ (notify s r ev told).joined = s.joined := by
  have hg : (global s r ev).joined = s.joined := by
    cases ev with
    | child ch via => cases via <;> rfl
    | _ => rfl
  unfold notify
  cases told
  · exact ⟨rfl, rfl, hg⟩
  · exact ⟨rfl, rfl, hg⟩

theorem notify_ginv {s : State} {log : Log} (h : GInv s log) (r : String) (ev : Ev) (told : Bool) :
    GInv (notify s r ev told) (log ++ [(r, ev)]) := by
  have ⟨h1, h2, _⟩ := notify_same s r ev told
  have hg := global_inv h r ev
  refine ⟨by rw [h1]; exact hg.children, ?_⟩
  intro p
  have := hg.types p
  unfold isSpace at this ⊢
  rw [h2]; exact this

/-- What `onEvent` does, with who is joined and who is told. -/
theorem onEvent_eq (s : State) (r : String) (ev : Ev) : ∃ j told, onEvent s r ev = notify { s with joined := j } r ev told ∧
    (∀ p, p ∈ j ↔ (ev = .join ∧ p = r) ∨ (¬ (ev = .leave ∧ p = r) ∧ p ∈ s.joined)) ∧ (told = true ↔ ev = .join ∨ r ∈ s.joined) := by
  cases ev with
  | join =>
    refine ⟨add s.joined r, true, rfl, ?_, by simp⟩
    intro p; rw [mem_add]; simp [or_comm]
  | leave =>
    refine ⟨del s.joined r, decide (r ∈ s.joined), rfl, ?_, by simp⟩
    intro p; rw [mem_del]; simp [and_comm]
  | child c v => exact ⟨s.joined, decide (r ∈ s.joined), rfl, by simp, by simp⟩
  | create t => exact ⟨s.joined, decide (r ∈ s.joined), rfl, by simp, by simp⟩
  | other => exact ⟨s.joined, decide (r ∈ s.joined), rfl, by simp, by simp⟩

theorem onEvent_inv {s : State} {log : Log} (h : Inv s log) (r : String) (ev : Ev) : Inv (onEvent s r ev) (log ++ [(r, ev)]) := by
  obtain ⟨j, told, he, hj, _⟩ := onEvent_eq s r ev
  rw [he]
  have g : GInv { s with joined := j } log := ⟨h.children, h.types⟩
  have g' := notify_ginv g r ev told
  refine ⟨g'.children, g'.types, ?_⟩
  intro p
  rw [(notify_same _ _ _ _).2.2, joined_snoc, ← h.joined]
  show p ∈ j ↔ _
  rw [hj]
  simp only [Prod.mk.injEq, ne_eq, and_comm, eq_comm (a := p)]

theorem onEvents_inv {s : State} {log : Log} (h : Inv s log) (r : String) (evs : List Ev) :
    Inv (evs.foldl (fun s ev => onEvent s r ev) s) (log ++ evs.map fun e => (r, e)) := by
  induction evs generalizing s log with
  | nil => simpa using h
  | cons e evs ih =>
    have := ih (onEvent_inv h r e)
    simpa using this

theorem notifies_inv {s : State} {log : Log} (h : GInv s log) (r : String) (evs : List Ev) (told : Bool) :
    GInv (evs.foldl (fun s ev => notify s r ev told) s) (log ++ evs.map fun e => (r, e)) ∧
    (evs.foldl (fun s ev => notify s r ev told) s).joined = s.joined := by
  induction evs generalizing s log with
  | nil => exact ⟨by simpa using h, rfl⟩
  | cons e evs ih =>
    have ⟨h1, h2⟩ := ih (notify_ginv h r e told)
    refine ⟨by simpa using h1, ?_⟩
    rw [List.foldl_cons, h2, (notify_same _ _ _ _).2.2]

theorem joined_block (log : Log) (r : String) (evs : List Ev) (hw : ¬ (Ev.join ∈ evs ∧ Ev.leave ∈ evs)) (hn : ¬ Joined log r) (p : String) :
    Joined (log ++ evs.map fun e => (r, e)) p ↔ (p = r ∧ Ev.join ∈ evs) ∨ Joined log p := by
  induction evs using Util.snocRec with
  | nil => simp
  | append_singleton evs e ih =>
    have hw' : ¬ (Ev.join ∈ evs ∧ Ev.leave ∈ evs) := fun h => hw ⟨List.mem_append_left _ h.1, List.mem_append_left _ h.2⟩
    rw [List.map_append, ← List.append_assoc]
    show Joined ((log ++ evs.map fun e => (r, e)) ++ [(r, e)]) p ↔ _
    rw [joined_snoc, ih hw']
    simp only [Prod.mk.injEq, ne_eq, List.mem_append, List.mem_singleton]
    by_cases hp : p = r
    · subst hp
      by_cases he : e = .leave
      · subst he
        have : Ev.join ∉ evs := fun h => hw (by simp [h])
        simp [this, hn]
      · by_cases he' : e = .join
        · subst he'; simp
        · simp [he, he', Ne.symm he']
    · simp [hp, Ne.symm hp]

theorem onBlock_inv {s : State} {log : Log} (h : Inv s log) (r : String) (evs : List Ev) (hw : ¬ (Ev.join ∈ evs ∧ Ev.leave ∈ evs)) :
    Inv (onBlock s r evs) (log ++ evs.map fun e => (r, e)) := by
  unfold onBlock
  by_cases hr : r ∈ s.joined
  · rw [if_pos hr]; exact onEvents_inv h r evs
  · rw [if_neg hr]
    have hn : ¬ Joined log r := fun hj => hr ((h.joined r).2 hj)
    by_cases hj : Ev.join ∈ evs
    · simp only [hj, decide_true, if_true]
      have g : GInv { s with joined := add s.joined r } log := ⟨h.children, h.types⟩
      have ⟨h1, h2⟩ := notifies_inv g r evs true
      refine ⟨h1.children, h1.types, fun p => ?_⟩
      rw [h2, joined_block log r evs hw hn p]
      show p ∈ add s.joined r ↔ _
      rw [mem_add, h.joined]; simp [hj, or_comm]
    · simp only [hj, decide_false]
      have ⟨h1, h2⟩ := notifies_inv (⟨h.children, h.types⟩ : GInv s log) r evs false
      refine ⟨h1.children, h1.types, fun p => ?_⟩
      rw [if_neg (by decide), h2, joined_block log r evs hw hn p, h.joined]; simp [hj]

theorem run_snoc (s : State) (ops : List Op) (o : Op) : run s (ops ++ [o]) = step (run s ops) o := by simp [run]

theorem flat_snoc (ops : List Op) (o : Op) : flat (ops ++ [o]) = flat ops ++ o.events := by simp [flat]

theorem run_inv (ops : List Op) (hw : Wf ops) : Inv (run {} ops) (flat ops) := by
  induction ops using Util.snocRec with
  | nil => exact ⟨by simp [run, flat, Child], by simp [run, flat, Space, isSpace, Assoc.get], by simp [run, flat, Joined]⟩
  | append_singleton ops o ih =>
    have ih := ih fun r evs h => hw r evs (List.mem_append_left _ h)
    rw [run_snoc, flat_snoc]
    cases o with
    | event r ev => exact onEvent_inv ih r ev
    | block r evs => exact onBlock_inv ih r evs (hw r evs (by simp))
    | touch r =>
      have hf : flat ops ++ Op.events (.touch r) = flat ops := by simp [Op.events]
      rw [hf]; exact ⟨ih.children, ih.types, ih.joined⟩
    | register =>
      have hf : flat ops ++ Op.events (.register) = flat ops := by simp [Op.events]
      rw [hf]; exact ⟨ih.children, ih.types, ih.joined⟩
    | drop =>
      have hf : flat ops ++ Op.events (.drop) = flat ops := by simp [Op.events]
      rw [hf]; exact ⟨ih.children, ih.types, ih.joined⟩

/-! ## Registration -/

theorem seed_children (l : List (String × String)) (k : Cache) (r p q : String) :
    p ∈ spacesOf (l.foldl (fun c e => spaceUpdate c r e.2 true) k) q ↔ (p = r ∧ ∃ e ∈ l, e.2 = q) ∨ p ∈ spacesOf k q := by
  induction l generalizing k with
  | nil => simp
  | cons e l ih =>
    rw [List.foldl_cons, ih, mem_spaceUpdate]
    simp only [List.mem_cons, exists_eq_or_imp, Bool.true_eq_false, and_false, not_false_eq_true, and_true]
    constructor
    · rintro (⟨h1, h2⟩ | ⟨h1, h2⟩ | h)
      · exact Or.inl ⟨h1, Or.inr h2⟩
      · exact Or.inl ⟨h1, Or.inl h2.symm⟩
      · exact Or.inr h
    · rintro (⟨h1, h2 | h2⟩ | h)
      · exact Or.inr (Or.inl ⟨h1, h2.symm⟩)
      · exact Or.inl ⟨h1, h2⟩
      · exact Or.inr (Or.inr h)

theorem seed_get (l : List (String × String)) (k : Cache) (r q : String) (h : (Assoc.get k q).isSome) :
    (Assoc.get (l.foldl (fun c e => spaceUpdate c r e.2 true) k) q).isSome := by
  induction l generalizing k with
  | nil => exact h
  | cons e l ih => exact ih _ (get_spaceUpdate k r e.2 true q h)

theorem ensure_spaces (k : Cache) (r p q : String) :
    p ∈ spacesOf (ensure k r) q ↔ p ∈ spacesOf k q := by
  unfold ensure
  cases hg : Assoc.get k r with
  | some l => exact Iff.rfl
  | none =>
    simp only [spacesOf_set]
    by_cases hq : q = r
    · subst hq; rw [if_pos rfl, spacesOf_none hg]
    · rw [if_neg hq]

theorem ensure_get (k : Cache) (r q : String) (h : (Assoc.get k q).isSome ∨ q = r) :
    (Assoc.get (ensure k r) q).isSome := by
  unfold ensure
  cases hg : Assoc.get k r with
  | some l =>
    rcases h with h | rfl
    · exact h
    · simp only [hg]; rfl
  | none =>
    simp only [Assoc.get_set]
    by_cases hq : q = r
    · rw [if_pos hq]; rfl
    · rw [if_neg hq]; exact h.resolve_right hq

theorem seedRoom_mem (s : State) (k : Cache) (r p q : String) :
    p ∈ spacesOf (seedRoom s k r) q ↔ (p = r ∧ isSpace s r = true ∧ (r, q) ∈ s.children) ∨ p ∈ spacesOf k q := by
  unfold seedRoom
  rw [ensure_spaces]
  by_cases hs : isSpace s r = true
  · rw [if_pos hs, seed_children]
    simp only [hs, true_and]
    constructor
    · rintro (⟨h1, e, he, hq⟩ | h)
      · simp only [List.mem_filter, decide_eq_true_eq] at he
        exact Or.inl ⟨h1, by obtain ⟨a, b⟩ := e; simp only at he hq; rw [← he.2, ← hq]; exact he.1⟩
      · exact Or.inr h
    · rintro (⟨h1, h2⟩ | h)
      · exact Or.inl ⟨h1, (r, q), by simp [h2], rfl⟩
      · exact Or.inr h
  · rw [if_neg hs]; simp [hs]

theorem seedRoom_get (s : State) (k : Cache) (r q : String) (h : (Assoc.get k q).isSome ∨ q = r) : (Assoc.get (seedRoom s k r) q).isSome := by
  unfold seedRoom
  refine ensure_get _ r q ?_
  rcases h with h | h
  · left
    split
    · exact seed_get _ _ _ _ h
    · exact h
  · exact Or.inr h

theorem seed_mem (s : State) (l : List String) (k : Cache) (p q : String) :
    p ∈ spacesOf (l.foldl (seedRoom s) k) q ↔ (p ∈ l ∧ isSpace s p = true ∧ (p, q) ∈ s.children) ∨ p ∈ spacesOf k q := by
  induction l generalizing k with
  | nil => simp
  | cons r l ih =>
    rw [List.foldl_cons, ih, seedRoom_mem, List.mem_cons]
    constructor
    · rintro (⟨h1, h2⟩ | ⟨rfl, h2⟩ | h)
      · exact Or.inl ⟨Or.inr h1, h2⟩
      · exact Or.inl ⟨Or.inl rfl, h2⟩
      · exact Or.inr h
    · rintro (⟨rfl | h1, h2⟩ | h)
      · exact Or.inr (Or.inl ⟨rfl, h2⟩)
      · exact Or.inl ⟨h1, h2⟩
      · exact Or.inr (Or.inr h)

theorem seeds_get (s : State) (l : List String) (k : Cache) (q : String) (h : (Assoc.get k q).isSome ∨ q ∈ l) :
    (Assoc.get (l.foldl (seedRoom s) k) q).isSome := by
  induction l generalizing k with
  | nil => exact h.resolve_right (by simp)
  | cons r l ih =>
    refine ih _ ?_
    rcases h with h | h
    · exact Or.inl (seedRoom_get s k r q (Or.inl h))
    · rcases List.mem_cons.1 h with h | h
      · exact Or.inl (seedRoom_get s k r q (Or.inr h))
      · exact Or.inr h

/-- A cache is right when it is registered. -/
theorem C98_registered (ops : List Op) (hw : Wf ops) : Right (ops ++ [.register]) := by
  intro p c
  have h := run_inv ops hw
  rw [run_snoc, flat_snoc]
  show Has { run {} ops with cache := some ((run {} ops).joined.foldl (seedRoom (run {} ops)) []) } p c ↔ _
  have hf : flat ops ++ Op.events .register = flat ops := by simp [Op.events]
  rw [hf, ← h.joined, ← h.types, ← h.children]
  constructor
  · rintro ⟨k, hk, hp⟩
    cases hk
    rw [seed_mem] at hp
    exact hp.resolve_right (by simp [spacesOf, Assoc.get])
  · intro hp
    exact ⟨_, rfl, (seed_mem _ _ _ _ _).2 (Or.inl hp)⟩

/-! ## Spaces the user stays in -/

/-- The user is in the space, and the cache is right for it. -/
structure Good (p : String) (s : State) : Prop where
  joined : p ∈ s.joined
  space : isSpace s p = true
  cache : ∃ k, s.cache = some k ∧ (Assoc.get k p).isSome ∧ ∀ c, p ∈ spacesOf k c ↔ (p, c) ∈ s.children

theorem global_children (s : State) (r : String) (ev : Ev) (p c : String) : (p, c) ∈ (global s r ev).children ↔
    (p = r ∧ ev = .child c true) ∨ ((p, c) ∈ s.children ∧ ¬ (p = r ∧ ev = .child c false)) := by
  cases ev with
  | child ch via =>
    cases via
    · show (p, c) ∈ del s.children (r, ch) ↔ _
      rw [mem_del]; simp [eq_comm (a := c)]
    · show (p, c) ∈ add s.children (r, ch) ↔ _
      rw [mem_add]; simp [eq_comm (a := c), or_comm]
  | join => simp [global]
  | leave => simp [global]
  | create t => simp [global]
  | other => simp [global]

theorem notify_good {p : String} {s : State} (h : Good p s) (r : String) (ev : Ev) (told : Bool) (ht : r = p → told = true)
    (hc : ∀ t, r = p → ev = .create t → t = "m.space") : Good p (notify s r ev told) := by
  have ⟨e1, e2, e3⟩ := notify_same s r ev told
  refine ⟨by rw [e3]; exact h.joined, ?_, ?_⟩
  · unfold isSpace; rw [e2]
    cases ev with
    | create t =>
      simp only [global, Assoc.get_set]
      by_cases hp : p = r
      · rw [if_pos hp, hc t hp.symm rfl]; simp
      · rw [if_neg hp]; exact h.space
    | child ch via => cases via <;> exact h.space
    | join => exact h.space
    | leave => exact h.space
    | other => exact h.space
  · obtain ⟨k, hk, hg, hs⟩ := h.cache
    have hkc : (global s r ev).cache = some k := by
      rw [← hk]
      cases ev with
      | child ch via => cases via <;> rfl
      | _ => rfl
    cases told with
    | false =>
      have hr : r ≠ p := fun h => by cases ht h
      refine ⟨k, hkc, hg, fun c => ?_⟩
      rw [e1, global_children, hs]; simp [Ne.symm hr]
    | true =>
      refine ⟨onNewEvent k r ev, by simp [notify, hkc], get_onNewEvent k r ev p (Or.inl hg), fun c => ?_⟩
      rw [e1, global_children, mem_onNewEvent, hs]
      have : p = r → Assoc.get k r ≠ none := by rintro rfl h; rw [h] at hg; cases hg
      constructor
      · rintro (⟨h1, h2, _⟩ | h)
        · exact Or.inl ⟨h1, h2⟩
        · exact Or.inr h
      · rintro (⟨h1, h2⟩ | h)
        · exact Or.inl ⟨h1, h2, fun h => this h1 h.1⟩
        · exact Or.inr h

theorem onEvent_good {p : String} {s : State} (h : Good p s) (r : String) (ev : Ev) (hl : ¬ (r = p ∧ ev = .leave))
    (hc : ∀ t, r = p → ev = .create t → t = "m.space") : Good p (onEvent s r ev) := by
  obtain ⟨j, told, he, hj, ht⟩ := onEvent_eq s r ev
  rw [he]
  have hg : Good p { s with joined := j } :=
    ⟨(hj p).2 (Or.inr ⟨fun h' => hl ⟨h'.2.symm, h'.1⟩, h.joined⟩), h.space, h.cache⟩
  exact notify_good hg r ev told (fun hr => ht.2 (Or.inr (by rw [hr]; exact h.joined))) hc

theorem step_good {p : String} {s : State} (h : Good p s) (o : Op) (hd : o ≠ .drop) (hl : (p, .leave) ∉ o.events)
    (hc : ∀ t, (p, .create t) ∈ o.events → t = "m.space") : Good p (step s o) := by
  cases o with
  | event r ev =>
    refine onEvent_good h r ev ?_ ?_
    · rintro ⟨rfl, rfl⟩; exact hl (by simp [Op.events])
    · rintro t rfl rfl; exact hc t (by simp [Op.events])
  | block r evs =>
    show Good p (onBlock s r evs)
    unfold onBlock
    have hl' : r = p → Ev.leave ∉ evs := by
      rintro rfl h; exact hl (List.mem_map.2 ⟨_, h, rfl⟩)
    have hc' : ∀ t, r = p → Ev.create t ∈ evs → t = "m.space" := by
      rintro t rfl h; exact hc t (List.mem_map.2 ⟨_, h, rfl⟩)
    clear hl hc hd
    by_cases hr : r ∈ s.joined
    · rw [if_pos hr]
      clear hr
      induction evs generalizing s with
      | nil => exact h
      | cons e evs ih =>
        refine ih (onEvent_good h r e ?_ ?_) (fun h => fun h' => hl' h (List.mem_cons_of_mem _ h'))
          (fun t h h' => hc' t h (List.mem_cons_of_mem _ h'))
        · rintro ⟨h1, rfl⟩; exact hl' h1 (by simp)
        · rintro t h1 rfl; exact hc' t h1 (by simp)
    · rw [if_neg hr]
      have hne : r ≠ p := by rintro rfl; exact hr h.joined
      have key : ∀ (evs : List Ev) (told : Bool) (s : State), Good p s → Good p (evs.foldl (fun s ev => notify s r ev told) s) := by
        intro evs told
        induction evs with
        | nil => intro s h; exact h
        | cons e evs ih => intro s h; exact ih _ (notify_good h r e told (fun h => absurd h hne) (fun t h => absurd h hne))
      refine key evs _ _ ?_
      split
      · exact ⟨mem_add.2 (Or.inl h.joined), h.space, h.cache⟩
      · exact h
  | touch r =>
    obtain ⟨k, hk, hg, hs⟩ := h.cache
    refine ⟨h.joined, h.space, _, by simp only [step, hk, Option.map_some], ensure_get k r p (Or.inl hg), fun c => ?_⟩
    rw [ensure_spaces]; exact hs c
  | register =>
    refine ⟨h.joined, h.space, _, rfl, seeds_get s s.joined [] p (Or.inr h.joined), fun c => ?_⟩
    rw [seed_mem]
    have h1 := h.joined
    have h2 := h.space
    constructor
    · rintro (h | h)
      · exact h.2.2
      · simp [spacesOf, Assoc.get] at h
    · intro h; exact Or.inl ⟨h1, h2, h⟩
  | drop => exact absurd rfl hd

theorem run_good {p : String} (ops : List Op) (hk : Keeps p ops) {s : State} (h : Good p s) : Good p (run s ops) := by
  induction ops generalizing s with
  | nil => exact h
  | cons o os ih =>
    obtain ⟨h1, h2, h3⟩ := hk
    have hf : flat (o :: os) = o.events ++ flat os := by simp [flat]
    rw [hf] at h2 h3
    refine ih ⟨fun h => h1 (List.mem_cons_of_mem _ h), fun h => h2 (List.mem_append_right _ h), fun t h => h3 t (List.mem_append_right _ h)⟩
      (step_good h o ?_ ?_ ?_)
    · rintro rfl; exact h1 (by simp)
    · exact fun h => h2 (List.mem_append_left _ h)
    · exact fun t h => h3 t (List.mem_append_left _ h)

/-- For a space the user was in when the cache was registered, and has not left since, the cache has exactly the rooms in it, through
all events, blocks and new registrations. Missing: spaces joined or left later, and rooms that are no spaces; these are not right in the
code, see below. -/
theorem C98_partial (before after : List Op) (hw : Wf before) (p : String) (hj : Joined (flat before) p) (hs : Space (flat before) p)
    (hw' : Wf after) (hk : Keeps p after) (c : String) :
    Has (run {} (before ++ .register :: after)) p c ↔ Child (flat (before ++ .register :: after)) p c := by
  have hi := run_inv before hw
  have hg : Good p (step (run {} before) .register) := by
    have h1 := (hi.joined p).2 hj
    have h2 := (hi.types p).2 hs
    refine ⟨h1, h2, _, rfl, seeds_get _ _ [] p (Or.inr h1), fun c => ?_⟩
    rw [seed_mem]
    constructor
    · rintro (h | h)
      · exact h.2.2
      · simp [spacesOf, Assoc.get] at h
    · intro h; exact Or.inl ⟨h1, h2, h⟩
  have hr : run {} (before ++ .register :: after) = run (step (run {} before) .register) after := by simp [run]
  have hW : Wf (before ++ .register :: after) := by
    intro r evs h
    rcases List.mem_append.1 h with h | h
    · exact hw r evs h
    · rcases List.mem_cons.1 h with h | h
      · cases h
      · exact hw' r evs h
  rw [← (run_inv _ hW).children, hr]
  obtain ⟨k, hk', _, hc⟩ := (run_good after hk hg).cache
  rw [← hc]
  constructor
  · rintro ⟨k', e, h⟩; rw [hk'] at e; cases e; exact h
  · intro h; exact ⟨k, hk', h⟩

example : Wf [.event "!s" (.create "m.space"), .event "!s" (.child "!c" true), .event "!s" .join] ∧
    Joined (flat [.event "!s" (.create "m.space"), .event "!s" (.child "!c" true), .event "!s" .join]) "!s" ∧
    Space (flat [.event "!s" (.create "m.space"), .event "!s" (.child "!c" true), .event "!s" .join]) "!s" ∧
    Keeps "!s" [.event "!s" (.child "!c" false), .event "!s" (.child "!d" true)] := by
  refine ⟨?_, by decide +kernel, by decide +kernel, by decide, by decide, ?_⟩
  · intro r evs h; simp at h
  · intro t h; simp [flat, Op.events] at h

/-! ## Spaces the user joins or leaves later -/

/-- How one notification changes what the cache has. -/
theorem notify_has (s : State) (r : String) (ev : Ev) (told : Bool) (p q : String) :
    (Has (notify s r ev told) p q → (told = true ∧ p = r ∧ ev = .child q true) ∨ (Has s p q ∧ ¬ (told = true ∧ p = r ∧ ev = .child q false))) ∧
    (Has s p q → ¬ (told = true ∧ p = r ∧ ev = .child q false) → Has (notify s r ev told) p q) := by
  have hkc : (global s r ev).cache = s.cache := by
    cases ev with
    | child ch via => cases via <;> rfl
    | _ => rfl
  cases told with
  | false =>
    have : Has (notify s r ev false) p q ↔ Has s p q := by
      unfold Has; show (∃ k, (global s r ev).cache = some k ∧ _) ↔ _; rw [hkc]
    exact ⟨fun h => Or.inr ⟨this.1 h, by simp⟩, fun h _ => this.2 h⟩
  | true =>
    have he : (notify s r ev true).cache = s.cache.map fun c => onNewEvent c r ev := by
      show ((global s r ev).cache.map fun c => onNewEvent c r ev) = _; rw [hkc]
    constructor
    · rintro ⟨k, hk, h⟩
      rw [he] at hk
      obtain ⟨k', hk', rfl⟩ := Option.map_eq_some_iff.1 hk
      rw [mem_onNewEvent] at h
      rcases h with h | h
      · exact Or.inl ⟨rfl, h.1, h.2.1⟩
      · exact Or.inr ⟨⟨k', hk', h.1⟩, fun h' => h.2 h'.2⟩
    · rintro ⟨k, hk, h⟩ hn
      exact ⟨onNewEvent k r ev, by rw [he, hk]; rfl, (mem_onNewEvent ..).2 (Or.inr ⟨h, fun h' => hn ⟨rfl, h'⟩⟩)⟩

theorem onEvent_has (s : State) (r : String) (ev : Ev) (p q : String) :
    (Has (onEvent s r ev) p q → (r ∈ s.joined ∧ p = r ∧ ev = .child q true) ∨ Has s p q) ∧
    (Has s p q → ¬ (r ∈ s.joined ∧ p = r ∧ ev = .child q false) → Has (onEvent s r ev) p q) := by
  obtain ⟨j, told, he, _, ht⟩ := onEvent_eq s r ev
  rw [he]
  have ⟨h1, h2⟩ := notify_has { s with joined := j } r ev told p q
  constructor
  · intro h
    rcases h1 h with ⟨h3, h4, h5⟩ | h3
    · exact Or.inl ⟨(ht.1 h3).resolve_left (by rw [h5]; simp), h4, h5⟩
    · exact Or.inr h3.1
  · intro h hn
    refine h2 h fun h' => hn ⟨(ht.1 h'.1).resolve_left (by rw [h'.2.2]; simp), h'.2⟩

/-- A block keeps what its events keep. -/
theorem onBlock_keep (P : State → Prop) (s : State) (r : String) (evs : List Ev) (h : P s)
    (hE : ∀ s, P s → ∀ e ∈ evs, P (onEvent s r e))
    (hN : ∀ s told, P s → ∀ e ∈ evs, (told = true → Ev.join ∈ evs) → P (notify s r e told))
    (hJ : Ev.join ∈ evs → P s → P { s with joined := add s.joined r }) : P (onBlock s r evs) := by
  have keyE : ∀ (l : List Ev) (s : State), (∀ e ∈ l, e ∈ evs) → P s → P (l.foldl (fun s ev => onEvent s r ev) s) := by
    intro l
    induction l with
    | nil => intro s _ h; exact h
    | cons e l ih => intro s hl h; exact ih _ (fun e h => hl e (List.mem_cons_of_mem _ h)) (hE s h e (hl e (by simp)))
  have keyN : ∀ (told : Bool) (_ : told = true → Ev.join ∈ evs) (l : List Ev) (s : State), (∀ e ∈ l, e ∈ evs) → P s →
      P (l.foldl (fun s ev => notify s r ev told) s) := by
    intro told ht l
    induction l with
    | nil => intro s _ h; exact h
    | cons e l ih => intro s hl h; exact ih _ (fun e h => hl e (List.mem_cons_of_mem _ h)) (hN s told h e (hl e (by simp)) ht)
  unfold onBlock
  by_cases hj : r ∈ s.joined
  · rw [if_pos hj]; exact keyE evs s (fun _ h => h) h
  · rw [if_neg hj]
    refine keyN _ (fun h => of_decide_eq_true h) evs _ (fun _ h => h) ?_
    split
    · rename_i ht; exact hJ (of_decide_eq_true ht) h
    · exact h

/-- What the cache lacks it lacks until there is an event that adds it or a new cache. -/
theorem C98_missing (s : State) (p q : String) (hn : ¬ Has s p q) (ops : List Op) (hr : .register ∉ ops)
    (he : (p, .child q true) ∉ flat ops) : ¬ Has (run s ops) p q := by
  induction ops generalizing s with
  | nil => exact hn
  | cons o os ih =>
    have hf : flat (o :: os) = o.events ++ flat os := by simp [flat]
    rw [hf] at he
    refine ih _ ?_ (fun h => hr (List.mem_cons_of_mem _ h)) (fun h => he (List.mem_append_right _ h))
    have he : (p, .child q true) ∉ o.events := fun h => he (List.mem_append_left _ h)
    cases o with
    | event r ev =>
      intro h
      rcases (onEvent_has s r ev p q).1 h with ⟨_, h1, h2⟩ | h
      · exact he (by simp [Op.events, h1, h2])
      · exact hn h
    | block r evs =>
      have he : ∀ e ∈ evs, ¬ (p = r ∧ e = .child q true) := by
        rintro e h ⟨rfl, rfl⟩; exact he (List.mem_map.2 ⟨_, h, rfl⟩)
      refine onBlock_keep (fun s => ¬ Has s p q) s r evs hn ?_ ?_ fun _ h => h
      · intro s hn e hm h
        rcases (onEvent_has s r e p q).1 h with ⟨_, h1⟩ | h
        · exact he e hm h1
        · exact hn h
      · intro s told hn e hm _ h
        rcases (notify_has s r e told p q).1 h with ⟨_, h1⟩ | h
        · exact he e hm h1
        · exact hn h.1
    | touch r =>
      rintro ⟨k, hk, h⟩
      obtain ⟨k', hk', rfl⟩ := Option.map_eq_some_iff.1 hk
      rw [ensure_spaces] at h
      exact hn ⟨k', hk', h⟩
    | register => exact absurd (by simp) hr
    | drop => rintro ⟨k, hk, _⟩; cases hk

/-- What the cache has of a space the user is not in, it has until the user joins again or there is a new cache, whatever happens in the
space. -/
theorem C98_stays (s : State) (p q : String) (hp : p ∉ s.joined) (hh : Has s p q) (ops : List Op) (hr : .register ∉ ops)
    (hd : .drop ∉ ops) (he : (p, .join) ∉ flat ops) : Has (run s ops) p q := by
  have key : p ∉ (run s ops).joined ∧ Has (run s ops) p q := by
    induction ops generalizing s with
    | nil => exact ⟨hp, hh⟩
    | cons o os ih =>
      have hf : flat (o :: os) = o.events ++ flat os := by simp [flat]
      rw [hf] at he
      have hstep : p ∉ (step s o).joined ∧ Has (step s o) p q := by
        have he : (p, .join) ∉ o.events := fun h => he (List.mem_append_left _ h)
        have hev : ∀ s r e, ¬ (p = r ∧ e = .join) → p ∉ s.joined ∧ Has s p q → p ∉ (onEvent s r e).joined ∧ Has (onEvent s r e) p q := by
          intro s r e hne h
          refine ⟨?_, (onEvent_has s r e p q).2 h.2 fun h' => h.1 (by rw [h'.2.1]; exact h'.1)⟩
          obtain ⟨j, told, hee, hj, _⟩ := onEvent_eq s r e
          rw [hee, (notify_same _ _ _ _).2.2]
          show p ∉ j
          rw [hj]
          rintro (h' | h')
          · exact hne ⟨h'.2, h'.1⟩
          · exact h.1 h'.2
        cases o with
        | event r ev => exact hev s r ev (fun h => he (by simp [Op.events, h.1, h.2])) ⟨hp, hh⟩
        | block r evs =>
          have he : p = r → Ev.join ∉ evs := by
            rintro rfl h; exact he (List.mem_map.2 ⟨_, h, rfl⟩)
          refine onBlock_keep (fun s => p ∉ s.joined ∧ Has s p q) s r evs ⟨hp, hh⟩ ?_ ?_ ?_
          · intro s h e hm; exact hev s r e (fun h' => he h'.1 (by rw [← h'.2]; exact hm)) h
          · intro s told h e hm ht
            refine ⟨by rw [(notify_same _ _ _ _).2.2]; exact h.1, (notify_has s r e told p q).2 h.2 ?_⟩
            rintro ⟨h1, h2, _⟩; exact he h2 (ht h1)
          · intro hm h
            refine ⟨?_, h.2⟩
            show p ∉ add s.joined r
            rw [mem_add]
            rintro (h' | h')
            · exact h.1 h'
            · exact he h' hm
        | touch r =>
          obtain ⟨k, hk, h⟩ := hh
          exact ⟨hp, ensure k r, by simp only [step, hk, Option.map_some], (ensure_spaces ..).2 h⟩
        | register => exact absurd (by simp) hr
        | drop => exact absurd (by simp) hd
      exact ih _ hstep.1 hstep.2 (fun h => hr (List.mem_cons_of_mem _ h)) (fun h => hd (List.mem_cons_of_mem _ h))
        (fun h => he (List.mem_append_right _ h))
  exact key.2

/-- Nothing is made up: what the cache has was so at some time, with the user in the space. -/
theorem C98_safe (ops : List Op) (hw : Wf ops) (p q : String) (h : Has (run {} ops) p q) :
    ∃ pre, pre <+: flat ops ∧ Joined pre p ∧ Child pre p q := by
  induction ops using Util.snocRec with
  | nil => obtain ⟨k, hk, _⟩ := h; cases hk
  | append_singleton ops o ih =>
    have hw' : Wf ops := fun r evs h => hw r evs (List.mem_append_left _ h)
    have hi := run_inv ops hw'
    have hold : Has (run {} ops) p q → ∃ pre, pre <+: flat (ops ++ [o]) ∧ Joined pre p ∧ Child pre p q := by
      intro h
      obtain ⟨pre, h1, h2⟩ := ih hw' h
      exact ⟨pre, h1.trans (by rw [flat_snoc]; exact List.prefix_append _ _), h2⟩
    rw [run_snoc] at h
    cases o with
    | event r ev =>
      rcases (onEvent_has _ r ev p q).1 h with ⟨h1, rfl, rfl⟩ | h
      · refine ⟨flat ops ++ [(p, .child q true)], by rw [flat_snoc]; exact List.prefix_refl _, ?_, ?_⟩
        · rw [joined_snoc]; exact Or.inr ⟨by simp, (hi.joined p).1 h1⟩
        · rw [child_snoc]; exact Or.inl rfl
      · exact hold h
    | block r evs =>
      have hwb := hw r evs (by simp)
      have hfl : flat (ops ++ [.block r evs]) = flat ops ++ evs.map fun e => (r, e) := by rw [flat_snoc]; rfl
      rw [hfl] at hold ⊢
      have h : Has (onBlock (run {} ops) r evs) p q := h
      generalize run {} ops = s at *
      generalize flat ops = log at *
      unfold onBlock at h
      by_cases hj : r ∈ s.joined
      · rw [if_pos hj] at h
        clear hfl hw hw' hwb hj ih
        -- one by one
        have key : ∀ (evs : List Ev) (s : State) (log : Log), Inv s log → Has (evs.foldl (fun s ev => onEvent s r ev) s) p q →
            Has s p q ∨ ∃ pre, pre <+: (log ++ evs.map fun e => (r, e)) ∧ Joined pre p ∧ Child pre p q := by
          intro evs
          induction evs with
          | nil => intro s log _ h; exact Or.inl h
          | cons e evs ih =>
            intro s log hi h
            have hlog : log ++ (e :: evs).map (fun e => (r, e)) = (log ++ [(r, e)]) ++ evs.map fun e => (r, e) := by simp
            rw [hlog]
            rcases ih (onEvent s r e) (log ++ [(r, e)]) (onEvent_inv hi r e) h with h | h
            · rcases (onEvent_has s r e p q).1 h with ⟨h1, rfl, rfl⟩ | h
              · refine Or.inr ⟨log ++ [(p, .child q true)], List.prefix_append _ _, ?_, ?_⟩
                · rw [joined_snoc]; exact Or.inr ⟨by simp, (hi.joined p).1 h1⟩
                · rw [child_snoc]; exact Or.inl rfl
              · exact Or.inl h
            · exact Or.inr h
        rcases key evs s log hi h with h | h
        · exact hold h
        · exact h
      · rw [if_neg hj] at h
        by_cases hm : Ev.join ∈ evs
        · simp only [hm, decide_true, if_true] at h
          have key : ∀ (evs : List Ev), Has (evs.foldl (fun s ev => notify s r ev true) { s with joined := add s.joined r }) p q →
              Has s p q ∨ (p = r ∧ Child (log ++ evs.map fun e => (r, e)) p q) := by
            intro evs
            induction evs using Util.snocRec with
            | nil => intro h; exact Or.inl h
            | append_singleton evs e ih =>
              intro h
              rw [List.foldl_append] at h
              have hlog : log ++ (evs ++ [e]).map (fun e => (r, e)) = (log ++ evs.map fun e => (r, e)) ++ [(r, e)] := by simp
              rw [hlog, child_snoc]
              rcases (notify_has _ r e true p q).1 h with ⟨_, h1, h2⟩ | ⟨h, hn⟩
              · exact Or.inr ⟨h1, Or.inl (by rw [h1, h2])⟩
              · rcases ih h with h | ⟨h1, h2⟩
                · exact Or.inl h
                · refine Or.inr ⟨h1, Or.inr ⟨fun h' => hn ⟨rfl, h1, ?_⟩, h2⟩⟩
                  injection h'
          rcases key evs h with h | ⟨h1, h2⟩
          · exact hold h
          · refine ⟨_, List.prefix_refl _, ?_, h2⟩
            exact (joined_block log r evs hwb (fun h => hj ((hi.joined r).2 h)) p).2 (Or.inl ⟨h1, hm⟩)
        · simp only [hm, decide_false] at h
          rw [if_neg (by decide)] at h
          have key : ∀ (evs : List Ev) (s : State), Has (evs.foldl (fun s ev => notify s r ev false) s) p q → Has s p q := by
            intro evs
            induction evs with
            | nil => intro s h; exact h
            | cons e evs ih =>
              intro s h
              rcases (notify_has s r e false p q).1 (ih _ h) with ⟨h1, _⟩ | h
              · cases h1
              · exact h.1
          exact hold (key evs s h)
    | touch r =>
      obtain ⟨k, hk, h⟩ := h
      obtain ⟨k', hk', rfl⟩ := Option.map_eq_some_iff.1 hk
      rw [ensure_spaces] at h
      exact hold ⟨k', hk', h⟩
    | register =>
      have h' := (C98_registered ops hw' p q).1 (by rw [run_snoc]; exact h)
      exact ⟨_, List.prefix_refl _, h'.1, h'.2.2⟩
    | drop => obtain ⟨k, hk, _⟩ := h; cases hk

theorem notifies_good (p : String) (evs : List Ev) (hself : ∀ via, Ev.child p via ∉ evs) (s : State) (k : Cache) (hk : s.cache = some k)
    (hs : ∀ c, p ∈ spacesOf k c ↔ (p, c) ∈ s.children) (hne : (Assoc.get k p).isSome ∨ evs ≠ []) :
    ∃ k', (evs.foldl (fun s ev => notify s p ev true) s).cache = some k' ∧ (Assoc.get k' p).isSome ∧
      ∀ c, p ∈ spacesOf k' c ↔ (p, c) ∈ (evs.foldl (fun s ev => notify s p ev true) s).children := by
  induction evs generalizing s k with
  | nil => exact ⟨k, hk, hne.resolve_right (by simp), hs⟩
  | cons e evs ih =>
    have hkc : (global s p e).cache = some k := by
      rw [← hk]
      cases e with
      | child ch via => cases via <;> rfl
      | _ => rfl
    refine ih (fun via h => hself via (List.mem_cons_of_mem _ h)) (notify s p e true) (onNewEvent k p e) (by simp [notify, hkc]) ?_
      (Or.inl (get_onNewEvent k p e p (Or.inr rfl)))
    intro c
    rw [(notify_same s p e true).1, global_children, mem_onNewEvent, hs]
    constructor
    · rintro (⟨h1, h2, _⟩ | h)
      · exact Or.inl ⟨h1, h2⟩
      · exact Or.inr h
    · rintro (⟨h1, h2⟩ | h)
      · refine Or.inl ⟨h1, h2, fun h => hself true ?_⟩
        rw [← h.2, ← h2]; simp
      · exact Or.inr h

/-- The proxy learns of a space with a state block that has the user's join: the cache is right for it from then on, unless the block has
the space in itself. (With the join in the timeline after the block it is not, see `C98_violated_join`.) -/
theorem C98_block_partial (before after : List Op) (hw : Wf before) (hc : (run {} before).cache.isSome) (p : String) (evs : List Ev)
    (hnew : ∀ e, (p, e) ∉ flat before) (hwe : ¬ (Ev.join ∈ evs ∧ Ev.leave ∈ evs)) (hj : Ev.join ∈ evs)
    (hs : Space (evs.map fun e => (p, e)) p) (hself : ∀ via, Ev.child p via ∉ evs) (hw' : Wf after) (hk : Keeps p after) (c : String) :
    Has (run {} (before ++ .block p evs :: after)) p c ↔ Child (flat (before ++ .block p evs :: after)) p c := by
  have hi := run_inv before hw
  have hchild : ∀ c (pre : Log), pre <+: flat before → ¬ Child pre p c := by
    intro c pre hp h
    have := List.mem_of_find?_eq_some h
    exact hnew _ (hp.subset (List.mem_reverse.1 this))
  have hp : p ∉ (run {} before).joined := by
    rw [hi.joined]; intro h
    exact hnew _ (List.mem_reverse.1 (List.mem_of_find?_eq_some h))
  obtain ⟨k, hkc⟩ := Option.isSome_iff_exists.1 hc
  have hr : run {} (before ++ .block p evs :: after) = run (onBlock (run {} before) p evs) after := by simp [run, step]
  have hW : Wf (before ++ .block p evs :: after) := by
    intro r es h
    rcases List.mem_append.1 h with h | h
    · exact hw r es h
    · rcases List.mem_cons.1 h with h | h
      · cases h; exact hwe
      · exact hw' r es h
  have hib := onBlock_inv hi p evs hwe
  have hg : Good p (onBlock (run {} before) p evs) := by
    refine ⟨?_, ?_, ?_⟩
    · rw [hib.joined, joined_block _ p evs hwe (fun h => hp ((hi.joined p).2 h))]; exact Or.inl ⟨rfl, hj⟩
    · rw [hib.types]
      unfold Space at hs ⊢
      rw [List.reverse_append, List.findSome?_append, hs]; rfl
    · unfold onBlock
      rw [if_neg hp]
      simp only [hj, decide_true, if_true]
      refine notifies_good p evs hself _ k hkc ?_ (Or.inr (by rintro rfl; cases hj))
      intro c
      constructor
      · intro h
        obtain ⟨pre, h1, _, h3⟩ := C98_safe before hw p c ⟨k, hkc, h⟩
        exact absurd h3 (hchild c pre h1)
      · intro h
        exact absurd ((hi.children p c).1 h) (hchild c _ (List.prefix_refl _))
  rw [← (run_inv _ hW).children, hr]
  obtain ⟨k, hk', _, hc⟩ := (run_good after hk hg).cache
  rw [← hc]
  constructor
  · rintro ⟨k', e, h⟩; rw [hk'] at e; cases e; exact h
  · intro h; exact ⟨k, hk', h⟩

example : (run {} [.register]).cache.isSome ∧ (∀ e, ("!s", e) ∉ flat [.register]) ∧
    Space ([Ev.create "m.space", .join, .child "!c" true].map fun e => ("!s", e)) "!s" ∧
    ∀ via, Ev.child "!s" via ∉ [Ev.create "m.space", .join, .child "!c" true] :=
  ⟨by decide, by simp [flat, Op.events], by decide +kernel, by intro via; cases via <;> decide⟩

/-! ## Violations -/

/-- A user joins a space while there is a cache: the rooms in it are not in the space for the user, whatever happens, until there is an
event about the room in the space or a new cache. (The join is told to the cache; what was in the space before is not.) -/
theorem C98_violated_join (ops : List Op) (hr : .register ∉ ops) (he : ("!s", .child "!c" true) ∉ flat ops) :
    ¬ Has (run {} ([.event "!s" (.create "m.space"), .event "!s" (.child "!c" true), .register, .event "!s" .join] ++ ops)) "!s" "!c" := by
  have hs : run {} ([.event "!s" (.create "m.space"), .event "!s" (.child "!c" true), .register, .event "!s" .join] ++ ops) =
      run (run {} [.event "!s" (.create "m.space"), .event "!s" (.child "!c" true), .register, .event "!s" .join]) ops := by simp [run]
  rw [hs]
  refine C98_missing _ _ _ ?_ ops hr he
  rintro ⟨k, hk, h⟩
  have : (run {} [.event "!s" (.create "m.space"), .event "!s" (.child "!c" true), .register, .event "!s" .join]).cache = some [("!s", [])] := by
    decide +kernel
  rw [this] at hk; cases hk
  exact absurd h (by decide)

/-- A user leaves a space: the rooms in it stay in the space for the user, also when they are taken out of it. -/
theorem C98_violated_left (ops : List Op) (hr : .register ∉ ops) (hd : .drop ∉ ops) (he : ("!s", .join) ∉ flat ops) :
    Has (run {} ([.event "!s" (.create "m.space"), .event "!s" (.child "!c" true), .event "!s" .join, .register, .event "!s" .leave] ++ ops))
      "!s" "!c" := by
  have hs : run {} ([.event "!s" (.create "m.space"), .event "!s" (.child "!c" true), .event "!s" .join, .register, .event "!s" .leave] ++ ops) =
      run (run {} [.event "!s" (.create "m.space"), .event "!s" (.child "!c" true), .event "!s" .join, .register, .event "!s" .leave]) ops := by
    simp [run]
  rw [hs]
  refine C98_stays _ _ _ (by decide +kernel) ?_ ops hr hd he
  exact ⟨[("!c", ["!s"]), ("!s", [])], by decide +kernel, by decide⟩

/-- A room that is not a space counts as one if the event about the child comes while there is a cache, but not for a new cache. -/
theorem C98_violated_kind : Has (run {} [.event "!r" .join, .register, .event "!r" (.child "!c" true)]) "!r" "!c" ∧
    ¬ Has (run {} [.event "!r" .join, .register, .event "!r" (.child "!c" true), .register]) "!r" "!c" := by
  refine ⟨⟨[("!r", []), ("!c", ["!r"])], by decide +kernel, by decide⟩, ?_⟩
  rintro ⟨k, hk, h⟩
  have : (run {} [.event "!r" .join, .register, .event "!r" (.child "!c" true), .register]).cache = some [("!r", [])] := by decide +kernel
  rw [this] at hk; cases hk
  exact absurd h (by decide)

/-- A space that is in itself, and that fact is the first the cache hears of it: the entry is overwritten. -/
theorem C98_violated_self : ¬ Right [.register, .block "!s" [.child "!s" true, .create "m.space", .join]] := by
  intro h
  obtain ⟨k, hk, h⟩ := (h "!s" "!s").2 (by decide +kernel)
  have : (run {} [.register, .block "!s" [.child "!s" true, .create "m.space", .join]]).cache = some [("!s", [])] := by decide +kernel
  rw [this] at hk; cases hk
  exact absurd h (by decide)

end Verif.UserSpaces
