import Verif.ClientMeta
import Verif.RoomNameProps
/-!
# C78: a client that has caught up has the current name, avatar and counts of its rooms
-/
namespace Verif.ClientMeta

open Verif

/-! ## Specification -/

/-- The names the connection uses are the calculated ones. -/
def Names (nm : RoomName.Meta → String) : Prop := ∀ m, ∃ b, RoomName.Calculate m 5 (some (nm m, b))

def isEvent : Entry → Bool
  | .event _ _ => true
  | .other _ => false

/-- An event of the queue comes no earlier than `p`. -/
def notBefore (p : Nat) : Entry → Prop
  | .event n _ => p ≤ n
  | .other _ => True

/-- The events held back, as entries of the queue. -/
def heldEntries (s : S) : List Entry := s.held.map fun x => .event x.1 x.2

/-- What is assumed of a step: events come in the order of their numbers; the store is read up to a position the caches have reached;
no other update is made while an event is held back; and when a room is sent while updates are queued or held back, either none of
them is skipped, or all of them are events. -/
def OkStep (s : S) : Op → Prop
  | .dispatch n _ _ => s.nid < n
  | .other => s.held = []
  | .load p => p ≤ s.nid
  | .build p => p ≤ s.nid ∧ ((∀ e ∈ s.queue ++ heldEntries s, notBefore p e) ∨ ∀ e ∈ s.queue ++ heldEntries s, isEvent e = true)
  | _ => True

def OkHist (nm : RoomName.Meta → String) (start : S) (ops : List Op) : Prop :=
  ∀ a o b, ops = a ++ o :: b → OkStep (run nm start a) o

/-- The metadata which were current at some time. -/
def Always (P : M → Prop) (nm : RoomName.Meta → String) (start : S) (ops : List Op) : Prop :=
  ∀ a b, ops = a ++ b → P (run nm start a).cache

/-- A connection made when the room had the metadata `m`. -/
def fresh (nid : Nat) (m : M) : S := { nid := nid, cache := m }

/-! ## One field, while no event is held back -/

/-- A step as in `OkStep` by which no event is held back. -/
def PlainStep (s : S) : Op → Prop
  | .dispatch n _ own => s.nid < n ∧ own = false
  | .load p => p ≤ s.nid
  | .build p => p ≤ s.nid ∧ ((∀ e ∈ s.queue, notBefore p e) ∨ ∀ e ∈ s.queue, isEvent e = true)
  | _ => True

def PlainHist (nm : RoomName.Meta → String) (start : S) (ops : List Op) : Prop :=
  ∀ a o b, ops = a ++ o :: b → PlainStep (run nm start a) o


/-- A field of the view: what it depends on, when it is right, and when it is sent. -/
structure Field (nm : RoomName.Meta → String) (K : Type) where
  proj : M → K
  right : View → K → Prop
  sends : M → M → Bool
  built : ∀ m, right (viewOf nm m) (proj m)
  sent : ∀ old m v, sends old m = true → right (update nm old m v) (proj m)
  kept : ∀ old m v k, sends old m = false → right v k → right (update nm old m v) k

/-- A field that is not sent is still right. -/
def Law {nm : RoomName.Meta → String} {K : Type} (F : Field nm K) (P : M → Prop) : Prop :=
  ∀ v a b, P a → P b → F.sends a b = false → F.right v (F.proj a) → F.right v (F.proj b)

variable {nm : RoomName.Meta → String} {K : Type} (F : Field nm K) (P : M → Prop)

/-- The entries of a queue from metadata `x` to metadata `c`. -/
def Chain : K → List Entry → K → Prop
  | x, [], c => x = c
  | _, .event _ m :: q, c => Chain (F.proj m) q c
  | x, .other m :: q, c => F.proj m = x ∧ Chain x q c

def entryM : Entry → M
  | .event _ m => m
  | .other m => m

def below (n : Nat) : Entry → Prop
  | .event k _ => k ≤ n
  | .other _ => True

/-- Events are in the order of their numbers. -/
def ltE : Entry → Entry → Prop
  | .event a _, .event b _ => a < b
  | _, _ => True

structure Inv (s : S) : Prop where
  held : s.held = []
  lp : s.lp ≤ s.nid
  sorted : s.queue.Pairwise ltE
  below : ∀ e ∈ s.queue, below s.nid e
  last : ∀ e ∈ s.queue, isEvent e = true → ∃ m, Entry.event s.nid m ∈ s.queue
  ps : ∀ e ∈ s.queue, P (entryM e)
  pc : P s.cache
  px : ∀ x, s.existing = some x → P x
  base : ∃ base, Chain F base s.queue (F.proj s.cache) ∧
    (∀ x, s.existing = some x → (∀ e ∈ s.queue, isEvent e = false) → F.proj x = base) ∧
    (∀ v, s.client = some v → ∃ x, s.existing = some x ∧
      ((F.proj x = base ∧ F.right v base ∧ ∀ e ∈ s.queue, notBefore s.lp e) ∨
       ∃ q1 n m q2, s.queue = q1 ++ Entry.event n m :: q2 ∧ F.right v (F.proj m) ∧ s.lp ≤ n ∧
        ((∀ e ∈ q1, isEvent e = true) ∨ ∀ e ∈ s.queue, notBefore s.lp e)))

variable {F P}

theorem chain_snoc_event {x c : K} {q : List Entry} (h : Chain F x q c) (n : Nat) (m : M) : Chain F x (q ++ [.event n m]) (F.proj m) := by
  induction q generalizing x with
  | nil => rfl
  | cons e q ih =>
    cases e with
    | event k m' => exact ih h
    | other m' => exact ⟨h.1, ih h.2⟩

theorem chain_snoc_other {x : K} {q : List Entry} {m : M} (h : Chain F x q (F.proj m)) : Chain F x (q ++ [.other m]) (F.proj m) := by
  induction q generalizing x with
  | nil => exact ⟨h.symm, h⟩
  | cons e q ih =>
    cases e with
    | event k m' => exact ih h
    | other m' => exact ⟨h.1, ih h.2⟩

/-- Without events nothing changes. -/
theorem chain_others {x c : K} {q : List Entry} (h : Chain F x q c) (hq : ∀ e ∈ q, isEvent e = false) : x = c := by
  induction q with
  | nil => exact h
  | cons e q ih =>
    cases e with
    | event k m' => have := hq _ (List.mem_cons_self ..); simp [isEvent] at this
    | other m' => exact ih h.2 (fun e he => hq e (List.mem_cons_of_mem _ he))

theorem chain_append {x c : K} {q1 q2 : List Entry} (h : Chain F x (q1 ++ q2) c) : ∃ y, Chain F y q2 c := by
  induction q1 generalizing x with
  | nil => exact ⟨x, h⟩
  | cons e q ih =>
    cases e with
    | event k m' => exact ih h
    | other m' => exact ih h.2

/-- The last event has the current metadata. -/
theorem chain_last {x c : K} {q1 q2 : List Entry} {n : Nat} {m : M} (h : Chain F x (q1 ++ .event n m :: q2) c)
    (hq : ∀ e ∈ q2, isEvent e = false) : F.proj m = c := by
  obtain ⟨y, hy⟩ := chain_append h
  exact chain_others (F := F) (x := F.proj m) hy hq

/-- After the event with the highest number there is no event. -/
theorem after_last {q1 q2 : List Entry} {n : Nat} {m : M} (hs : (q1 ++ Entry.event n m :: q2).Pairwise ltE)
    (hb : ∀ e ∈ q1 ++ Entry.event n m :: q2, below n e) : ∀ e ∈ q2, isEvent e = false := by
  intro e he
  cases e with
  | other _ => rfl
  | event k m' =>
    exfalso
    have h1 := hb (.event k m') (by simp [he])
    rw [List.pairwise_append] at hs
    have h2 := (List.pairwise_cons.1 hs.2.1).1 _ he
    simp only [below] at h1
    simp only [ltE] at h2
    omega

/-- A step with a queue of the same events keeps the facts about the queue. -/
theorem inv_dispatch {s : S} (hi : Inv F P s) {n : Nat} {m : RoomName.Meta} (hn : s.nid < n) (hp : P { s.cache with room := m }) :
    Inv F P (step nm s (.dispatch n m false)) := by
  have hst : step nm s (.dispatch n m false) =
      { s with nid := n, cache := { s.cache with room := m }, queue := s.queue ++ [.event n { s.cache with room := m }] } := by
    simp [step, hi.held]
  rw [hst]
  obtain ⟨base, hc, hx, hv⟩ := hi.base
  refine ⟨hi.held, Nat.le_of_lt (Nat.lt_of_le_of_lt hi.lp hn), ?_, ?_, ?_, ?_, hp, hi.px, base, ?_, ?_, ?_⟩
  · simp only
    rw [List.pairwise_append]
    refine ⟨hi.sorted, by simp, fun a ha b hb => ?_⟩
    rw [List.mem_singleton.1 hb]
    have := hi.below a ha
    cases a with
    | event k m' => simp only [below] at this; simp only [ltE]; omega
    | other _ => trivial
  · intro e he
    rcases List.mem_append.1 he with he | he
    · have := hi.below e he
      cases e with
      | event k m' => simp only [below] at this ⊢; omega
      | other _ => trivial
    · rw [List.mem_singleton.1 he]; exact Nat.le_refl _
  · intro e _ _; exact ⟨{ s.cache with room := m }, by simp⟩
  · intro e he
    rcases List.mem_append.1 he with he | he
    · exact hi.ps e he
    · rw [List.mem_singleton.1 he]; exact hp
  · exact chain_snoc_event hc _ _
  · intro x _ hno
    have := hno (.event n { s.cache with room := m }) (by simp)
    simp [isEvent] at this
  · intro v hcl
    obtain ⟨x, hex, hor⟩ := hv v hcl
    refine ⟨x, hex, ?_⟩
    have hnb : (∀ e ∈ s.queue, notBefore s.lp e) → ∀ e ∈ s.queue ++ [.event n { s.cache with room := m }], notBefore s.lp e := by
      intro h e he
      rcases List.mem_append.1 he with he | he
      · exact h e he
      · rw [List.mem_singleton.1 he]
        have := hi.lp
        simp only [notBefore]; omega
    rcases hor with ⟨h1, h2, h3⟩ | ⟨q1, k, m', q2, hq, h2, h3, h4⟩
    · exact Or.inl ⟨h1, h2, hnb h3⟩
    · refine Or.inr ⟨q1, k, m', q2 ++ [.event n { s.cache with room := m }], by simp [hq], h2, h3, ?_⟩
      rcases h4 with h4 | h4
      · exact Or.inl h4
      · exact Or.inr (hnb h4)

theorem inv_other {s : S} (hi : Inv F P s) : Inv F P (step nm s .other) := by
  have hst : step nm s .other = { s with queue := s.queue ++ [.other s.cache] } := rfl
  rw [hst]
  obtain ⟨base, hc, hx, hv⟩ := hi.base
  refine ⟨hi.held, hi.lp, ?_, ?_, ?_, ?_, hi.pc, hi.px, base, ?_, ?_, ?_⟩
  · simp only
    rw [List.pairwise_append]
    refine ⟨hi.sorted, by simp, fun a ha b hb => ?_⟩
    rw [List.mem_singleton.1 hb]
    cases a <;> trivial
  · intro e he
    rcases List.mem_append.1 he with he | he
    · exact hi.below e he
    · rw [List.mem_singleton.1 he]; trivial
  · intro e he hev
    rcases List.mem_append.1 he with he | he
    · obtain ⟨m, hm⟩ := hi.last e he hev
      exact ⟨m, List.mem_append_left _ hm⟩
    · rw [List.mem_singleton.1 he] at hev; simp [isEvent] at hev
  · intro e he
    rcases List.mem_append.1 he with he | he
    · exact hi.ps e he
    · rw [List.mem_singleton.1 he]; exact hi.pc
  · exact chain_snoc_other hc
  · intro x hex hno
    exact hx x hex fun e he => hno e (List.mem_append_left _ he)
  · intro v hcl
    obtain ⟨x, hex, hor⟩ := hv v hcl
    refine ⟨x, hex, ?_⟩
    have hnb : (∀ e ∈ s.queue, notBefore s.lp e) → ∀ e ∈ s.queue ++ [.other s.cache], notBefore s.lp e := by
      intro h e he
      rcases List.mem_append.1 he with he | he
      · exact h e he
      · rw [List.mem_singleton.1 he]; trivial
    rcases hor with ⟨h1, h2, h3⟩ | ⟨q1, k, m', q2, hq, h2, h3, h4⟩
    · exact Or.inl ⟨h1, h2, hnb h3⟩
    · refine Or.inr ⟨q1, k, m', q2 ++ [.other s.cache], by simp [hq], h2, h3, ?_⟩
      rcases h4 with h4 | h4
      · exact Or.inl h4
      · exact Or.inr (hnb h4)

theorem inv_direct {s : S} (hi : Inv F P s) {d : Bool} (hp : P { s.cache with dm := d }) (hj : F.proj { s.cache with dm := d } = F.proj s.cache) :
    Inv F P (step nm s (.direct d)) := by
  have hst : step nm s (.direct d) = { s with cache := { s.cache with dm := d } } := rfl
  rw [hst]
  obtain ⟨base, hc, hx, hv⟩ := hi.base
  exact ⟨hi.held, hi.lp, hi.sorted, hi.below, hi.last, hi.ps, hp, hi.px, base, by simp only [hj]; exact hc, hx, hv⟩

theorem inv_load {s : S} (hi : Inv F P s) {p : Nat} (hp : p ≤ s.nid) : Inv F P (step nm s (.load p)) := by
  by_cases hn : s.existing = none
  · have hst : step nm s (.load p) = { s with existing := some s.cache, lp := p } := by simp [step, hn]
    rw [hst]
    obtain ⟨base, hc, hx, hv⟩ := hi.base
    refine ⟨hi.held, hp, hi.sorted, hi.below, hi.last, hi.ps, hi.pc, ?_, base, hc, ?_, ?_⟩
    · intro x hx'; simp only [Option.some.injEq] at hx'; rw [← hx']; exact hi.pc
    · intro x hx' hno; simp only [Option.some.injEq] at hx'; rw [← hx']; exact (chain_others hc hno).symm
    · intro v hcl
      obtain ⟨x, hex, _⟩ := hv v hcl
      rw [hn] at hex; cases hex
  · have hst : step nm s (.load p) = s := by simp [step, hn]
    rw [hst]; exact hi

theorem inv_build {s : S} (hi : Inv F P s) {p : Nat} (hp : p ≤ s.nid)
    (hq : (∀ e ∈ s.queue, notBefore p e) ∨ ∀ e ∈ s.queue, isEvent e = true) : Inv F P (step nm s (.build p)) := by
  by_cases hn : s.existing = none
  · have hst : step nm s (.build p) = s := by simp [step, hn]
    rw [hst]; exact hi
  have hst : step nm s (.build p) = { s with client := some (viewOf nm s.cache), lp := p } := by simp [step, hn]
  rw [hst]
  obtain ⟨base, hc, hx, hv⟩ := hi.base
  obtain ⟨x, hex⟩ := Option.ne_none_iff_exists'.1 hn
  refine ⟨hi.held, hp, hi.sorted, hi.below, hi.last, hi.ps, hi.pc, hi.px, base, hc, hx, ?_⟩
  intro v hcl
  simp only [Option.some.injEq] at hcl
  subst hcl
  refine ⟨x, hex, ?_⟩
  have hb := F.built s.cache
  by_cases hev : ∃ e ∈ s.queue, isEvent e = true
  · obtain ⟨e, he, hev⟩ := hev
    obtain ⟨m, hm⟩ := hi.last e he hev
    obtain ⟨q1, q2, hqe⟩ := List.append_of_mem hm
    right
    refine ⟨q1, s.nid, m, q2, hqe, ?_, hp, ?_⟩
    · have h2 := after_last (by rw [← hqe]; exact hi.sorted) (by rw [← hqe]; exact hi.below)
      rw [hqe] at hc
      rw [← chain_last hc h2] at hb; exact hb
    · rcases hq with hq | hq
      · exact Or.inr hq
      · exact Or.inl fun e he => hq e (by rw [hqe]; simp [he])
  · have hno : ∀ e ∈ s.queue, isEvent e = false := by
      intro e he
      cases h : isEvent e with
      | false => rfl
      | true => exact absurd ⟨e, he, h⟩ hev
    left
    have hbc := chain_others hc hno
    refine ⟨hx x hex hno, by rw [hbc]; exact hb, fun e he => ?_⟩
    cases e with
    | event k m => have := hno _ he; simp [isEvent] at this
    | other _ => trivial

theorem update_get {x m : M} {v : View} (hl : Law F P) (hx : P x) (hm : P m) (hs : F.right v (F.proj x)) :
    F.right (update nm x m v) (F.proj m) := by
  cases h : F.sends x m with
  | true => exact F.sent x m v h
  | false => exact F.kept x m v _ h (hl v x m hx hm h hs)

theorem inv_process {s : S} (hi : Inv F P s) (hl : Law F P) (vis inR : Bool) : Inv F P (step nm s (.process vis inR)) := by
  cases hex : s.existing with
  | none =>
    have hst : step nm s (.process vis inR) = s := by simp [step, hex]
    rw [hst]; exact hi
  | some x =>
  obtain ⟨base, hc, hx, hv⟩ := hi.base
  cases hq : s.queue with
  | nil =>
    have hst : step nm s (.process vis inR) = s := by simp [step, hex, process, hq]
    rw [hst]; exact hi
  | cons e q =>
  have hsub : ∀ e' ∈ q, e' ∈ s.queue := fun e' he' => by rw [hq]; exact List.mem_cons_of_mem _ he'
  have hso := hi.sorted
  rw [hq] at hso hc
  have hso' := (List.pairwise_cons.1 hso).2
  have hso1 := (List.pairwise_cons.1 hso).1
  have hpx := hi.px x hex
  have hpe := hi.ps e (by rw [hq]; simp)
  -- the last event is still there, unless it is the one taken
  have hlast : ∀ e' ∈ q, isEvent e' = true → ∃ m, Entry.event s.nid m ∈ q := by
    intro e' he' hev
    obtain ⟨m, hm⟩ := hi.last e' (hsub e' he') hev
    rw [hq] at hm
    rcases List.mem_cons.1 hm with hm | hm
    · exfalso
      have h1 := hso1 e' he'
      rw [← hm] at h1
      have h2 := hi.below e' (hsub e' he')
      cases e' with
      | event k m' => simp only [ltE] at h1; simp only [below] at h2; omega
      | other _ => simp [isEvent] at hev
    · exact ⟨m, hm⟩
  cases e with
  | event n m =>
    have hnn : n ≤ s.nid := hi.below (.event n m) (by rw [hq]; simp)
    have hc' : Chain F (F.proj m) q (F.proj s.cache) := hc
    have hafter : ∀ e' ∈ q, notBefore n e' := by
      intro e' he'
      have := hso1 e' he'
      cases e' with
      | event k m' => simp only [ltE] at this; simp only [notBefore]; omega
      | other _ => trivial
    by_cases hsk : s.lp > 0 ∧ n < s.lp
    · have hst : step nm s (.process vis inR) = { s with queue := q } := by simp [step, hex, process, hq, hsk]
      rw [hst]
      refine ⟨hi.held, hi.lp, hso', fun e' he' => hi.below e' (hsub e' he'), hlast, fun e' he' => hi.ps e' (hsub e' he'), hi.pc, hi.px,
        F.proj m, hc', ?_, ?_⟩
      · intro x' _ hno
        exfalso
        obtain ⟨m', hm'⟩ := hi.last (.event n m) (by rw [hq]; simp) rfl
        rw [hq] at hm'
        rcases List.mem_cons.1 hm' with hm' | hm'
        · have := hi.lp
          simp only [Entry.event.injEq] at hm'
          omega
        · have := hno _ hm'; simp [isEvent] at this
      · intro v hcl
        obtain ⟨x', hex', hor⟩ := hv v hcl
        refine ⟨x', hex', Or.inr ?_⟩
        rcases hor with ⟨h1, h2, h3⟩ | ⟨q1, k, m', q2, hqe, h2, h3, h4⟩
        · have := h3 (.event n m) (by rw [hq]; simp)
          simp only [notBefore] at this; omega
        · rw [hq] at hqe
          cases q1 with
          | nil =>
            simp only [List.nil_append, List.cons.injEq, Entry.event.injEq] at hqe
            omega
          | cons e1 q1 =>
            simp only [List.cons_append, List.cons.injEq] at hqe
            refine ⟨q1, k, m', q2, hqe.2, h2, h3, ?_⟩
            rcases h4 with h4 | h4
            · exact Or.inl fun e' he' => h4 e' (List.mem_cons_of_mem _ he')
            · exact Or.inr fun e' he' => h4 e' (hsub e' he')
    · cases vis with
      | true =>
        have hst : step nm s (.process true inR) =
            { s with queue := q, existing := some m, lp := n, client := s.client.map (update nm x m) } := by
          simp [step, hex, process, hq, hsk]
        rw [hst]
        refine ⟨hi.held, hnn, hso', fun e' he' => hi.below e' (hsub e' he'), hlast, fun e' he' => hi.ps e' (hsub e' he'), hi.pc, ?_,
          F.proj m, hc', ?_, ?_⟩
        · intro x' hx'; simp only [Option.some.injEq] at hx'; rw [← hx']; exact hpe
        · intro x' hx' _; simp only [Option.some.injEq] at hx'; rw [hx']
        · intro v' hcl
          simp only [Option.map_eq_some_iff] at hcl
          obtain ⟨v, hcl, rfl⟩ := hcl
          refine ⟨m, rfl, ?_⟩
          obtain ⟨x', hex', hor⟩ := hv v hcl
          rw [hex] at hex'; cases hex'
          rcases hor with ⟨h1, h2, h3⟩ | ⟨q1, k, m', q2, hqe, h2, h3, h4⟩
          · left
            exact ⟨rfl, update_get hl hpx hpe (by rw [h1]; exact h2), hafter⟩
          · by_cases hsend : F.sends x m = true
            · left
              exact ⟨rfl, F.sent x m v hsend, hafter⟩
            · rw [hq] at hqe
              have hg : ∀ k, F.right v k → F.right (update nm x m v) k := fun k => F.kept x m v k (by simpa using hsend)
              cases q1 with
              | nil =>
                simp only [List.nil_append, List.cons.injEq, Entry.event.injEq] at hqe
                left
                exact ⟨rfl, hg _ (by rw [hqe.1.2]; exact h2), hafter⟩
              | cons e1 q1 =>
                simp only [List.cons_append, List.cons.injEq] at hqe
                right
                refine ⟨q1, k, m', q2, hqe.2, hg _ h2, ?_, Or.inr hafter⟩
                have := hafter (.event k m') (by rw [hqe.2]; simp)
                simpa [notBefore] using this
      | false =>
        have hst : step nm s (.process false inR) = { s with queue := q, existing := some m, client := none } := by
          simp [step, hex, process, hq, hsk]
        rw [hst]
        refine ⟨hi.held, hi.lp, hso', fun e' he' => hi.below e' (hsub e' he'), hlast, fun e' he' => hi.ps e' (hsub e' he'), hi.pc, ?_,
          F.proj m, hc', ?_, ?_⟩
        · intro x' hx'; simp only [Option.some.injEq] at hx'; rw [← hx']; exact hpe
        · intro x' hx' _; simp only [Option.some.injEq] at hx'; rw [hx']
        · intro v hcl; simp at hcl
  | other m =>
    have hc' : F.proj m = base ∧ Chain F base q (F.proj s.cache) := hc
    have hst : step nm s (.process vis inR) =
        { s with queue := q, existing := some m, client := if inR then s.client.map (update nm x m) else s.client } := by
      simp [step, hex, process, hq]
    rw [hst]
    refine ⟨hi.held, hi.lp, hso', fun e' he' => hi.below e' (hsub e' he'), hlast, fun e' he' => hi.ps e' (hsub e' he'), hi.pc, ?_,
      base, hc'.2, ?_, ?_⟩
    · intro x' hx'; simp only [Option.some.injEq] at hx'; rw [← hx']; exact hpe
    · intro x' hx' _; simp only [Option.some.injEq] at hx'; rw [← hx', hc'.1]
    · intro v' hcl
      have hv' : ∃ v, s.client = some v ∧ (v' = v ∨ (v' = update nm x m v)) := by
        cases inR with
        | true =>
          simp only [if_true, Option.map_eq_some_iff] at hcl
          obtain ⟨v, h1, h2⟩ := hcl
          exact ⟨v, h1, Or.inr h2.symm⟩
        | false => exact ⟨v', by simpa using hcl, Or.inl rfl⟩
      obtain ⟨v, hcl, hor'⟩ := hv'
      refine ⟨m, rfl, ?_⟩
      obtain ⟨x', hex', hor⟩ := hv v hcl
      rw [hex] at hex'; cases hex'
      rcases hor with ⟨h1, h2, h3⟩ | ⟨q1, k, m', q2, hqe, h2, h3, h4⟩
      · left
        refine ⟨hc'.1, ?_, fun e' he' => h3 e' (hsub e' he')⟩
        rcases hor' with rfl | rfl
        · exact h2
        · rw [← hc'.1]; exact update_get hl hpx hpe (by rw [h1]; exact h2)
      · rw [hq] at hqe
        cases q1 with
        | nil => simp at hqe
        | cons e1 q1 =>
          simp only [List.cons_append, List.cons.injEq] at hqe
          rcases h4 with h4 | h4
          · have := h4 e1 (by simp)
            rw [← hqe.1] at this; simp [isEvent] at this
          · have hkeep : (∀ k, F.right v k → F.right v' k) → ∃ q1 n m q2, q = q1 ++ Entry.event n m :: q2 ∧ F.right v' (F.proj m) ∧ s.lp ≤ n ∧
                ((∀ e ∈ q1, isEvent e = true) ∨ ∀ e ∈ q, notBefore s.lp e) :=
              fun hg => ⟨q1, k, m', q2, hqe.2, hg _ h2, h3, Or.inr fun e' he' => h4 e' (hsub e' he')⟩
            rcases hor' with rfl | hu
            · exact Or.inr (hkeep fun _ h => h)
            · by_cases hsend : F.sends x m = true
              · left
                refine ⟨hc'.1, ?_, fun e' he' => h4 e' (hsub e' he')⟩
                rw [hu, ← hc'.1]; exact F.sent x m v hsend
              · right
                exact hkeep (fun k h => by rw [hu]; exact F.kept x m v k (by simpa using hsend) h)

theorem run_snoc (nm : RoomName.Meta → String) (s : S) (l : List Op) (o : Op) : run nm s (l ++ [o]) = step nm (run nm s l) o := by
  unfold run; rw [List.foldl_append]; rfl

theorem inv_fresh (nid : Nat) (m : M) (hp : P m) : Inv F P (fresh nid m) :=
  ⟨rfl, Nat.zero_le _, by simp [fresh], by simp [fresh], by simp [fresh], by simp [fresh], hp, by simp [fresh],
    F.proj m, rfl, by simp [fresh], by simp [fresh]⟩

/-- A change of `m.direct` leaves the field as it is. -/
def Steady (F : Field nm K) (ops : List Op) (start : S) : Prop :=
  ∀ a d b, ops = a ++ .direct d :: b → F.proj { (run nm start a).cache with dm := d } = F.proj (run nm start a).cache

theorem run_inv (hl : Law F P) (nid : Nat) (m : M) (ops : List Op) (hok : PlainHist nm (fresh nid m) ops)
    (hp : Always P nm (fresh nid m) ops) (hd : Steady F ops (fresh nid m)) : Inv F P (run nm (fresh nid m) ops) := by
  induction ops using Util.snocRec with
  | nil => exact inv_fresh nid m (hp [] [] rfl)
  | append_singleton l o ih =>
    have hi := ih (fun a x b he => hok a x (b ++ [o]) (by rw [he]; simp)) (fun a b he => hp a (b ++ [o]) (by rw [he]; simp))
      (fun a d b he => hd a d (b ++ [o]) (by rw [he]; simp))
    have ho := hok l o [] rfl
    have hp' := hp (l ++ [o]) [] (by simp)
    rw [run_snoc] at hp' ⊢
    cases o with
    | dispatch n mm own =>
      obtain ⟨h1, rfl⟩ := ho
      refine inv_dispatch hi h1 ?_
      simp only [step, hi.held] at hp'
      simpa using hp'
    | other => exact inv_other hi
    | direct d => exact inv_direct hi hp' (hd l d [] rfl)
    | release =>
      have hst : step nm (run nm (fresh nid m) l) .release = run nm (fresh nid m) l := by simp [step, hi.held]
      rw [hst]; exact hi
    | load p => exact inv_load hi ho
    | build p => exact inv_build hi ho.1 ho.2
    | process vis inR => exact inv_process hi hl vis inR

theorem current_plain (hl : Law F P) (nid : Nat) (m : M) (ops : List Op) (hok : PlainHist nm (fresh nid m) ops)
    (hp : Always P nm (fresh nid m) ops) (hd : Steady F ops (fresh nid m)) (hq : (run nm (fresh nid m) ops).queue = [])
    {v : View} (hv : (run nm (fresh nid m) ops).client = some v) : F.right v (F.proj (run nm (fresh nid m) ops).cache) := by
  have hi := run_inv hl nid m ops hok hp hd
  obtain ⟨base, hc, _, h⟩ := hi.base
  rw [hq] at hc
  have hc : base = F.proj (run nm (fresh nid m) ops).cache := hc
  obtain ⟨x, _, hor⟩ := h v hv
  rcases hor with ⟨_, h2, _⟩ | ⟨q1, k, m', q2, hqe, _⟩
  · rw [← hc]; exact h2
  · rw [hq] at hqe; simp at hqe

/-! ## Events held back -/

/-- The events held back are put into the queue. -/
def flat (s : S) : S := { s with queue := s.queue ++ heldEntries s, held := [] }

/-- A step is, seen with the events held back in the queue, a step by which nothing is held back, or none. -/
theorem flat_step (nm : RoomName.Meta → String) (s : S) (o : Op) (ho : OkStep s o) :
    flat (step nm s o) = flat s ∨
      ∃ o', flat (step nm s o) = step nm (flat s) o' ∧ PlainStep (flat s) o' ∧ ∀ d, o' = .direct d → o = .direct d := by
  cases o with
  | dispatch n m own =>
    refine Or.inr ⟨.dispatch n m false, ?_, ⟨ho, rfl⟩, fun d hd => nomatch hd⟩
    by_cases hc : own = true ∨ s.held ≠ []
    · simp [step, flat, heldEntries, hc]
    · have hh : s.held = [] := Classical.byContradiction fun h => hc (Or.inr h)
      have hb : own = false := by
        cases own with
        | false => rfl
        | true => exact absurd (Or.inl rfl) hc
      simp [step, flat, heldEntries, hh, hb]
  | other =>
    have hh : s.held = [] := ho
    exact Or.inr ⟨.other, by simp [step, flat, heldEntries, hh], trivial, fun d hd => nomatch hd⟩
  | direct d => exact Or.inr ⟨.direct d, rfl, trivial, fun d' hd => hd⟩
  | release =>
    left
    cases hh : s.held with
    | nil => simp [step, hh]
    | cons x h => simp [step, flat, heldEntries, hh]
  | load p =>
    refine Or.inr ⟨.load p, ?_, ho, fun d hd => nomatch hd⟩
    by_cases he : s.existing = none <;> simp [step, flat, heldEntries, he]
  | build p =>
    refine Or.inr ⟨.build p, ?_, ho, fun d hd => nomatch hd⟩
    by_cases he : s.existing = none <;> simp [step, flat, heldEntries, he]
  | process vis inR =>
    cases hex : s.existing with
    | none => left; simp [step, hex]
    | some x =>
      cases hq : s.queue with
      | nil => left; simp [step, hex, process, hq]
      | cons e q =>
        refine Or.inr ⟨.process vis inR, ?_, trivial, fun d hd => nomatch hd⟩
        cases e with
        | other m => simp [step, hex, process, hq, flat, heldEntries]
        | event n m =>
          by_cases hsk : s.lp > 0 ∧ n < s.lp
          · simp [step, hex, process, hq, flat, heldEntries, hsk]
          · cases vis <;> simp [step, hex, process, hq, flat, heldEntries, hsk]

/-- What has been gone through is, seen with the events held back in the queue, a history in which nothing is held back. -/
theorem flat_run (nid : Nat) (m : M) (ops : List Op) (hok : OkHist nm (fresh nid m) ops)
    (hp : Always P nm (fresh nid m) ops) (hd : Steady F ops (fresh nid m)) :
    ∃ ops', flat (run nm (fresh nid m) ops) = run nm (fresh nid m) ops' ∧ PlainHist nm (fresh nid m) ops' ∧
      Always P nm (fresh nid m) ops' ∧ Steady F ops' (fresh nid m) := by
  induction ops using Util.snocRec with
  | nil =>
    refine ⟨[], rfl, fun a x b he => ?_, hp, fun a x b he => ?_⟩
    · simp at he
    · simp at he
  | append_singleton l o ih =>
    obtain ⟨l', hf, h1, h2, h3⟩ := ih (fun a x b he => hok a x (b ++ [o]) (by rw [he]; simp))
      (fun a b he => hp a (b ++ [o]) (by rw [he]; simp)) (fun a d b he => hd a d (b ++ [o]) (by rw [he]; simp))
    have hpo := hp (l ++ [o]) [] (by simp)
    rw [run_snoc] at hpo ⊢
    rcases flat_step nm _ o (hok l o [] rfl) with he | ⟨o', he, hs, hdir⟩
    · exact ⟨l', he.trans hf, h1, h2, h3⟩
    · rw [hf] at he hs
      have hsplit : ∀ a x b, l' ++ [o'] = a ++ x :: b → (a = l' ∧ x = o') ∨ ∃ b', l' = a ++ x :: b' := by
        intro a x b hab
        rcases List.eq_nil_or_concat b with rfl | ⟨b', y, rfl⟩
        · have := List.append_inj' hab rfl
          exact Or.inl ⟨this.1.symm, by simpa using this.2.symm⟩
        · have hab : l' ++ [o'] = (a ++ x :: b') ++ [y] := by rw [hab]; simp
          exact Or.inr ⟨b', (List.append_inj' hab rfl).1⟩
      have hcache : (flat (step nm (run nm (fresh nid m) l) o)).cache = (step nm (run nm (fresh nid m) l) o).cache := rfl
      refine ⟨l' ++ [o'], by rw [run_snoc]; exact he, ?_, ?_, ?_⟩
      · intro a x b hab
        rcases hsplit a x b hab with ⟨rfl, rfl⟩ | ⟨b', hb⟩
        · exact hs
        · exact h1 a x b' hb
      · intro a b hab
        rcases List.eq_nil_or_concat b with rfl | ⟨b', y, rfl⟩
        · rw [List.append_nil] at hab
          rw [← hab, run_snoc, ← he]; exact hpo
        · have hab : l' ++ [o'] = (a ++ b') ++ [y] := by rw [hab]; simp
          exact h2 a b' (List.append_inj' hab rfl).1
      · intro a d b hab
        rcases hsplit a (.direct d) b hab with ⟨rfl, hx⟩ | ⟨b', hb⟩
        · have hod := hdir d hx.symm
          have := hd l d [] (by rw [hod])
          rw [← hf]; exact this
        · exact h3 a d b' hb

/-- A field is right once nothing is queued or held back. -/
theorem current (hl : Law F P) (nid : Nat) (m : M) (ops : List Op) (hok : OkHist nm (fresh nid m) ops)
    (hp : Always P nm (fresh nid m) ops) (hd : Steady F ops (fresh nid m)) (hq : (run nm (fresh nid m) ops).queue = [])
    (hh : (run nm (fresh nid m) ops).held = [])
    {v : View} (hv : (run nm (fresh nid m) ops).client = some v) : F.right v (F.proj (run nm (fresh nid m) ops).cache) := by
  obtain ⟨ops', hf, h1, h2, h3⟩ := flat_run nid m ops hok hp hd
  have := current_plain hl nid m ops' h1 h2 h3 (by rw [← hf]; simp [flat, heldEntries, hq, hh]) (v := v) (by rw [← hf]; exact hv)
  rw [← hf] at this
  exact this

/-! ## The fields -/

def nameField (nm : RoomName.Meta → String) : Field nm RoomName.Meta where
  proj m := m.room
  right v m := v.name = nm m
  sends a b := !RoomName.sameRoomName a.room b.room && decide (nm b.room ≠ "")
  built _ := rfl
  sent a b v h := by
    show (if !RoomName.sameRoomName a.room b.room && decide (nm b.room ≠ "") then _ else _) = _
    rw [if_pos h]
  kept a b v k h hr := by
    show (if !RoomName.sameRoomName a.room b.room && decide (nm b.room ≠ "") then _ else _) = _
    rw [if_neg (by rw [h]; simp)]; exact hr

def joinedField (nm : RoomName.Meta → String) : Field nm RoomName.Meta where
  proj m := m.room
  right v m := v.joined = m.joinCount
  sends a b := decide (a.room.joinCount ≠ b.room.joinCount) && decide (b.room.joinCount ≠ 0)
  built _ := rfl
  sent a b v h := by
    show (if decide (a.room.joinCount ≠ b.room.joinCount) && decide (b.room.joinCount ≠ 0) then _ else _) = _
    rw [if_pos h]
  kept a b v k h hr := by
    show (if decide (a.room.joinCount ≠ b.room.joinCount) && decide (b.room.joinCount ≠ 0) then _ else _) = _
    rw [if_neg (by rw [h]; simp)]; exact hr

def invitedField (nm : RoomName.Meta → String) : Field nm RoomName.Meta where
  proj m := m.room
  right v m := v.invited = m.inviteCount
  sends a b := decide (a.room.inviteCount ≠ b.room.inviteCount)
  built _ := rfl
  sent a b v h := by
    show (if decide (a.room.inviteCount ≠ b.room.inviteCount) then _ else _) = _
    rw [if_pos h]
  kept a b v k h hr := by
    show (if decide (a.room.inviteCount ≠ b.room.inviteCount) then _ else _) = _
    rw [if_neg (by rw [h]; simp)]; exact hr

def avatarField (nm : RoomName.Meta → String) : Field nm M where
  proj m := m
  right v m := v.avatar = marshalAvatar (newAvatarChange (RoomName.calculateAvatar m.room m.dm))
  sends a b := !sameRoomAvatar a b
  built _ := rfl
  sent a b v h := by
    show (if !sameRoomAvatar a b then _ else _) = _
    rw [if_pos h]
  kept a b v k h hr := by
    show (if !sameRoomAvatar a b then _ else _) = _
    rw [if_neg (by rw [h]; simp)]; exact hr

theorem name_law (hnm : Names nm) : Law (nameField nm) (fun m => nm m.room ≠ "") := by
  intro v a b _ hb hs hr
  refine Eq.trans hr ?_
  simp only [nameField, Bool.and_eq_false_iff, Bool.not_eq_false', decide_eq_false_iff_not] at hs ⊢
  rcases hs with hs | hs
  · obtain ⟨ba, ha'⟩ := hnm a.room
    obtain ⟨bb, hb'⟩ := hnm b.room
    have := RoomName.C56_same_name a.room b.room 5 hs _ _ ha' hb'
    simp only [Option.some.injEq, Prod.mk.injEq] at this
    exact this.1
  · exact absurd hb hs

theorem joined_law : Law (joinedField nm) (fun m => m.room.joinCount ≠ 0) := by
  intro v a b _ hb hs hr
  refine Eq.trans hr ?_
  simp only [joinedField, Bool.and_eq_false_iff, decide_eq_false_iff_not, Decidable.not_not] at hs ⊢
  rcases hs with hs | hs
  · exact hs
  · exact absurd hs hb

theorem invited_law : Law (invitedField nm) (fun _ => True) := by
  intro v a b _ _ hs hr
  refine Eq.trans hr ?_
  simpa [invitedField] using hs

theorem sameHeroAvatars_spec {a b : List RoomName.Hero} (h : sameHeroAvatars a b = true) :
    a.map (fun x => (x.id, x.avatar)) = b.map fun x => (x.id, x.avatar) := by
  induction a generalizing b with
  | nil => cases b with
    | nil => rfl
    | cons _ _ => simp [sameHeroAvatars] at h
  | cons x a ih => cases b with
    | nil => simp [sameHeroAvatars] at h
    | cons y b =>
      simp only [sameHeroAvatars, Bool.and_eq_true, decide_eq_true_eq] at h
      simp only [List.map_cons, h.1.1, h.1.2, ih h.2]

/-- The avatar of a room: that of the room, else for a direct chat that of the one other member, else none. -/
def avatarSpec (m : M) : Option String :=
  if m.room.avatarEvent ≠ "" then (if m.room.avatarEvent = "<no-avatar>" then none else some m.room.avatarEvent)
  else if m.dm = true ∧ m.room.heroes.length = 1 then
    (m.room.heroes.map fun h => if h.avatar = "" ∨ h.avatar = "<no-avatar>" then none else some h.avatar).head?.join
  else none

theorem avatar_eq (m : M) : marshalAvatar (newAvatarChange (RoomName.calculateAvatar m.room m.dm)) = avatarSpec m := by
  unfold avatarSpec RoomName.calculateAvatar newAvatarChange marshalAvatar
  by_cases ha : m.room.avatarEvent = ""
  · simp only [ha, ne_eq, not_true_eq_false, if_false]
    rcases hh : m.room.heroes with _ | ⟨h, _ | ⟨h2, l⟩⟩
    · simp
    · cases hd : m.dm
      · simp
      · by_cases h1 : h.avatar = "" <;> by_cases h2 : h.avatar = "<no-avatar>" <;> simp [h1, h2]
    · simp
  · simp [ha]

theorem avatar_law (d : Bool) : Law (avatarField nm) (fun m => m.dm = d) := by
  intro v a b ha hb hs hr
  refine Eq.trans hr ?_
  simp only [avatarField, Bool.not_eq_false'] at hs ⊢
  rw [avatar_eq, avatar_eq]
  unfold sameRoomAvatar at hs
  unfold avatarSpec
  cases d with
  | true =>
    rw [hb, if_pos rfl] at hs
    simp only [Bool.and_eq_true, decide_eq_true_eq] at hs
    obtain ⟨⟨h1, h2⟩, h3⟩ := hs
    have h4 := sameHeroAvatars_spec h2
    have h5 : a.room.heroes.length = b.room.heroes.length := by simpa using congrArg List.length h4
    have h6 : a.room.heroes.map (·.avatar) = b.room.heroes.map (·.avatar) := by
      have := congrArg (List.map Prod.snd) h4
      simpa [List.map_map, Function.comp_def] using this
    have h7 : ∀ l : List RoomName.Hero, (l.map fun h => if h.avatar = "" ∨ h.avatar = "<no-avatar>" then none else some h.avatar) =
        (l.map (·.avatar)).map fun s => if s = "" ∨ s = "<no-avatar>" then none else some s := by
      intro l; rw [List.map_map]; rfl
    rw [h1, ha, hb, h5, h7, h7, h6]
  | false =>
    rw [hb, if_neg (by simp)] at hs
    simp only [decide_eq_true_eq] at hs
    rw [hs, ha, hb]
    simp

/-! ## C78 -/

/-- A client that has processed all updates has the name calculated from the current metadata.  Missing: typing, receipts and
the like made while an event is held back (`C78_violated_held`) and rooms sent while the caches lag behind the store (`C78_violated_race`); see `OkStep`. -/
theorem C78_name_partial (nm : RoomName.Meta → String) (hnm : Names nm) (nid : Nat) (m : M) (ops : List Op)
    (hok : OkHist nm (fresh nid m) ops) (hp : Always (fun m => nm m.room ≠ "") nm (fresh nid m) ops)
    (hq : (run nm (fresh nid m) ops).queue = [])
    (hh : (run nm (fresh nid m) ops).held = []) (v : View) (hv : (run nm (fresh nid m) ops).client = some v) :
    ∃ b, RoomName.Calculate (run nm (fresh nid m) ops).cache.room 5 (some (v.name, b)) := by
  have := current (F := nameField nm) (name_law hnm) nid m ops hok hp (fun _ _ _ _ => rfl) hq hh hv
  have h2 : v.name = nm (run nm (fresh nid m) ops).cache.room := this
  rw [h2]
  exact hnm _

/-- It has the current member counts.  Missing: as above, and a join count of zero, which is not sent. -/
theorem C78_counts_partial (nm : RoomName.Meta → String) (nid : Nat) (m : M) (ops : List Op)
    (hok : OkHist nm (fresh nid m) ops) (hp : Always (fun m => m.room.joinCount ≠ 0) nm (fresh nid m) ops)
    (hq : (run nm (fresh nid m) ops).queue = [])
    (hh : (run nm (fresh nid m) ops).held = []) (v : View) (hv : (run nm (fresh nid m) ops).client = some v) :
    v.joined = (run nm (fresh nid m) ops).cache.room.joinCount ∧ v.invited = (run nm (fresh nid m) ops).cache.room.inviteCount :=
  ⟨current (F := joinedField nm) joined_law nid m ops hok hp (fun _ _ _ _ => rfl) hq hh hv,
    current (F := invitedField nm) invited_law nid m ops hok (fun _ _ _ => trivial) (fun _ _ _ _ => rfl) hq hh hv⟩

/-- It has the current avatar.  Missing: as above, and rooms which become or cease to be direct chats
(`C78_violated_direct`, `C78_violated_not_direct`). -/
theorem C78_avatar_partial (nm : RoomName.Meta → String) (nid : Nat) (m : M) (ops : List Op) (d : Bool)
    (hok : OkHist nm (fresh nid m) ops) (hd : Always (fun m => m.dm = d) nm (fresh nid m) ops)
    (hq : (run nm (fresh nid m) ops).queue = [])
    (hh : (run nm (fresh nid m) ops).held = []) (v : View) (hv : (run nm (fresh nid m) ops).client = some v) :
    v.avatar = avatarSpec (run nm (fresh nid m) ops).cache := by
  have := current (F := avatarField nm) (avatar_law d) nid m ops hok hd ?_ hq hh hv
  · rw [← avatar_eq]; exact this
  · intro a x b he
    have h1 := hd a (.direct x :: b) he
    have h2 := hd (a ++ [.direct x]) b (by rw [he]; simp)
    rw [run_snoc] at h2
    simp only [step] at h2
    simp only [avatarField]
    rw [h2, ← h1]

/-! ## Where the code disagrees -/

/-- Names by their specification. -/
def spec (m : RoomName.Meta) : String := (RoomName.nameSpec m 5).1

theorem calculate_exists (m : RoomName.Meta) (n : Nat) : ∃ res, RoomName.Calculate m n res := by
  unfold RoomName.Calculate
  by_cases h1 : m.nameEvent ≠ ""
  · exact ⟨_, by rw [if_pos h1]⟩
  · by_cases h2 : m.alias ≠ ""
    · exact ⟨_, by rw [if_neg h1, if_pos h2]⟩
    · exact ⟨_, by rw [if_neg h1, if_neg h2]; exact ⟨_, ⟨_, List.Perm.refl _, rfl⟩, rfl⟩⟩

/-- The names used below are the calculated ones, so `Names` can be met. -/
theorem spec_names : Names spec := by
  intro m
  obtain ⟨res, h⟩ := calculate_exists m 5
  have := RoomName.C56_name m 5 res h
  rw [this] at h
  exact ⟨_, h⟩

def named (n : String) : RoomName.Meta := { roomID := "!r", nameEvent := n, joinCount := 2 }

/-- The user sends a message, which is held back; somebody renames the room, and that is held back behind it; the message is released;
a typing update, not held back, brings the new name into the lists without sending it; the rename is released and nothing seems to have
changed.  The client keeps the old name. -/
theorem C78_violated_held : ∃ ops, let s := run spec (fresh 1 ⟨named "A", false⟩) ops
    s.queue = [] ∧ s.held = [] ∧ s.cache.room.nameEvent = "B" ∧ s.client.map (·.name) = some "A" :=
  ⟨[.load 1, .build 1, .dispatch 2 (named "A") true, .dispatch 3 (named "B") false, .release, .process true false,
    .other, .process true false, .release, .process true false], by decide +kernel⟩

/-- Two renames are stored when the connection is made, one of them has reached the caches: the second, back to the first name, is not
sent. -/
theorem C78_violated_race : ∃ ops, let s := run spec (fresh 4 ⟨named "A", false⟩) ops
    s.queue = [] ∧ s.held = [] ∧ s.cache.room.nameEvent = "A" ∧ s.client.map (·.name) = some "B" :=
  ⟨[.load 6, .dispatch 5 (named "B") false, .build 6, .dispatch 6 (named "A") false, .process true false, .process true false],
    by decide +kernel⟩

def chat : RoomName.Meta := { roomID := "!r", joinCount := 2, heroes := [⟨"@b", "Bob", "mxc://b"⟩] }

/-- A room becomes a direct chat: the avatar of the other member is not sent with later events. -/
theorem C78_violated_direct : ∃ ops, let s := run spec (fresh 1 ⟨chat, false⟩) ops
    s.queue = [] ∧ s.held = [] ∧ avatarSpec s.cache = some "mxc://b" ∧ s.client.map (·.avatar) = some none :=
  ⟨[.load 1, .build 1, .direct true, .dispatch 2 chat false, .process true false], by decide +kernel⟩

/-- A room is no longer a direct chat: the avatar of the other member is kept. -/
theorem C78_violated_not_direct : ∃ ops, let s := run spec (fresh 1 ⟨chat, true⟩) ops
    s.queue = [] ∧ s.held = [] ∧ avatarSpec s.cache = none ∧ s.client.map (·.avatar) = some (some "mxc://b") :=
  ⟨[.load 1, .build 1, .direct false, .dispatch 2 chat false, .process true false], by decide +kernel⟩

/-! ## The hypotheses can be met -/

instance (p : Nat) (e : Entry) : Decidable (notBefore p e) := by
  cases e
  · exact inferInstanceAs (Decidable (_ ≤ _))
  · exact inferInstanceAs (Decidable True)

instance (s : S) (o : Op) : Decidable (OkStep s o) := by
  cases o
  · exact inferInstanceAs (Decidable (_ < _))
  · exact inferInstanceAs (Decidable (_ = _))
  · exact inferInstanceAs (Decidable True)
  · exact inferInstanceAs (Decidable True)
  · exact inferInstanceAs (Decidable (_ ≤ _))
  · exact inferInstanceAs (Decidable (_ ∧ _))
  · exact inferInstanceAs (Decidable True)

theorem okHist_of {s : S} {ops : List Op} (h : ∀ i, (hi : i < ops.length) → OkStep (run nm s (ops.take i)) ops[i]) : OkHist nm s ops := by
  rintro a o b rfl
  have := h a.length (by simp)
  simpa using this

theorem always_of {s : S} {ops : List Op} (h : ∀ i, i ≤ ops.length → P (run nm s (ops.take i)).cache) : Always P nm s ops := by
  rintro a b rfl
  have := h a.length (by simp)
  simpa using this

/-- A room sent while a rename is queued, with a typing update after it, then a message of the user, held back, and behind it a second
rename. -/
def sample : List Op :=
  [.load 1, .dispatch 2 (named "B") false, .build 2, .other, .process true true, .process true true, .dispatch 4 (named "B") true,
    .dispatch 5 { named "C" with joinCount := 3 } false, .release, .process true true, .release, .process true true]

example : (run spec (fresh 1 ⟨named "A", false⟩) sample).client = some ⟨"C", none, 3, 0, []⟩ := by decide +kernel

example : ∃ b, RoomName.Calculate (run spec (fresh 1 ⟨named "A", false⟩) sample).cache.room 5 (some ("C", b)) :=
  C78_name_partial spec spec_names 1 _ sample (okHist_of (by decide +kernel)) (always_of (by decide +kernel)) (by decide +kernel) (by decide +kernel)
    ⟨"C", none, 3, 0, []⟩ (by decide +kernel)

example : (none : Option String) = avatarSpec (run spec (fresh 1 ⟨named "A", false⟩) sample).cache :=
  C78_avatar_partial spec 1 _ sample false (okHist_of (by decide +kernel)) (always_of (by decide +kernel)) (by decide +kernel) (by decide +kernel)
    ⟨"C", none, 3, 0, []⟩ (by decide +kernel)

end Verif.ClientMeta
