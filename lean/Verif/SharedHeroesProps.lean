import Verif.SharedHeroes
/-! # C84: connections of a user do not disturb each other through a shared update -/
namespace Verif.SharedHeroes
open Verif
open Verif.RoomName (Hero removeHero)

/-! ## Specification -/

/-- The heroes for the user. -/
def others (user : String) (hs : List Hero) : List Hero := hs.filter fun h => h.id ≠ user

/-- The goroutine has been told the right heroes whenever it looked. -/
def Right (user : String) (hs : List Hero) (th : Thread) : Prop :=
  (∀ c, th.copy = some c → c = others user hs) ∧ ∀ o ∈ th.outs, o = others user hs

/-- The goroutine is inside `DeepCopy` or `RemoveHero`. -/
def Inside (th : Thread) : Prop :=
  match th.pc with
  | .copying _ | .cutting _ _ => True
  | _ => False

/-- No goroutine runs while another is inside one of the two functions, as if a lock were held. -/
def Locked (user : String) (rounds : Nat → Nat) : State → List Nat → Prop
  | _, [] => True
  | s, t :: ts => (∀ t', t' ≠ t → ¬ Inside (s.threads t')) ∧ ∀ s', step user rounds s t = some s' → Locked user rounds s' ts

/-! ## Lists of heroes -/

theorem removeHero_eq {hs : List Hero} (user : String) (hn : (hs.map (·.id)).Nodup) : removeHero hs user = others user hs := by
  induction hs with
  | nil => rfl
  | cons h t ih =>
    simp only [List.map_cons, List.nodup_cons] at hn
    unfold removeHero others
    by_cases e : h.id = user
    · rw [if_pos e, List.filter_cons_of_neg (by simp [e])]
      symm
      apply List.filter_eq_self.2
      intro a ha
      simp only [ne_eq, decide_not, Bool.not_eq_true', decide_eq_false_iff_not]
      intro h2
      exact hn.1 (by rw [e, ← h2]; exact List.mem_map_of_mem ha)
    · rw [if_neg e, List.filter_cons_of_pos (by simp [e]), ih hn.2]
      rfl

theorem others_others (user : String) (hs : List Hero) : others user (others user hs) = others user hs := by
  simp [others, List.filter_filter]

theorem others_nodup {user : String} {hs : List Hero} (hn : (hs.map (·.id)).Nodup) : ((others user hs).map (·.id)).Nodup :=
  hn.sublist (List.Sublist.map _ List.filter_sublist)

theorem find_none {user : String} {hs : List Hero} (h : find user hs = none) : others user hs = hs := by
  unfold find at h
  rw [List.findIdx?_eq_none_iff] at h
  apply List.filter_eq_self.2
  intro a ha
  simpa using h a ha

theorem find_others (user : String) (hs : List Hero) : find user (others user hs) = none := by
  unfold find
  rw [List.findIdx?_eq_none_iff]
  intro x hx
  simpa using (List.mem_filter.1 hx).2

theorem find_some {user : String} {hs : List Hero} {i : Nat} (hn : (hs.map (·.id)).Nodup) (h : find user hs = some i) :
    i < hs.length ∧ hs.take i ++ hs.drop (i + 1) = others user hs := by
  induction hs generalizing i with
  | nil => simp [find] at h
  | cons a t ih =>
    unfold find at h
    rw [List.findIdx?_cons] at h
    by_cases e : a.id = user
    · rw [if_pos (by simp [e])] at h
      cases h
      refine ⟨by simp, ?_⟩
      rw [← removeHero_eq user hn]
      simp [removeHero, e]
    · rw [if_neg (by simp [e])] at h
      obtain ⟨j, hj, rfl⟩ := Option.map_eq_some_iff.1 h
      simp only [List.map_cons, List.nodup_cons] at hn
      obtain ⟨h1, h2⟩ := ih hn.2 hj
      refine ⟨by simpa using h1, ?_⟩
      show a :: (t.take j ++ t.drop (j + 1)) = _
      rw [h2]
      simp [others, e]

/-! ## Invariant -/

structure Inv (user : String) (hs : List Hero) (s : State) : Prop where
  len : s.len ≤ s.arr.length
  shared : s.heroes = hs ∨ s.heroes = others user hs
  right : ∀ t, Right user hs (s.threads t)
  copying : ∀ t n, (s.threads t).pc = .copying n → n = s.len
  cutting : ∀ t i k, (s.threads t).pc = .cutting i k → find user s.heroes = some i
  reading : ∀ t k, (s.threads t).pc = .reading k → s.heroes = others user hs

theorem heroes_length {s : State} (h : s.len ≤ s.arr.length) : s.heroes.length = s.len := by
  simp [State.heroes, h]

theorem put_heroes (s : State) (t : Nat) (th : Thread) : (s.put t th).heroes = s.heroes := rfl

theorem put_len (s : State) (t : Nat) (th : Thread) : (s.put t th).len = s.len := rfl

theorem put_get (s : State) (t : Nat) (th : Thread) (x : Nat) :
    (s.put t th).threads x = if x = t then th else s.threads x := rfl

theorem put_inv {user : String} {hs : List Hero} {s : State} {t : Nat} {th : Thread} (h : Inv user hs s)
    (h1 : Right user hs th) (h2 : ∀ n, th.pc = .copying n → n = s.len)
    (h3 : ∀ i k, th.pc = .cutting i k → find user s.heroes = some i) (h4 : ∀ k, th.pc = .reading k → s.heroes = others user hs) :
    Inv user hs (s.put t th) := by
  refine ⟨h.len, h.shared, fun x => ?_, fun x n hx => ?_, fun x i k hx => ?_, fun x k hx => ?_⟩
  · rw [put_get]; split
    · exact h1
    · exact h.right x
  · rw [put_get] at hx; split at hx
    · exact h2 n hx
    · exact h.copying x n hx
  · rw [put_get] at hx; split at hx
    · exact h3 i k hx
    · exact h.cutting x i k hx
  · rw [put_get] at hx; split at hx
    · exact h4 k hx
    · exact h.reading x k hx

theorem heroes_nodup {user : String} {hs : List Hero} {s : State} (hn : (hs.map (·.id)).Nodup) (h : Inv user hs s) :
    (s.heroes.map (·.id)).Nodup := by
  rcases h.shared with e | e <;> rw [e]
  · exact hn
  · exact others_nodup hn

theorem others_heroes {user : String} {hs : List Hero} {s : State} (h : Inv user hs s) : others user s.heroes = others user hs := by
  rcases h.shared with e | e <;> rw [e]
  exact others_others user hs

theorem cut_spec {user : String} {hs : List Hero} {s : State} {i : Nat} (hn : (hs.map (·.id)).Nodup) (h : Inv user hs s)
    (hf : find user s.heroes = some i) : ∃ s', cut s i = some s' ∧ s'.len ≤ s'.arr.length ∧ s'.heroes = others user hs ∧
      s'.threads = s.threads := by
  obtain ⟨h1, h2⟩ := find_some (heroes_nodup hn h) hf
  have hl := heroes_length h.len
  rw [hl] at h1
  have hlen : (s.heroes.take i ++ s.heroes.drop (i + 1)).length = s.len - 1 := by
    rw [List.length_append, List.length_take, List.length_drop, hl]
    omega
  refine ⟨_, if_pos (by omega : i + 1 ≤ s.len), ?_, ?_, rfl⟩
  · show s.len - 1 ≤ (s.heroes.take i ++ s.heroes.drop (i + 1) ++ s.arr.drop (s.len - 1)).length
    rw [List.length_append, hlen]
    omega
  · show (s.heroes.take i ++ s.heroes.drop (i + 1) ++ s.arr.drop (s.len - 1)).take (s.len - 1) = _
    rw [← hlen, List.take_left, h2, others_heroes h]

theorem step_inv {user : String} {rounds : Nat → Nat} {hs : List Hero} {s : State} {t : Nat} (hn : (hs.map (·.id)).Nodup)
    (h : Inv user hs s) (hlock : ∀ t', t' ≠ t → ¬ Inside (s.threads t')) :
    ∃ s', step user rounds s t = some s' ∧ Inv user hs s' := by
  have hr := h.right t
  unfold step
  simp only
  cases hpc : (s.threads t).pc with
  | start =>
    refine ⟨_, rfl, put_inv h hr ?_ ?_ ?_⟩ <;> simp
  | copying n =>
    refine ⟨_, rfl, put_inv h ⟨?_, hr.2⟩ ?_ ?_ ?_⟩ <;> simp only [reduceCtorEq, false_implies, implies_true]
    have e := h.copying t n hpc
    intro c hc
    cases hc
    rw [e, Nat.sub_self, List.replicate_zero, List.append_nil]
    rw [List.take_of_length_le (by rw [heroes_length h.len]; omega)]
    rw [removeHero_eq user (heroes_nodup hn h), others_heroes h]
  | ready k =>
    cases k with
    | zero => exact ⟨s, rfl, h⟩
    | succ k =>
      simp only
      cases hf : find user s.heroes with
      | none =>
        refine ⟨_, rfl, put_inv h hr ?_ ?_ ?_⟩ <;> simp only [reduceCtorEq, false_implies, implies_true]
        intro _ _
        rw [← others_heroes h, find_none hf]
      | some i =>
        refine ⟨_, rfl, put_inv h hr ?_ ?_ ?_⟩ <;> simp only [reduceCtorEq, false_implies, implies_true]
        intro i' k' e
        cases e
        exact hf
  | cutting i k =>
    obtain ⟨s', h1, h2, h3, h4⟩ := cut_spec hn h (h.cutting t i k hpc)
    simp only [h1, Option.map_some]
    refine ⟨_, rfl, h2, .inr h3, fun x => ?_, fun x n hx => ?_, fun x i' k' hx => ?_, fun x k' _ => h3⟩
    · rw [put_get, h4]; split
      · exact hr
      · exact h.right x
    · rw [put_get, h4] at hx; split at hx
      · cases hx
      · rename_i hne
        exact absurd (by simp [Inside, hx]) (hlock x hne)
    · rw [put_get, h4] at hx; split at hx
      · cases hx
      · rename_i hne
        exact absurd (by simp [Inside, hx]) (hlock x hne)
  | reading k =>
    refine ⟨_, rfl, put_inv h ⟨hr.1, ?_⟩ ?_ ?_ ?_⟩ <;> simp only [reduceCtorEq, false_implies, implies_true]
    intro o ho
    rcases List.mem_append.1 ho with ho | ho
    · exact hr.2 o ho
    · rw [List.mem_singleton.1 ho]
      exact h.reading t k hpc

theorem init_inv (user : String) (hs : List Hero) : Inv user hs (init hs) := by
  have : (init hs).heroes = hs := by simp [init, State.heroes]
  refine ⟨Nat.le_refl _, .inl this, fun t => ⟨fun c h => (by cases h), fun o h => (by cases h)⟩, fun _ _ h => (by cases h),
    fun _ _ _ h => (by cases h), fun _ _ h => by cases h⟩

theorem run_inv {user : String} {rounds : Nat → Nat} {hs : List Hero} (hn : (hs.map (·.id)).Nodup) (sched : List Nat) {s : State}
    (h : Inv user hs s) (hlock : Locked user rounds s sched) : ∃ s', run user rounds s sched = some s' ∧ Inv user hs s' := by
  induction sched generalizing s with
  | nil => exact ⟨s, rfl, h⟩
  | cons t ts ih =>
    obtain ⟨s1, h1, h2⟩ := step_inv (rounds := rounds) hn h hlock.1
    obtain ⟨s2, h3, h4⟩ := ih h2 (hlock.2 s1 h1)
    exact ⟨s2, by simp [run, h1, h3], h4⟩

/-! ## C84 -/

/-- C84, partial: for any number of connections of the user and any interleaving in which no connection runs while another
is inside `DeepCopy` or `RemoveHero`, nothing panics and every connection always sees the heroes without the user.
Missing: the code holds no lock, see the violations. -/
theorem C84_locked_partial (user : String) (rounds : Nat → Nat) (hs : List Hero) (hn : (hs.map (·.id)).Nodup) (sched : List Nat)
    (hlock : Locked user rounds (init hs) sched) :
    ∃ s, run user rounds (init hs) sched = some s ∧ ∀ t, Right user hs (s.threads t) := by
  obtain ⟨s, h1, h2⟩ := run_inv hn sched (init_inv user hs) hlock
  exact ⟨s, h1, h2.right⟩

theorem step_other {user : String} {rounds : Nat → Nat} {s s' : State} {t t' : Nat} (h : step user rounds s t = some s') (hne : t' ≠ t) :
    s'.threads t' = s.threads t' := by
  unfold step at h
  simp only at h
  split at h
  · cases h; rw [put_get, if_neg hne]
  · cases h; rw [put_get, if_neg hne]
  · cases h; rfl
  · split at h <;> (cases h; rw [put_get, if_neg hne])
  · obtain ⟨s1, h1, rfl⟩ := Option.map_eq_some_iff.1 h
    unfold cut at h1
    split at h1
    · cases h1; rw [put_get, if_neg hne]
    · cases h1
  · cases h; rw [put_get, if_neg hne]

/-- A schedule of one goroutine only is such. -/
theorem locked_single {user : String} {rounds : Nat → Nat} (t : Nat) (sched : List Nat) {s : State}
    (hs : ∀ t', t' ≠ t → ¬ Inside (s.threads t')) (h : ∀ x ∈ sched, x = t) : Locked user rounds s sched := by
  induction sched generalizing s with
  | nil => trivial
  | cons x xs ih =>
    obtain rfl := h x (by simp)
    refine ⟨hs, fun s' hs' => ih ?_ (fun y hy => h y (by simp [hy]))⟩
    intro t' hne
    rw [step_other hs' hne]
    exact hs t' hne

/-- C84 for a user with a single connection. -/
theorem C84_single (user : String) (rounds : Nat → Nat) (hs : List Hero) (hn : (hs.map (·.id)).Nodup) (t : Nat) (sched : List Nat)
    (h : ∀ x ∈ sched, x = t) :
    ∃ s, run user rounds (init hs) sched = some s ∧ ∀ t, Right user hs (s.threads t) :=
  C84_locked_partial user rounds hs hn sched (locked_single t sched (fun _ _ h => h) h)

/-- Nothing is ever cut if the user is not a hero. -/
structure Calm (hs : List Hero) (s : State) : Prop where
  arr : s.arr = hs
  len : s.len = hs.length
  copying : ∀ t n, (s.threads t).pc = .copying n → n = hs.length
  cutting : ∀ t i k, (s.threads t).pc ≠ .cutting i k
  right : ∀ t, (∀ c, (s.threads t).copy = some c → c = hs) ∧ ∀ o ∈ (s.threads t).outs, o = hs

theorem calm_step {user : String} {rounds : Nat → Nat} {hs : List Hero} {s : State} {t : Nat} (hu : ∀ h ∈ hs, h.id ≠ user)
    (h : Calm hs s) : ∃ s', step user rounds s t = some s' ∧ Calm hs s' := by
  have hh : s.heroes = hs := by simp [State.heroes, h.arr, h.len]
  have hf : find user s.heroes = none := by
    unfold find
    rw [hh, List.findIdx?_eq_none_iff]
    intro x hx
    simpa using hu x hx
  have putc : ∀ th : Thread, (∀ n, th.pc = .copying n → n = hs.length) → (∀ i k, th.pc ≠ .cutting i k) →
      ((∀ c, th.copy = some c → c = hs) ∧ ∀ o ∈ th.outs, o = hs) → Calm hs (s.put t th) := by
    intro th a b c
    refine ⟨h.arr, h.len, fun x n hx => ?_, fun x i k => ?_, fun x => ?_⟩
    · rw [put_get] at hx; split at hx
      · exact a n hx
      · exact h.copying x n hx
    · rw [put_get]; split
      · exact b i k
      · exact h.cutting x i k
    · rw [put_get]; split
      · exact c
      · exact h.right x
  have hr := h.right t
  have hrem : removeHero hs user = hs := by
    clear h hh hf putc hr
    induction hs with
    | nil => rfl
    | cons a l ih =>
      unfold removeHero
      rw [if_neg (hu a (by simp)), ih (fun x hx => hu x (by simp [hx]))]
  unfold step
  simp only
  cases hpc : (s.threads t).pc with
  | start =>
    refine ⟨_, rfl, putc _ ?_ ?_ hr⟩
    · simp [h.len]
    · simp
  | copying n =>
    refine ⟨_, rfl, putc _ (by simp) (by simp) ⟨?_, hr.2⟩⟩
    intro c hc
    cases hc
    rw [hh, h.copying t n hpc, h.len]
    simp [hrem]
  | ready k =>
    cases k with
    | zero => exact ⟨s, rfl, h⟩
    | succ k =>
      simp only [hf]
      exact ⟨_, rfl, putc _ (by simp) (by simp) hr⟩
  | cutting i k => exact absurd hpc (h.cutting t i k)
  | reading k =>
    refine ⟨_, rfl, putc _ (by simp) (by simp) ⟨hr.1, ?_⟩⟩
    intro o ho
    rcases List.mem_append.1 ho with ho | ho
    · exact hr.2 o ho
    · rw [List.mem_singleton.1 ho, hh]

/-- C84 for rooms in which the user is not a hero: all interleavings, even without a lock. -/
theorem C84_not_hero (user : String) (rounds : Nat → Nat) (hs : List Hero) (hu : ∀ h ∈ hs, h.id ≠ user) (sched : List Nat) :
    ∃ s, run user rounds (init hs) sched = some s ∧ ∀ t, Right user hs (s.threads t) := by
  have ho : others user hs = hs := List.filter_eq_self.2 fun a ha => by simpa using hu a ha
  have gen : ∀ (sched : List Nat) (s : State), Calm hs s → ∃ s', run user rounds s sched = some s' ∧ Calm hs s' := by
    intro sched
    induction sched with
    | nil => exact fun s h => ⟨s, rfl, h⟩
    | cons t ts ih =>
      intro s h
      obtain ⟨s1, h1, h2⟩ := calm_step (rounds := rounds) (t := t) hu h
      obtain ⟨s2, h3, h4⟩ := ih s1 h2
      exact ⟨s2, by simp [run, h1, h3], h4⟩
  obtain ⟨s, h1, h2⟩ := gen sched (init hs) ⟨rfl, rfl, fun _ _ h => (by cases h), fun _ _ _ h => (by cases h),
    fun _ => ⟨fun _ h => (by cases h), fun _ h => (by cases h)⟩⟩
  exact ⟨s, h1, fun t => by rw [Right, ho]; exact h2.right t⟩

/-- The reads a goroutine still has before it. -/
def left (rounds : Nat) : Pc → Nat
  | .start => rounds
  | .copying _ => rounds
  | .ready k => k
  | .cutting _ k => k + 1
  | .reading k => k + 1

/-- Every goroutine reads the heroes at most as often as name and avatar have changed, whatever the others do, and when it is done it has read
them so often. -/
theorem C84_reads (user : String) (rounds : Nat → Nat) (hs : List Hero) (sched : List Nat) (s : State)
    (h : run user rounds (init hs) sched = some s) (t : Nat) :
    (s.threads t).outs.length ≤ rounds t ∧ ((s.threads t).pc = .ready 0 → (s.threads t).outs.length = rounds t) := by
  have gen : ∀ (sched : List Nat) (s0 s : State), run user rounds s0 sched = some s →
      (∀ t, (s0.threads t).outs.length + left (rounds t) (s0.threads t).pc = rounds t) →
      ∀ t, (s.threads t).outs.length + left (rounds t) (s.threads t).pc = rounds t := by
    intro sched
    induction sched with
    | nil => intro s0 s h h0; simp only [run, Option.some.injEq] at h; subst h; exact h0
    | cons x xs ih =>
      intro s0 s h h0
      simp only [run, Option.bind_eq_some_iff] at h
      obtain ⟨s1, h1, h2⟩ := h
      refine ih s1 s h2 fun t => ?_
      by_cases ht : t = x
      · subst ht
        have hx := h0 t
        unfold step at h1
        simp only at h1
        split at h1
        · rename_i hp; rw [hp] at hx
          simp only [Option.some.injEq] at h1; subst h1; simpa [State.put, left] using hx
        · rename_i hp; rw [hp] at hx
          simp only [Option.some.injEq] at h1; subst h1; simpa [State.put, left] using hx
        · rename_i hp
          simp only [Option.some.injEq] at h1; subst h1; exact hx
        · rename_i hp; rw [hp] at hx
          split at h1 <;> (simp only [Option.some.injEq] at h1; subst h1; simpa [State.put, left] using hx)
        · rename_i hp; rw [hp] at hx
          simp only [Option.map_eq_some_iff] at h1
          obtain ⟨s', _, rfl⟩ := h1
          simpa [State.put, left] using hx
        · rename_i hp; rw [hp] at hx
          simp only [Option.some.injEq] at h1; subst h1
          simp only [State.put, left, if_true, List.length_append, List.length_singleton] at hx ⊢
          omega
      · rw [step_other h1 ht]; exact h0 t
  have := gen sched (init hs) s h (fun t => by simp [init, left]) t
  refine ⟨by omega, fun hp => ?_⟩
  rw [hp] at this
  simpa [left] using this

/-! ### Violations -/

def alice : Hero := { id := "@alice", name := "Alice" }
def bob : Hero := { id := "@bob", name := "Bob" }
def carol : Hero := { id := "@carol", name := "Carol" }
def dave : Hero := { id := "@dave", name := "Dave" }

/-- The heroes the goroutines 0 and 1 saw. -/
def seenBy (user : String) (hs : List Hero) (sched : List Nat) : Option (List (Option (List Hero) × List (List Hero))) :=
  (run user (fun _ => 1) (init hs) sched).map fun s => [0, 1].map fun t => ((s.threads t).copy, (s.threads t).outs)

/-- C84 is violated: two connections of Alice both find Alice at position 0 and then both remove that position. Bob is missing
from the heroes both of them send, and from the names they calculate. -/
theorem C84_violated_name : seenBy "@alice" [alice, bob, carol, dave] [0, 0, 1, 1, 0, 1, 0, 1, 0, 1] =
    some [(some [bob, carol, dave], [[carol, dave]]), (some [bob, carol, dave], [[carol, dave]])] := by decide +kernel

/-- C84 is violated: if the user is the last hero, the second removal panics. -/
theorem C84_violated_panic : run "@dave" (fun _ => 1) (init [bob, carol, dave]) [0, 0, 1, 1, 0, 1, 0, 1] = none := by
  decide +kernel

/-- C84 is violated: a removal between the allocation and the copying of `DeepCopy` leaves a hero without id in the copy that the
lists of the other connection keep. -/
theorem C84_violated_copy : ((run "@alice" (fun _ => 1) (init [alice, bob]) [1, 0, 0, 0, 0, 1]).map fun s =>
    (s.threads 1).copy) = some (some [bob, { id := "" }]) := by decide +kernel

/-- The hypotheses of `C84_locked_partial` are met by two connections that take turns. -/
example : seenBy "@alice" [alice, bob, carol] [0, 0, 1, 1, 0, 0, 1, 1, 0] =
    some [(some [bob, carol], [[bob, carol]]), (some [bob, carol], [[bob, carol]])] := by decide +kernel

/-- A check of `Locked` for goroutines below `n`. -/
def lockedB (user : String) (rounds : Nat → Nat) (n : Nat) : State → List Nat → Bool
  | _, [] => true
  | s, t :: ts => decide (t < n) && (List.range n).all (fun t' => decide (t' = t) || (match (s.threads t').pc with
      | .copying _ | .cutting _ _ => false
      | _ => true)) && (match step user rounds s t with
      | none => true
      | some s' => lockedB user rounds n s' ts)

theorem locked_of {user : String} {rounds : Nat → Nat} {n : Nat} {s : State} {sched : List Nat}
    (h0 : ∀ t, n ≤ t → s.threads t = {}) (h : lockedB user rounds n s sched = true) : Locked user rounds s sched := by
  induction sched generalizing s with
  | nil => trivial
  | cons t ts ih =>
    simp only [lockedB, Bool.and_eq_true, List.all_eq_true, decide_eq_true_eq, Bool.or_eq_true, List.mem_range] at h
    obtain ⟨⟨h1, h2⟩, h3⟩ := h
    refine ⟨fun t' hne hin => ?_, fun s' hs' => ?_⟩
    · by_cases hlt : t' < n
      · rcases h2 t' hlt with e | e
        · exact hne e
        · revert e hin
          unfold Inside
          cases (s.threads t').pc <;> simp
      · rw [h0 t' (by omega)] at hin
        exact hin
    · rw [hs'] at h3
      exact ih (fun x hx => by rw [step_other hs' (by omega)]; exact h0 x hx) h3

example : Locked "@alice" (fun _ => 1) (init [alice, bob, carol]) [0, 0, 1, 1, 0, 0, 1, 1, 0] :=
  locked_of (n := 2) (fun _ _ => rfl) (by decide +kernel)

end Verif.SharedHeroes
