import Verif.PollStart
import Verif.EnsurePollerProps
/-! # C93: a device that asks to be polled is polled, and its requests are answered -/
namespace Verif.PollStart

open Verif.EnsurePoller (Info)

/-! ## What `EnsurePolling` does -/

/-- The three ways of `EnsurePolling`. -/
theorem call_cases {e e' : EnsurePoller.State} (hi : EnsurePoller.Inv e) (id : Nat) (h : EnsurePoller.call e id = some e') :
    (∃ ch, e.entry = some ⟨true, false, ch⟩ ∧ e' = { e with told := e.told ++ [(id, false)] }) ∨
    (∃ c, e.entry = some ⟨false, false, some c⟩ ∧ e' = { e with waiting := e.waiting ++ [(id, c)] }) ∨
    ((∀ p, e.entry = some p → p.expired = true) ∧ e'.entry = some ⟨false, false, some e.nextCh⟩ ∧ e'.notified = e.notified + 1 ∧
      e'.told = e.told) := by
  unfold EnsurePoller.call at h
  cases he : e.entry with
  | none =>
    rw [he] at h
    simp only [Option.getD_none, EnsurePoller.zero, Bool.not_false, Bool.and_false, Bool.false_eq_true, if_false, Option.some.injEq] at h
    subst h
    refine Or.inr (Or.inr ⟨nofun, ?_⟩)
    simp [EnsurePoller.waitOrStart, he, EnsurePoller.zero]
  | some p =>
    obtain ⟨done, expired, ch⟩ := p
    rw [he] at h
    simp only [Option.getD_some] at h
    cases expired with
    | false =>
      cases done with
      | true =>
        simp only [Bool.not_false, Bool.and_true, if_true, Option.some.injEq] at h
        exact Or.inl ⟨ch, rfl, h.symm⟩
      | false =>
        simp only [Bool.not_false, Bool.and_false, Bool.false_eq_true, if_false, Option.some.injEq] at h
        cases hc : ch with
        | none => exact absurd ((hi.done _ he).2 hc) (by simp)
        | some c =>
          subst hc
          refine Or.inr (Or.inl ⟨c, rfl, ?_⟩)
          rw [← h]
          simp [EnsurePoller.waitOrStart, he]
    | true =>
      refine Or.inr (Or.inr ⟨fun p hp => by cases hp; rfl, ?_⟩)
      simp only [Bool.not_true, Bool.false_and, Bool.false_eq_true, if_false, if_true] at h
      cases ch with
      | none =>
        simp only [Option.some.injEq] at h
        rw [← h]
        simp [EnsurePoller.waitOrStart, EnsurePoller.zero]
      | some c =>
        simp only [EnsurePoller.close] at h
        split at h
        · cases h
        · simp only [Option.map_some, Option.some.injEq] at h
          rw [← h]
          simp [EnsurePoller.waitOrStart, EnsurePoller.zero]

/-- `OnInitialSyncComplete` leaves a finished entry, which is valid only if the entry was not expired or missing. -/
theorem complete_entry {e e' : EnsurePoller.State} {b : Bool} (h : EnsurePoller.complete e b = some e') :
    ∃ p, e'.entry = some p ∧ p.done = true ∧ (p.expired = false → ∀ q, e.entry = some q → q.expired = false) := by
  unfold EnsurePoller.complete at h
  cases he : e.entry with
  | none =>
    rw [he] at h
    cases h
    exact ⟨_, rfl, rfl, nofun⟩
  | some p =>
    rw [he] at h
    simp only at h
    split at h
    · rename_i hd
      cases h
      exact ⟨p, he, hd, fun hx q hq => by cases hq; exact hx⟩
    · unfold EnsurePoller.close at h
      split at h
      · cases h
      · split at h
        · cases h
        · cases h
          refine ⟨_, rfl, rfl, fun hx q hq => ?_⟩
          cases hq
          simp only [Bool.or_eq_false_iff] at hx
          exact hx.1

/-! ## Invariant -/

/-- There is something on its way that will complete the sync. -/
def Work (s : State) : Prop := s.v3 ≠ [] ∨ s.gor1 ≠ [] ∨ s.gor2 ≠ [] ∨ ∃ b, Msg.complete b ∈ s.v2

/-- The device is polled, or it will be noticed that it is not. -/
def Cared (s : State) : Prop :=
  (s.poller.isSome = true ∧ s.dying = false) ∨ Msg.expired ∈ s.v2 ∨ s.ended ≠ [] ∨ s.v3 ≠ [] ∨ s.gor1 ≠ []

structure Inv (s : State) : Prop where
  ep : EnsurePoller.Inv s.ep
  work : s.unsent = 0 → s.norow = 0 → ∀ p, s.ep.entry = some p → p.done = false → Work s
  cared : s.unsent = 0 → s.norow = 0 → s.raced = 0 → s.ignored = 0 → ∀ p, s.ep.entry = some p → p.expired = false → Cared s
  early : s.unsent = 0 → s.norow = 0 → s.raced = 0 → s.ignored = 0 → s.ep.entry = none → (s.gor2 ≠ [] ∨ ∃ b, Msg.complete b ∈ s.v2) → Cared s

theorem inv_init : Inv {} :=
  ⟨EnsurePoller.inv_init, fun _ _ p h => (by cases h), fun _ _ _ _ p h => (by cases h), fun _ _ _ _ _ h => by simp at h⟩

theorem append_ne_nil {α : Type} (l : List α) (a : α) : l ++ [a] ≠ [] := by simp

theorem inv_step {s : State} (h : Inv s) (o : Op) : ∃ s', step s o = some s' ∧ Inv s' := by
  cases o with
  | row tok => exact ⟨_, rfl, ⟨h.ep, h.work, h.cared, h.early⟩⟩
  | call id tok sent =>
    obtain ⟨e, he, hie⟩ := EnsurePoller.inv_step s.ep (.call id) h.ep
    have he : EnsurePoller.call s.ep id = some e := he
    simp only [step, he, Option.map_some]
    rcases call_cases h.ep id he with ⟨ch, h1, h2⟩ | ⟨c, h1, h2⟩ | ⟨h1, h2, h3, _⟩
    · rw [if_pos (by rw [h2])]
      refine ⟨_, rfl, ⟨hie, ?_, ?_, ?_⟩⟩
      · intro a b p hp; exact h.work a b p (by rw [h2] at hp; exact hp)
      · intro a b c d p hp; exact h.cared a b c d p (by rw [h2] at hp; exact hp)
      · intro a b c d hp; exact h.early a b c d (by rw [h2] at hp; exact hp)
    · rw [if_pos (by rw [h2])]
      refine ⟨_, rfl, ⟨hie, ?_, ?_, ?_⟩⟩
      · intro a b p hp; exact h.work a b p (by rw [h2] at hp; exact hp)
      · intro a b c d p hp; exact h.cared a b c d p (by rw [h2] at hp; exact hp)
      · intro a b c d hp; exact h.early a b c d (by rw [h2] at hp; exact hp)
    · rw [if_neg (by omega)]
      cases sent with
      | true =>
        rw [if_pos rfl]
        refine ⟨_, rfl, ⟨hie, ?_, ?_, ?_⟩⟩
        · intro _ _ _ _ _; exact Or.inl (append_ne_nil _ _)
        · intro _ _ _ _ _ _ _; exact Or.inr (Or.inr (Or.inr (Or.inl (append_ne_nil _ _))))
        · intro _ _ _ _ _ _; exact Or.inr (Or.inr (Or.inr (Or.inl (append_ne_nil _ _))))
      | false =>
        rw [if_neg (by simp)]
        exact ⟨_, rfl, ⟨hie, fun a => absurd a (by simp), fun a => absurd a (by simp), fun a => absurd a (by simp)⟩⟩
  | wake id =>
    obtain ⟨e, he, hie⟩ := EnsurePoller.inv_step s.ep (.wake id) h.ep
    cases he
    exact ⟨_, rfl, ⟨hie, h.work, h.cared, h.early⟩⟩
  | ask =>
    simp only [step]
    split
    · exact ⟨_, rfl, h⟩
    · split
      · refine ⟨_, rfl, ⟨h.ep, ?_, ?_, ?_⟩⟩
        · intro _ _ _ _ _; exact Or.inr (Or.inl (List.cons_ne_nil _ _))
        · intro _ _ _ _ _ _ _; exact Or.inr (Or.inr (Or.inr (Or.inr (List.cons_ne_nil _ _))))
        · intro _ _ _ _ _ _; exact Or.inr (Or.inr (Or.inr (Or.inr (List.cons_ne_nil _ _))))
      · exact ⟨_, rfl, ⟨h.ep, fun _ a => absurd a (by simp), fun _ a => absurd a (by simp), fun _ a => absurd a (by simp)⟩⟩
  | startup tok =>
    simp only [step]
    split
    · refine ⟨_, rfl, ⟨h.ep, ?_, ?_, ?_⟩⟩
      · intro _ _ _ _ _; exact Or.inr (Or.inl (List.cons_ne_nil _ _))
      · intro _ _ _ _ _ _ _; exact Or.inr (Or.inr (Or.inr (Or.inr (List.cons_ne_nil _ _))))
      · intro _ _ _ _ _ _; exact Or.inr (Or.inr (Or.inr (Or.inr (List.cons_ne_nil _ _))))
    · exact ⟨_, rfl, h⟩
  | start tok =>
    simp only [step]
    split
    · split
      · rename_i hp
        refine ⟨_, rfl, ⟨h.ep, fun _ _ _ _ _ => Or.inr (Or.inr (Or.inl (List.cons_ne_nil _ _))), ?_, ?_⟩⟩
        · intro _ _ hr _ _ _ _
          simp only at hr
          cases hd : s.dying with
          | false => exact Or.inl ⟨hp, rfl⟩
          | true => rw [hd] at hr; simp at hr
        · intro _ _ hr _ _ _
          simp only at hr
          cases hd : s.dying with
          | false => exact Or.inl ⟨hp, rfl⟩
          | true => rw [hd] at hr; simp at hr
      · exact ⟨_, rfl, ⟨h.ep, fun _ _ _ _ _ => Or.inr (Or.inr (Or.inl (List.cons_ne_nil _ _))),
          fun _ _ _ _ _ _ _ => Or.inl ⟨rfl, rfl⟩, fun _ _ _ _ _ _ => Or.inl ⟨rfl, rfl⟩⟩⟩
    · exact ⟨_, rfl, h⟩
  | finish existing ok sent =>
    simp only [step]
    split
    · rename_i hm
      refine ⟨_, rfl, ?_⟩
      have hne : s.gor2 ≠ [] := List.ne_nil_of_mem hm
      have mono : Cared s → Cared { s with gor2 := s.gor2.erase existing, v2 := s.v2 ++ [Msg.complete (existing || ok)] } := by
        rintro (a | a | a | a | a)
        · exact Or.inl a
        · exact Or.inr (Or.inl (List.mem_append_left _ a))
        · exact Or.inr (Or.inr (Or.inl a))
        · exact Or.inr (Or.inr (Or.inr (Or.inl a)))
        · exact Or.inr (Or.inr (Or.inr (Or.inr a)))
      cases sent with
      | true =>
        exact ⟨h.ep, fun _ _ _ _ _ => Or.inr (Or.inr (Or.inr ⟨existing || ok, List.mem_append_right _ (by simp)⟩)),
          fun a b c d p hp hx => mono (h.cared a b c d p hp hx), fun a b c d hp _ => mono (h.early a b c d hp (Or.inl hne))⟩
      | false =>
        exact ⟨h.ep, fun a => absurd a (by simp [notify]), fun a => absurd a (by simp [notify]), fun a => absurd a (by simp [notify])⟩
    · exact ⟨_, rfl, h⟩
  | notice sent =>
    simp only [step]
    split
    · exact ⟨_, rfl, h⟩
    · split
      · exact ⟨_, rfl, h⟩
      · rename_i tok _ _
        refine ⟨_, rfl, ?_⟩
        cases sent with
        | true =>
          have hc : ∀ x : State, Cared { x with v2 := s.v2 ++ [Msg.expired] } := fun x => Or.inr (Or.inl (List.mem_append_right _ (by simp)))
          refine ⟨h.ep, fun a b p hp hd => ?_, fun _ _ _ _ _ _ _ => hc _, fun _ _ _ _ _ _ => hc _⟩
          rcases h.work a b p hp hd with a | a | a | ⟨b, a⟩
          · exact Or.inl a
          · exact Or.inr (Or.inl a)
          · exact Or.inr (Or.inr (Or.inl a))
          · exact Or.inr (Or.inr (Or.inr ⟨b, List.mem_append_left _ a⟩))
        | false =>
          exact ⟨h.ep, fun a => absurd a (by simp [notify]), fun a => absurd a (by simp [notify]), fun a => absurd a (by simp [notify])⟩
  | term =>
    simp only [step]
    split
    · rename_i hd
      have mono : Cared s → Cared { s with poller := none, dying := false } := by
        rintro (a | a | a | a | a)
        · rw [hd] at a; cases a.2
        · exact Or.inr (Or.inl a)
        · exact Or.inr (Or.inr (Or.inl a))
        · exact Or.inr (Or.inr (Or.inr (Or.inl a)))
        · exact Or.inr (Or.inr (Or.inr (Or.inr a)))
      exact ⟨_, rfl, ⟨h.ep, h.work, fun a b c d p hp hx => mono (h.cared a b c d p hp hx), fun a b c d hp hx => mono (h.early a b c d hp hx)⟩⟩
    · exact ⟨_, rfl, h⟩
  | kill =>
    simp only [step]
    split
    · exact ⟨_, rfl, h⟩
    · exact ⟨_, rfl, ⟨h.ep, h.work, fun _ _ _ _ _ _ _ => Or.inr (Or.inr (Or.inl (List.cons_ne_nil _ _))),
        fun _ _ _ _ _ _ => Or.inr (Or.inr (Or.inl (List.cons_ne_nil _ _)))⟩⟩
  | late tok sent =>
    simp only [step]
    split
    · refine ⟨_, rfl, ?_⟩
      cases sent with
      | true =>
        have hc : ∀ x : State, Cared { x with v2 := s.v2 ++ [Msg.expired] } := fun x => Or.inr (Or.inl (List.mem_append_right _ (by simp)))
        refine ⟨h.ep, fun a b p hp hd => ?_, fun _ _ _ _ _ _ _ => hc _, fun _ _ _ _ _ _ => hc _⟩
        rcases h.work a b p hp hd with a | a | a | ⟨b, a⟩
        · exact Or.inl a
        · exact Or.inr (Or.inl a)
        · exact Or.inr (Or.inr (Or.inl a))
        · exact Or.inr (Or.inr (Or.inr ⟨b, List.mem_append_left _ a⟩))
      | false =>
        exact ⟨h.ep, fun a => absurd a (by simp [notify]), fun a => absurd a (by simp [notify]), fun a => absurd a (by simp [notify])⟩
    · exact ⟨_, rfl, h⟩
  | recv =>
    simp only [step]
    split
    · exact ⟨_, rfl, h⟩
    · rename_i b rest hv
      obtain ⟨e, he, hie⟩ := EnsurePoller.inv_step s.ep (.complete b) h.ep
      have he : EnsurePoller.complete s.ep b = some e := he
      rw [he]
      obtain ⟨p, h1, h2, h3⟩ := complete_entry he
      have mono : Cared s → Cared { s with ep := e, v2 := rest } := by
        rintro (a | a | a | a | a)
        · exact Or.inl a
        · rw [hv] at a
          rcases List.mem_cons.1 a with a | a
          · cases a
          · exact Or.inr (Or.inl a)
        · exact Or.inr (Or.inr (Or.inl a))
        · exact Or.inr (Or.inr (Or.inr (Or.inl a)))
        · exact Or.inr (Or.inr (Or.inr (Or.inr a)))
      refine ⟨_, rfl, ⟨hie, ?_, ?_, ?_⟩⟩
      · intro _ _ q hq hd
        have hq : e.entry = some q := hq
        rw [h1] at hq; cases hq; rw [h2] at hd; cases hd
      · intro a b' c d q hq hx
        have hq : e.entry = some q := hq
        rw [h1] at hq; cases hq
        cases hs : s.ep.entry with
        | none => exact mono (h.early a b' c d hs (Or.inr ⟨b, by rw [hv]; simp⟩))
        | some r => exact mono (h.cared a b' c d r hs (h3 hx r hs))
      · intro _ _ _ _ hq
        have hq : e.entry = none := hq
        rw [h1] at hq; cases hq
    · rename_i rest hv
      obtain ⟨e, he, hie⟩ := EnsurePoller.inv_step s.ep .expire h.ep
      cases he
      refine ⟨_, rfl, ⟨hie, ?_, ?_, ?_⟩⟩
      · intro a b p hp hd
        have hp : (EnsurePoller.expire s.ep).entry = some p := hp
        have hw : Work s := by
          unfold EnsurePoller.expire at hp
          cases hs : s.ep.entry with
          | none => rw [hs] at hp; simp only at hp; rw [hs] at hp; cases hp
          | some q =>
            rw [hs] at hp
            simp only [Option.some.injEq] at hp
            subst hp
            exact h.work a b q hs hd
        rcases hw with a | a | a | ⟨b, a⟩
        · exact Or.inl a
        · exact Or.inr (Or.inl a)
        · exact Or.inr (Or.inr (Or.inl a))
        · rw [hv] at a
          rcases List.mem_cons.1 a with a | a
          · cases a
          · exact Or.inr (Or.inr (Or.inr ⟨b, a⟩))
      · intro _ _ _ _ p hp hx
        have hp : (EnsurePoller.expire s.ep).entry = some p := hp
        unfold EnsurePoller.expire at hp
        cases hs : s.ep.entry with
        | none => rw [hs] at hp; simp only at hp; rw [hs] at hp; cases hp
        | some q =>
          rw [hs] at hp
          simp only [Option.some.injEq] at hp
          subst hp
          cases hx
      · intro _ _ _ hg hp
        have hp : (EnsurePoller.expire s.ep).entry = none := hp
        cases hs : s.ep.entry with
        | none => simp [hs] at hg
        | some q => simp [EnsurePoller.expire, hs] at hp

theorem run_inv {s : State} (h : Inv s) (ops : List Op) : ∃ s', run s ops = some s' ∧ Inv s' := by
  induction ops generalizing s with
  | nil => exact ⟨s, rfl, h⟩
  | cons o ops ih =>
    obtain ⟨s1, h1, hi⟩ := inv_step h o
    obtain ⟨s2, h2, hi2⟩ := ih hi
    exact ⟨s2, by simp [run, h1, h2], hi2⟩

/-! ## C93 -/

/-- Nothing is on its way. -/
def Idle (s : State) : Prop := s.v3 = [] ∧ s.gor1 = [] ∧ s.gor2 = [] ∧ s.v2 = []

/-- C93 (partial): if every notification was sent and every token asked for had its row, then once nothing is on its way, every
caller can go on: its channel is closed. Missing: lost notifications and deleted rows, see below. -/
theorem C93_released_partial (ops : List Op) (s : State) (h : run {} ops = some s) (hu : s.unsent = 0) (hn : s.norow = 0) (hidle : Idle s) :
    ∀ w ∈ s.ep.waiting, w.2 ∈ s.ep.closed := by
  obtain ⟨s', h1, hi⟩ := run_inv inv_init ops
  rw [h] at h1
  cases h1
  intro w hw
  rcases hi.ep.waits w hw with h1 | ⟨p, h1, h2⟩
  · exact h1
  · have hd : p.done = false := by
      cases hd : p.done with
      | false => rfl
      | true => rw [(hi.ep.done p h1).1 hd] at h2; cases h2
    obtain ⟨i1, i2, i3, i4⟩ := hidle
    rcases hi.work hu hn p h1 hd with a | a | a | ⟨b, a⟩
    · exact absurd i1 a
    · exact absurd i2 a
    · exact absurd i3 a
    · rw [i4] at a; cases a

/-- C93 (partial): if, besides, no poller about to end was taken for the device's poller, and no expiry came before the first
completion, then once nothing is on its way and no poller is being expired, a request that is let through at once has a poller
that is not ending. -/
theorem C93_polled_partial (ops : List Op) (s : State) (h : run {} ops = some s) (hu : s.unsent = 0) (hn : s.norow = 0) (hr : s.raced = 0)
    (hg : s.ignored = 0) (hidle : Idle s) (he : s.ended = []) (id : Nat) (e : EnsurePoller.State)
    (hc : EnsurePoller.call s.ep id = some e) (ht : (id, false) ∈ e.told) (hnew : (id, false) ∉ s.ep.told) :
    s.poller.isSome = true ∧ s.dying = false := by
  obtain ⟨s', h1, hi⟩ := run_inv inv_init ops
  rw [h] at h1
  cases h1
  obtain ⟨i1, i2, i3, i4⟩ := hidle
  have key : ∀ p, s.ep.entry = some p → p.expired = false → s.poller.isSome = true ∧ s.dying = false := by
    intro p hp hx
    rcases hi.cared hu hn hr hg p hp hx with a | a | a | a | a
    · exact a
    · rw [i4] at a; cases a
    · exact absurd he a
    · exact absurd i1 a
    · exact absurd i2 a
  rcases call_cases hi.ep id hc with ⟨ch, h1, h2⟩ | ⟨c, h1, h2⟩ | ⟨h1, h2, h3, h4⟩
  · exact key _ h1 rfl
  · rw [h2] at ht; exact absurd ht hnew
  · rw [h4] at ht; exact absurd ht hnew

/-- Nothing is on its way, no poller runs, and the entry waits on a channel. -/
structure Stuck (s : State) (c : Nat) : Prop where
  entry : s.ep.entry = some ⟨false, false, some c⟩
  idle : Idle s
  poller : s.poller = none
  dying : s.dying = false
  ended : s.ended = []
  opn : c ∉ s.ep.closed

/-- The operations of `StartV2Pollers`, which runs once, at the start. -/
def Op.isStartup : Op → Bool
  | .startup _ => true
  | _ => false

/-- Callers, in the order of the calls. -/
def callers : List Op → List Nat
  | [] => []
  | .call id _ _ :: os => id :: callers os
  | _ :: os => callers os

theorem stuck_step {s s' : State} {c : Nat} (h : Stuck s c) (o : Op) (ho : o.isStartup = false) (hs : step s o = some s') :
    Stuck s' c ∧ s'.ep.closed = s.ep.closed ∧ (∀ w ∈ s.ep.waiting, w.2 = c → w ∈ s'.ep.waiting) ∧
    (∀ id tok sent, o = .call id tok sent → (id, c) ∈ s'.ep.waiting) ∧
    (∀ w ∈ s'.ep.waiting, w ∈ s.ep.waiting ∨ w.2 = c) ∧
    (∀ x ∈ s'.ep.told, x ∈ s.ep.told ∨ ∃ w ∈ s.ep.waiting, w.1 = x.1 ∧ w.2 ∈ s.ep.closed) := by
  obtain ⟨h1, ⟨i1, i2, i3, i4⟩, h3, h4, h5, h6⟩ := h
  have same' : s' = s → (∀ id tok sent, o ≠ .call id tok sent) → Stuck s' c ∧ s'.ep.closed = s.ep.closed ∧
      (∀ w ∈ s.ep.waiting, w.2 = c → w ∈ s'.ep.waiting) ∧ (∀ id tok sent, o = .call id tok sent → (id, c) ∈ s'.ep.waiting) ∧
      (∀ w ∈ s'.ep.waiting, w ∈ s.ep.waiting ∨ w.2 = c) ∧
      (∀ x ∈ s'.ep.told, x ∈ s.ep.told ∨ ∃ w ∈ s.ep.waiting, w.1 = x.1 ∧ w.2 ∈ s.ep.closed) := by
    rintro rfl hne
    exact ⟨⟨h1, ⟨i1, i2, i3, i4⟩, h3, h4, h5, h6⟩, rfl, fun w hw _ => hw, fun id tok sent h => absurd h (hne id tok sent),
      fun w hw => Or.inl hw, fun x hx => Or.inl hx⟩
  cases o with
  | row tok =>
    cases hs
    exact ⟨⟨h1, ⟨i1, i2, i3, i4⟩, h3, h4, h5, h6⟩, rfl, fun w hw _ => hw, nofun, fun w hw => Or.inl hw, fun x hx => Or.inl hx⟩
  | call id tok sent =>
    have hc : EnsurePoller.call s.ep id = some { s.ep with waiting := s.ep.waiting ++ [(id, c)] } := by
      simp [EnsurePoller.call, h1, EnsurePoller.waitOrStart]
    simp only [step, hc, Option.map_some, if_true, Option.some.injEq] at hs
    subst hs
    refine ⟨⟨h1, ⟨i1, i2, i3, i4⟩, h3, h4, h5, h6⟩, rfl, fun w hw _ => List.mem_append_left _ hw, ?_, ?_, fun x hx => Or.inl hx⟩
    · intro id' tok' sent' e; cases e; exact List.mem_append_right _ (by simp)
    · intro w hw
      rcases List.mem_append.1 hw with hw | hw
      · exact Or.inl hw
      · exact Or.inr (by rw [List.mem_singleton.1 hw])
  | wake id =>
    cases hs
    refine ⟨⟨h1, ⟨i1, i2, i3, i4⟩, h3, h4, h5, h6⟩, rfl, ?_, nofun, fun w hw => Or.inl (List.mem_filter.1 hw).1, ?_⟩
    · intro w hw hwc
      refine List.mem_filter.2 ⟨hw, ?_⟩
      simp [hwc, h6]
    · intro x hx
      rcases List.mem_append.1 hx with hx | hx
      · exact Or.inl hx
      · obtain ⟨w, hw, rfl⟩ := List.mem_map.1 hx
        have := (List.mem_filter.1 hw).2
        simp at this
        exact Or.inr ⟨w, (List.mem_filter.1 hw).1, rfl, this.2⟩
  | ask =>
    simp only [step, i1, Option.some.injEq] at hs
    exact same' hs.symm nofun
  | startup tok => cases ho
  | start tok =>
    simp only [step, i2, List.not_mem_nil, if_false, Option.some.injEq] at hs
    exact same' hs.symm nofun
  | finish ex ok sent =>
    simp only [step, i3, List.not_mem_nil, if_false, Option.some.injEq] at hs
    exact same' hs.symm nofun
  | notice sent =>
    simp only [step, h3, Option.some.injEq] at hs
    exact same' hs.symm nofun
  | term =>
    simp only [step, h4, Bool.false_eq_true, if_false, Option.some.injEq] at hs
    exact same' hs.symm nofun
  | kill =>
    simp only [step, h3, Option.some.injEq] at hs
    exact same' hs.symm nofun
  | late tok sent =>
    simp only [step, h5, List.not_mem_nil, if_false, Option.some.injEq] at hs
    exact same' hs.symm nofun
  | recv =>
    simp only [step, i4, Option.some.injEq] at hs
    exact same' hs.symm nofun

/-- C93: once stuck, a device stays stuck for ever, whatever tokens are stored and whoever asks: those who wait keep waiting,
every later caller waits, nobody but those released before is told anything, and no poller is started. -/
theorem C93_stuck (s : State) (c : Nat) (h : Stuck s c) (ops : List Op) (ho : ∀ o ∈ ops, o.isStartup = false) (s' : State)
    (hs : run s ops = some s') :
    s'.poller = none ∧ (∀ w ∈ s.ep.waiting, w.2 = c → w ∈ s'.ep.waiting) ∧ (∀ id ∈ callers ops, (id, c) ∈ s'.ep.waiting) ∧
    (∀ x ∈ s'.ep.told, x ∈ s.ep.told ∨ ∃ w ∈ s.ep.waiting, w.1 = x.1 ∧ w.2 ∈ s.ep.closed) := by
  induction ops generalizing s with
  | nil =>
    cases hs
    exact ⟨h.poller, fun w hw _ => hw, nofun, fun x hx => Or.inl hx⟩
  | cons o ops ih =>
    obtain ⟨s1, h1, h2⟩ := Option.bind_eq_some_iff.1 hs
    obtain ⟨g1, g2, g3, g4, g5, g6⟩ := stuck_step h o (ho o (by simp)) h1
    obtain ⟨k1, k2, k3, k4⟩ := ih s1 g1 (fun o' ho' => ho o' (List.mem_cons_of_mem _ ho')) h2
    refine ⟨k1, fun w hw hc => k2 w (g3 w hw hc) hc, ?_, ?_⟩
    · intro id hid
      cases o with
      | call id' tok sent =>
        rcases List.mem_cons.1 hid with e | hid
        · subst e; exact k2 _ (g4 _ _ _ rfl) rfl
        · exact k3 id hid
      | _ => exact k3 id hid
    · intro x hx
      rcases k4 x hx with hx | ⟨w, hw, e1, e2⟩
      · exact g6 x hx
      · rcases g5 w hw with hw | hw
        · exact Or.inr ⟨w, hw, e1, g2 ▸ e2⟩
        · rw [hw, g2] at e2
          exact absurd e2 h.opn

/-- Nothing is on its way, no poller runs, and the entry says that all is well. -/
structure Orphan (s : State) : Prop where
  entry : ∃ ch, s.ep.entry = some ⟨true, false, ch⟩
  idle : Idle s
  poller : s.poller = none
  dying : s.dying = false
  ended : s.ended = []

theorem orphan_step {s s' : State} (h : Orphan s) (o : Op) (ho : o.isStartup = false) (hs : step s o = some s') :
    Orphan s' ∧ (∀ x ∈ s.ep.told, x ∈ s'.ep.told) ∧ (∀ id tok sent, o = .call id tok sent → (id, false) ∈ s'.ep.told) := by
  obtain ⟨⟨ch, h1⟩, ⟨i1, i2, i3, i4⟩, h3, h4, h5⟩ := h
  have same' : s' = s → (∀ id tok sent, o ≠ .call id tok sent) →
      Orphan s' ∧ (∀ x ∈ s.ep.told, x ∈ s'.ep.told) ∧ (∀ id tok sent, o = .call id tok sent → (id, false) ∈ s'.ep.told) := by
    rintro rfl hne
    exact ⟨⟨⟨ch, h1⟩, ⟨i1, i2, i3, i4⟩, h3, h4, h5⟩, fun x hx => hx, fun id tok sent h => absurd h (hne id tok sent)⟩
  cases o with
  | row tok =>
    cases hs
    exact ⟨⟨⟨ch, h1⟩, ⟨i1, i2, i3, i4⟩, h3, h4, h5⟩, fun x hx => hx, nofun⟩
  | call id tok sent =>
    have hc : EnsurePoller.call s.ep id = some { s.ep with told := s.ep.told ++ [(id, false)] } := by
      simp [EnsurePoller.call, h1]
    simp only [step, hc, Option.map_some, if_true, Option.some.injEq] at hs
    subst hs
    refine ⟨⟨⟨ch, h1⟩, ⟨i1, i2, i3, i4⟩, h3, h4, h5⟩, fun x hx => List.mem_append_left _ hx, ?_⟩
    intro id' tok' sent' e; cases e; exact List.mem_append_right _ (by simp)
  | wake id =>
    cases hs
    exact ⟨⟨⟨ch, h1⟩, ⟨i1, i2, i3, i4⟩, h3, h4, h5⟩, fun x hx => List.mem_append_left _ hx, nofun⟩
  | ask =>
    simp only [step, i1, Option.some.injEq] at hs
    exact same' hs.symm nofun
  | startup tok => cases ho
  | start tok =>
    simp only [step, i2, List.not_mem_nil, if_false, Option.some.injEq] at hs
    exact same' hs.symm nofun
  | finish ex ok sent =>
    simp only [step, i3, List.not_mem_nil, if_false, Option.some.injEq] at hs
    exact same' hs.symm nofun
  | notice sent =>
    simp only [step, h3, Option.some.injEq] at hs
    exact same' hs.symm nofun
  | term =>
    simp only [step, h4, Bool.false_eq_true, if_false, Option.some.injEq] at hs
    exact same' hs.symm nofun
  | kill =>
    simp only [step, h3, Option.some.injEq] at hs
    exact same' hs.symm nofun
  | late tok sent =>
    simp only [step, h5, List.not_mem_nil, if_false, Option.some.injEq] at hs
    exact same' hs.symm nofun
  | recv =>
    simp only [step, i4, Option.some.injEq] at hs
    exact same' hs.symm nofun

/-- C93: once orphaned, a device is never polled again, and every request is let through at once. -/
theorem C93_orphan (s : State) (h : Orphan s) (ops : List Op) (ho : ∀ o ∈ ops, o.isStartup = false) (s' : State)
    (hs : run s ops = some s') : s'.poller = none ∧ (∀ id ∈ callers ops, (id, false) ∈ s'.ep.told) := by
  have : Orphan s' ∧ (∀ x ∈ s.ep.told, x ∈ s'.ep.told) ∧ (∀ id ∈ callers ops, (id, false) ∈ s'.ep.told) := by
    induction ops generalizing s with
    | nil => cases hs; exact ⟨h, fun x hx => hx, nofun⟩
    | cons o ops ih =>
      obtain ⟨s1, h1, h2⟩ := Option.bind_eq_some_iff.1 hs
      obtain ⟨g1, g2, g3⟩ := orphan_step h o (ho o (by simp)) h1
      obtain ⟨k1, k2, k3⟩ := ih s1 g1 (fun o' ho' => ho o' (List.mem_cons_of_mem _ ho')) h2
      refine ⟨k1, fun x hx => k2 x (g2 x hx), ?_⟩
      intro id hid
      cases o with
      | call id' tok sent =>
        rcases List.mem_cons.1 hid with e | hid
        · subst e; exact k2 _ (g3 _ _ _ rfl)
        · exact k3 id hid
      | _ => exact k3 id hid
  exact ⟨this.1.poller, this.2.2⟩

/-! ### Violations -/

/-- A device is polled. -/
def polled : List Op := [.row "old", .call 0 "old" true, .ask, .start "old", .finish false true true, .recv, .wake 0]

/-- Its token is revoked; a request that was let in before then asks for polling with it. -/
def lockedOut : List Op := polled ++ [.notice true, .term, .recv, .call 1 "old" true, .ask]

theorem run_append (s : State) (a b : List Op) : run s (a ++ b) = (run s a).bind fun s' => run s' b := by
  induction a generalizing s with
  | nil => rfl
  | cons o a ih =>
    simp only [List.cons_append, run]
    cases step s o with
    | none => rfl
    | some s' => exact ih s'

instance (s : State) : Decidable (Idle s) := inferInstanceAs (Decidable (_ ∧ _ ∧ _ ∧ _))

/-- C93 is violated: a request that had its token accepted just before the poller found it revoked gets no answer, for ever, and
neither does any later request of that device, also with a new, valid token. No notification is lost. -/
theorem C93_violated_lockout : ∃ s, run {} lockedOut = some s ∧ s.unsent = 0 ∧ (1, 1) ∈ s.ep.waiting ∧
    ∀ ops, (∀ o ∈ ops, o.isStartup = false) → ∀ s', run {} (lockedOut ++ [.row "new", .call 2 "new" true] ++ ops) = some s' →
      (1, 1) ∈ s'.ep.waiting ∧ (2, 1) ∈ s'.ep.waiting ∧ s'.poller = none := by
  have hrun : ∃ s, run {} lockedOut = some s ∧ s.unsent = 0 ∧ (1, 1) ∈ s.ep.waiting ∧ Stuck s 1 := by
    refine ⟨(run {} lockedOut).getD {}, by decide +kernel, by decide +kernel, by decide +kernel, ?_⟩
    exact ⟨by decide +kernel, by decide +kernel, by decide +kernel, by decide +kernel, by decide +kernel, by decide +kernel⟩
  obtain ⟨s, h1, h2, h3, h4⟩ := hrun
  refine ⟨s, h1, h2, h3, fun ops ho s' hs => ?_⟩
  rw [List.append_assoc, run_append, h1] at hs
  have hs : run s ([Op.row "new", Op.call 2 "new" true] ++ ops) = some s' := hs
  obtain ⟨k1, k2, k3, _⟩ := C93_stuck s 1 h4 ([.row "new", .call 2 "new" true] ++ ops) (by
    intro o hm
    rcases List.mem_append.1 hm with hm | hm
    · rcases List.mem_cons.1 hm with e | hm
      · subst e; rfl
      · rw [List.mem_singleton.1 hm]; rfl
    · exact ho o hm) s' hs
  exact ⟨k2 _ h3 rfl, k3 2 (by simp [callers]), k1⟩

/-- The device has a second token; the request with it comes while the poller, which found its own token revoked, is about to
terminate. -/
def orphaned : List Op :=
  polled ++ [.row "new", .notice true, .recv, .call 1 "new" true, .ask, .start "new", .term, .finish true false true, .recv, .wake 1]

/-- C93 is violated: the request is told that the device is polled, no poller runs, and none is ever started although requests with
the valid token keep coming. No notification is lost and no row is missing. -/
theorem C93_violated_orphan : ∃ s, run {} orphaned = some s ∧ s.unsent = 0 ∧ s.norow = 0 ∧ (1, false) ∈ s.ep.told ∧
    ∀ ops, (∀ o ∈ ops, o.isStartup = false) → ∀ s', run {} (orphaned ++ ops) = some s' →
      s'.poller = none ∧ ∀ id ∈ callers ops, (id, false) ∈ s'.ep.told := by
  have hrun : ∃ s, run {} orphaned = some s ∧ s.unsent = 0 ∧ s.norow = 0 ∧ (1, false) ∈ s.ep.told ∧ Orphan s := by
    refine ⟨(run {} orphaned).getD {}, by decide +kernel, by decide +kernel, by decide +kernel, by decide +kernel, ?_⟩
    exact ⟨⟨none, by decide +kernel⟩, by decide +kernel, by decide +kernel, by decide +kernel, by decide +kernel⟩
  obtain ⟨s, h1, h2, h3, h4, h5⟩ := hrun
  refine ⟨s, h1, h2, h3, h4, fun ops ho s' hs => ?_⟩
  rw [run_append, h1] at hs
  exact C93_orphan s h5 ops ho s' hs

/-- C93 is violated at start-up: the expiry of a poller reaches the request handler before the completion of its first sync, when
there is no entry yet; the completion then counts as valid. -/
theorem C93_violated_startup : ∃ s, run {} [.row "t", .startup "t", .start "t", .notice true, .term, .recv, .finish false true true, .recv] = some s ∧
    s.unsent = 0 ∧ s.norow = 0 ∧ s.raced = 0 ∧ Orphan s := by
  refine ⟨_, rfl, by decide +kernel, by decide +kernel, by decide +kernel, ?_⟩
  exact ⟨⟨none, by decide +kernel⟩, by decide +kernel, by decide +kernel, by decide +kernel, by decide +kernel⟩

/-- The hypotheses of the partial theorems are met with somebody waiting and somebody let through. -/
example : ∃ s, run {} (polled.dropLast ++ [.notice true, .term, .recv, .row "new", .call 1 "new" true, .ask, .start "new",
    .finish false true true, .recv, .call 2 "new" true]) = some s ∧ s.unsent = 0 ∧ s.norow = 0 ∧ s.raced = 0 ∧ s.ignored = 0 ∧ Idle s ∧ s.ended = [] ∧
    (1, 1) ∈ s.ep.waiting ∧ (2, false) ∈ s.ep.told := by
  exact ⟨_, rfl, by decide +kernel, by decide +kernel, by decide +kernel, by decide +kernel, by decide +kernel, by decide +kernel,
    by decide +kernel, by decide +kernel⟩

end Verif.PollStart
