import Verif.TypingExt
/-! # C86: the client's view of who is typing -/
namespace Verif.TypingExt

/-! ## Specification -/

/-- The last typing event of a history. -/
def lastTyping : List Op → Option String → Option String
  | [], e => e
  | .typing e :: os, _ => lastTyping os (some e)
  | _ :: os, e => lastTyping os e

/-- The user stays in the room. -/
def Stays (os : List Op) : Prop := ∀ m, .member m ∉ os

/-- The room stays in scope. -/
def InScope (os : List Op) : Prop := ∀ o ∈ os, match o with
  | .request b _ => b = true
  | .shift b => b = true
  | _ => True

/-! ## Invariant -/

/-- The last typing update in the queue. -/
def lastQ : List Up → Option String → Option String
  | [], e => e
  | .typing e :: q, _ => lastQ q (some e)
  | .room _ :: q, e => lastQ q e

theorem lastQ_append (q r : List Up) (e : Option String) : lastQ (q ++ r) e = lastQ r (lastQ q e) := by
  induction q generalizing e with
  | nil => rfl
  | cons u q ih => cases u <;> exact ih _

/-- Whether the queue has a typing update. -/
def hasT (q : List Up) : Prop := ∃ e, .typing e ∈ q

theorem lastQ_hasT {q : List Up} (h : hasT q) (e e' : Option String) : lastQ q e = lastQ q e' := by
  induction q generalizing e e' with
  | nil => obtain ⟨_, h⟩ := h; cases h
  | cons u q ih =>
    cases u with
    | typing x => rfl
    | room x =>
      refine ih ?_ _ _
      obtain ⟨y, hy⟩ := h
      rcases List.mem_cons.1 hy with h | h
      · cases h
      · exact ⟨y, h⟩

theorem lastQ_noT {q : List Up} (h : ¬ hasT q) (e : Option String) : lastQ q e = e := by
  induction q generalizing e with
  | nil => rfl
  | cons u q ih =>
    cases u with
    | typing x => exact absurd ⟨x, by simp⟩ h
    | room x => exact ih (fun ⟨y, hy⟩ => h ⟨y, List.mem_cons_of_mem _ hy⟩) _

/-- While the user is in the room: the last typing update in the queue is the current one, snapshots not followed by a typing
update are the current one, and nothing was told before there was any typing. -/
structure Inv (s : State) : Prop where
  joined : s.member = .joined
  last : hasT s.queue → lastQ s.queue none = s.cur
  snap : ∀ a e b, s.queue = a ++ .room e :: b → ¬ hasT b → e = s.cur
  fresh : s.cur = none → s.client = none
  noneQ : s.cur = none → ¬ hasT s.queue

theorem step_inv {s : State} (h : Inv s) (o : Op) (ho : ∀ m, o ≠ .member m) : Inv (step s o) := by
  cases o with
  | member m => exact absurd rfl (ho m)
  | typing e =>
    unfold step
    simp only
    split
    · exact h
    · rw [if_pos h.joined]
      refine ⟨h.joined, fun _ => ?_, fun a x b hq hb => ?_, fun hc => (by cases hc), fun hc => (by cases hc)⟩
      · show lastQ (s.queue ++ [.typing e]) none = some e
        rw [lastQ_append]; rfl
      · exfalso
        have hq : s.queue ++ [.typing e] = a ++ .room x :: b := hq
        rcases List.eq_nil_or_concat b with rfl | ⟨b', l, rfl⟩
        · have := List.append_inj' hq rfl
          simp at this
        · rw [List.concat_eq_append] at hq hb
          rw [← List.cons_append, ← List.append_assoc] at hq
          have := (List.append_inj' hq rfl).2
          simp only [List.cons.injEq, and_true] at this
          exact hb ⟨e, by simp [← this]⟩
  | update =>
    unfold step
    simp only [h.joined]
    refine ⟨rfl, fun ht => ?_, fun a x b hq hb => ?_, h.fresh, fun hc ht => ?_⟩
    · show lastQ (s.queue ++ [.room s.cur]) none = s.cur
      rw [lastQ_append]
      refine h.last ?_
      obtain ⟨e, he⟩ := ht
      simp only [List.mem_append, List.mem_singleton, reduceCtorEq, or_false] at he
      exact ⟨e, he⟩
    · have hq : s.queue ++ [.room s.cur] = a ++ .room x :: b := hq
      rcases List.eq_nil_or_concat b with rfl | ⟨b', l, rfl⟩
      · have := (List.append_inj' hq rfl).2
        simp only [List.cons.injEq, Up.room.injEq, and_true] at this
        exact this.symm
      · rw [List.concat_eq_append] at hq hb
        rw [← List.cons_append, ← List.append_assoc] at hq
        have := (List.append_inj' hq rfl).1
        exact h.snap a x b' this (fun ⟨y, hy⟩ => hb ⟨y, by simp [hy]⟩)
    · refine h.noneQ hc ?_
      obtain ⟨e, he⟩ := ht
      simp only [List.mem_append, List.mem_singleton, reduceCtorEq, or_false] at he
      exact ⟨e, he⟩
  | process r =>
    unfold step
    simp only
    cases hq : s.queue with
    | nil => exact h
    | cons u q =>
      simp only
      have hlast : hasT q → lastQ q none = s.cur := by
        intro ht
        have := h.last (by rw [hq]; obtain ⟨e, he⟩ := ht; exact ⟨e, List.mem_cons_of_mem _ he⟩)
        rw [hq] at this
        cases u with
        | typing e => rw [lastQ_hasT ht none (some e)]; exact this
        | room e => exact this
      refine ⟨h.joined, hlast, fun a x b (e : q = _) => h.snap (u :: a) x b (by rw [hq, e]; rfl), fun hc => ?_, fun hc ht => ?_⟩
      · show tell s.client _ = none
        have hcl := h.fresh hc
        cases u with
        | typing e => exact absurd ⟨e, by simp [hq]⟩ (h.noneQ hc)
        | room e =>
          have hnq : ¬ hasT q := fun ⟨y, hy⟩ => h.noneQ hc ⟨y, by rw [hq]; exact List.mem_cons_of_mem _ hy⟩
          have : e = none := (h.snap [] e q (by rw [hq]; rfl) hnq).trans hc
          subst this
          simp only [appendLive]
          split <;> exact hcl
      · exact h.noneQ hc (by rw [hq]; obtain ⟨e, he⟩ := ht; exact ⟨e, List.mem_cons_of_mem _ he⟩)
  | request b r =>
    refine ⟨h.joined, h.last, h.snap, fun hc => ?_, h.noneQ⟩
    show tell s.client (processInitial s.cur b r) = none
    have hc : s.cur = none := hc
    rw [hc]
    unfold processInitial
    split <;> exact h.fresh hc
  | shift b => exact ⟨h.joined, h.last, h.snap, h.fresh, h.noneQ⟩

theorem run_inv {s : State} (h : Inv s) (os : List Op) (ho : Stays os) : Inv (run s os) := by
  induction os generalizing s with
  | nil => exact h
  | cons o os ih =>
    exact ih (step_inv h o (fun m e => ho m (by simp [e]))) (fun m hm => ho m (by simp [hm]))

/-- Once the queue is processed, the client is up to date. -/
def Due (s : State) : Prop := s.scope = true ∧ lastQ s.queue s.client = s.cur

theorem step_due {s : State} (h : Inv s) (hd : Due s) (o : Op) (ho : ∀ m, o ≠ .member m) (hs : InScope [o]) : Due (step s o) := by
  obtain ⟨h1, h2⟩ := hd
  cases o with
  | member m => exact absurd rfl (ho m)
  | typing e =>
    unfold step
    simp only
    split
    · exact ⟨h1, h2⟩
    · rw [if_pos h.joined]
      exact ⟨h1, by show lastQ (s.queue ++ [.typing e]) s.client = some e; rw [lastQ_append]; rfl⟩
  | update =>
    unfold step
    simp only [h.joined]
    exact ⟨h1, by show lastQ (s.queue ++ [.room s.cur]) s.client = s.cur; rw [lastQ_append]; exact h2⟩
  | process r =>
    unfold step
    simp only
    cases hq : s.queue with
    | nil => exact ⟨h1, h2⟩
    | cons u q =>
      refine ⟨h1, ?_⟩
      show lastQ q (tell s.client (appendLive s.scope r u)) = s.cur
      rw [hq] at h2
      cases u with
      | typing e =>
        simp only [appendLive, h1, if_true, tell]
        exact h2
      | room e =>
        by_cases ht : hasT q
        · rw [lastQ_hasT ht _ s.client]; exact h2
        · have he := h.snap [] e q (by rw [hq]; rfl) ht
          rw [lastQ_noT ht]
          have h2 : s.client = s.cur := by rw [← h2]; exact (lastQ_noT ht _).symm
          simp only [appendLive]
          split
          · rw [he]
            cases hc : s.cur with
            | none => exact h.fresh hc
            | some e => rfl
          · exact h2
  | request b r =>
    have hb : b = true := hs _ (List.mem_singleton.2 rfl)
    subst hb
    refine ⟨rfl, ?_⟩
    show lastQ s.queue (tell s.client (processInitial s.cur true r)) = s.cur
    by_cases ht : hasT s.queue
    · rw [lastQ_hasT ht _ s.client]; exact h2
    · rw [lastQ_noT ht] at h2 ⊢
      unfold processInitial
      split
      · cases hc : s.cur with
        | none => exact h.fresh hc
        | some e => rfl
      · exact h2
  | shift b =>
    have hb : b = true := hs _ (List.mem_singleton.2 rfl)
    subst hb
    exact ⟨rfl, h2⟩

theorem run_due {s : State} (h : Inv s) (hd : Due s) (os : List Op) (ho : Stays os) (hs : InScope os) : Due (run s os) := by
  induction os generalizing s with
  | nil => exact hd
  | cons o os ih =>
    have hm : ∀ m, o ≠ .member m := fun m e => ho m (by simp [e])
    exact ih (step_inv h o hm) (step_due h hd o hm (fun x hx => hs x (by rw [List.mem_singleton.1 hx]; simp)))
      (fun m hm => ho m (by simp [hm])) (fun x hx => hs x (by simp [hx]))

theorem request_due {s : State} (h : Inv s) : Due (step s (.request true true)) := by
  refine ⟨rfl, ?_⟩
  show lastQ s.queue (tell s.client (processInitial s.cur true true)) = s.cur
  by_cases ht : hasT s.queue
  · rw [lastQ_hasT ht _ none]; exact h.last ht
  · rw [lastQ_noT ht]
    cases hc : s.cur with
    | none => exact h.fresh hc
    | some e => rfl

theorem cur_eq (os : List Op) (s : State) : (run s os).cur = lastTyping os s.cur := by
  induction os generalizing s with
  | nil => rfl
  | cons o os ih =>
    show (run (step s o) os).cur = _
    rw [ih]
    cases o with
    | typing e =>
      unfold step
      simp only
      split
      · rename_i hc; show lastTyping os s.cur = lastTyping os (some e); rw [hc]
      · rfl
    | update => unfold step; cases s.member <;> rfl
    | process r => unfold step; cases s.queue <;> rfl
    | _ => rfl

/-! ## C86 -/

/-- C86, partial: for a user in the room, if the room was in the response and in scope at some request and stayed in scope, then
once the connection has processed its updates the client has the last typing event.
Missing: rooms that come into scope without a request that sends them, and users that are not in the room, see the
violations. -/
theorem C86_converges_partial (before after : List Op) (hb : Stays before) (ha : Stays after) (hs : InScope after)
    (hq : (run {} (before ++ [.request true true] ++ after)).queue = []) :
    (run {} (before ++ [.request true true] ++ after)).client =
      lastTyping (before ++ [.request true true] ++ after) none := by
  have e : run {} (before ++ [.request true true] ++ after) = run (step (run {} before) (.request true true)) after := by
    simp [run, List.foldl_append]
  have i0 : Inv ({} : State) := ⟨rfl, fun ⟨_, h⟩ => (by cases h), fun a x b hq => (by simp at hq), fun _ => rfl, fun _ ⟨_, h⟩ => (by cases h)⟩
  have i1 := run_inv i0 before hb
  have i2 := step_inv i1 (.request true true) (fun m => by simp)
  have d := run_due i2 (request_due i1) after ha hs
  refine Eq.trans ?_ (cur_eq (before ++ [.request true true] ++ after) {})
  rw [e] at hq ⊢
  have := d.2
  rw [hq] at this
  exact this

/-- C86: what the client has was a typing event of the room. -/
theorem C86_real (os : List Op) (e : String) (h : (run {} os).client = some e) : .typing e ∈ os := by
  have gen : ∀ (os pre : List Op) (s : State),
      ((∀ e, s.client = some e → .typing e ∈ pre) ∧ (∀ e, s.cur = some e → .typing e ∈ pre) ∧
        (∀ e, (.typing e ∈ s.queue ∨ .room (some e) ∈ s.queue) → .typing e ∈ pre)) →
      ∀ e, (run s os).client = some e → .typing e ∈ pre ++ os := by
    intro os
    induction os with
    | nil => intro pre s h e he; simpa using h.1 e he
    | cons o os ih =>
      intro pre s ⟨h1, h2, h3⟩ e he
      have := ih (pre ++ [o]) (step s o) ?_ e he
      · simpa using this
      · cases o with
        | member m =>
          exact ⟨fun e he => by simp [h1 e he], fun e he => by simp [h2 e he], fun e he => by simp [h3 e he]⟩
        | typing x =>
          unfold step
          simp only
          split
          · exact ⟨fun e he => by simp [h1 e he], fun e he => by simp [h2 e he], fun e he => by simp [h3 e he]⟩
          · refine ⟨fun e he => by simp [h1 e he], fun e he => ?_, fun e he => ?_⟩
            · cases he; simp
            · simp only at he
              split at he
              · simp only [List.mem_append, List.mem_singleton, Up.typing.injEq, reduceCtorEq, or_false] at he
                rcases he with (he | rfl) | he
                · simp [h3 e (.inl he)]
                · simp
                · simp [h3 e (.inr he)]
              · simp [h3 e he]
        | update =>
          unfold step
          simp only
          split
          · refine ⟨fun e he => by simp [h1 e he], fun e he => by simp [h2 e he], fun e he => ?_⟩
            simp only [List.mem_append, List.mem_singleton, Up.room.injEq, reduceCtorEq, or_false] at he
            rcases he with he | he | he
            · simp [h3 e (.inl he)]
            · simp [h3 e (.inr he)]
            · simp [h2 e he.symm]
          · refine ⟨fun e he => by simp [h1 e he], fun e he => by simp [h2 e he], fun e he => ?_⟩
            simp only [List.mem_append, List.mem_singleton, Up.room.injEq, reduceCtorEq, or_false] at he
            simp [h3 e he]
          · exact ⟨fun e he => by simp [h1 e he], fun e he => by simp [h2 e he], fun e he => by simp [h3 e he]⟩
        | process r =>
          unfold step
          simp only
          split
          · exact ⟨fun e he => by simp [h1 e he], fun e he => by simp [h2 e he], fun e he => by simp [h3 e he]⟩
          · rename_i u q hq
            refine ⟨fun e he => ?_, fun e he => by simp [h2 e he], fun e he => ?_⟩
            · simp only at he
              cases u with
              | typing x =>
                unfold appendLive at he
                simp only at he
                split at he
                · cases he
                  exact List.mem_append_left _ (h3 _ (.inl (by rw [hq]; simp)))
                · simp [h1 e he]
              | room x =>
                unfold appendLive at he
                simp only at he
                split at he
                · cases x with
                  | none => simp [h1 e he]
                  | some x =>
                    cases he
                    exact List.mem_append_left _ (h3 _ (.inr (by rw [hq]; simp)))
                · simp [h1 e he]
            · have : .typing e ∈ s.queue ∨ .room (some e) ∈ s.queue := by
                rw [hq]
                rcases he with he | he
                · exact .inl (List.mem_cons_of_mem _ he)
                · exact .inr (List.mem_cons_of_mem _ he)
              simp [h3 e this]
        | request b r =>
          refine ⟨fun e he => ?_, fun e he => by simp [h2 e he], fun e he => by simp [h3 e he]⟩
          have he : tell s.client (processInitial s.cur b r) = some e := he
          unfold processInitial at he
          split at he
          · cases hc : s.cur with
            | none => rw [hc] at he; simp [h1 e he]
            | some x => rw [hc] at he; cases he; exact List.mem_append_left _ (h2 _ hc)
          · simp [h1 e he]
        | shift b =>
          exact ⟨fun e he => by simp [h1 e he], fun e he => by simp [h2 e he], fun e he => by simp [h3 e he]⟩
  simpa using gen os [] {} ⟨fun e he => (by cases he), fun e he => (by cases he), fun e he => (by rcases he with he | he <;> cases he)⟩ e h

/-- C86: while the room is out of scope the client is told nothing. -/
theorem C86_out_of_scope (s : State) (hs : s.scope = false) (os : List Op)
    (h : ∀ o ∈ os, match o with | .request b _ => b = false | .shift b => b = false | _ => True) :
    (run s os).client = s.client := by
  induction os generalizing s with
  | nil => rfl
  | cons o os ih =>
    have h0 := h o (by simp)
    have key : (step s o).scope = false ∧ (step s o).client = s.client := by
      cases o with
      | member m => exact ⟨hs, rfl⟩
      | typing e => unfold step; simp only; split <;> exact ⟨hs, rfl⟩
      | update => unfold step; cases s.member <;> exact ⟨hs, rfl⟩
      | process r =>
        unfold step
        cases s.queue with
        | nil => exact ⟨hs, rfl⟩
        | cons u q =>
          refine ⟨hs, ?_⟩
          cases u <;> simp [appendLive, hs, tell]
      | request b r =>
        have : b = false := h0
        subst this
        exact ⟨rfl, by simp [step, processInitial, tell]⟩
      | shift b => exact ⟨h0, rfl⟩
    show (run (step s o) os).client = _
    rw [ih _ key.1 (fun x hx => h x (by simp [hx])), key.2]

/-! ### Violations -/

/-- C86 is violated when another room's update moves the room into a window: the room itself is sent, but its typing event is not,
because only the room of the update is looked at. -/
theorem C86_violated_shift :
    let s := run {} [.request false false, .typing "bob", .process false, .shift true]
    s.queue = [] ∧ s.scope = true ∧ s.member = .joined ∧ s.client = none ∧ s.cur = some "bob" := by decide +kernel

/-- C86 is violated when the extension is enabled after the room was sent. -/
theorem C86_violated_enabled :
    let s := run {} [.typing "bob", .process false, .request true false]
    s.queue = [] ∧ s.scope = true ∧ s.member = .joined ∧ s.client = none ∧ s.cur = some "bob" := by decide +kernel

/-- C86 is violated in between: after a request the client has the newest typing event, and then gets an older one that was
still queued. -/
theorem C86_violated_back :
    (run {} [.typing "bob", .typing "nobody", .request true true]).client = some "nobody" ∧
    (run {} [.typing "bob", .typing "nobody", .request true true, .process true]).client = some "bob" := by decide +kernel

/-- C86 is violated for invites: a user who is only invited is told who is typing, because `ProcessInitial` looks at every room
in the response. -/
theorem C86_violated_invite :
    let s := run {} [.member .invited, .typing "bob", .request true true]
    s.member = .invited ∧ s.client = some "bob" := by decide +kernel

/-- The hypotheses of `C86_converges_partial` are met by a history with typing before and after the request. -/
example :
    let before : List Op := [.typing "a", .update, .typing "b"]
    let after : List Op := [.process true, .typing "c", .update, .request true false, .process true, .process true, .process false, .process true]
    Stays before ∧ Stays after ∧ InScope after ∧ (run {} (before ++ [.request true true] ++ after)).queue = [] ∧
      (run {} (before ++ [.request true true] ++ after)).client = some "c" := by
  refine ⟨by simp [Stays], by simp [Stays], ?_, by decide +kernel, by decide +kernel⟩
  simp [InScope]

end Verif.TypingExt
