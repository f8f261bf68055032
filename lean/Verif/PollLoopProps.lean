import Verif.PollLoop
import Verif.Util
/-!
# Properties of a poller's life (C105)
-/
namespace Verif.PollLoop
open Verif.Poller

variable {σ : Type}

/-! ### Specification: what came of the polls -/

/-- What a poll led to: the token was refused, no usable answer came, the answer could not be processed, all is done. -/
inductive Obs
  | refused
  | unreachable
  | undone
  | done
  deriving DecidableEq

/-- What a request led to. -/
def outcome (rcv : Rcv σ) (user : String) (w : World σ) : Reply → Obs
  | .err status => if status = 401 ∨ status = 403 then .refused else .unreachable
  | .ok res => if (sections rcv user w.m w.lp.mem res).2.2 then .done else .undone

/-- The polls a step adds: a turn in which a request is made and its answer is looked at. -/
def heard (rcv : Rcv σ) (user : String) (s : St σ) : Step σ → List Obs
  | .turn t =>
    if s.returned = true ∨ s.w.lp.terminated = true ∨ s.w.lp.failCount > 1000 ∨ t.killedBefore = true ∨ t.killedAfter = true
    then [] else [outcome rcv user s.w t.reply]
  | _ => []

/-- A poller's life: its state, the polls so far, and whether it was terminated by others or panicked. -/
structure Life (σ : Type) where
  st : St σ
  polls : List Obs := []
  killed : Bool := false
  panicked : Bool := false

def live (rcv : Rcv σ) (user : String) (l : Life σ) (o : Step σ) : Life σ :=
  { st := step rcv user l.st o
    polls := l.polls ++ heard rcv user l.st o
    killed := l.killed || (match o with | .kill => true | .turn t => t.killedBefore || t.killedAfter | .panic _ => false)
    panicked := l.panicked || (match o with | .panic _ => !l.st.returned && !l.st.w.lp.terminated | _ => false) }

def life (rcv : Rcv σ) (user : String) (m : M σ) (since : String) (b : Bool) (ops : List (Step σ)) : Life σ :=
  ops.foldl (live rcv user) { st := start m since b }

/-- More than a thousand polls in a row got nothing done, and the last thousand got no answer. -/
def GaveUp (os : List Obs) : Prop :=
  ∃ pre x, os = pre ++ x :: List.replicate 1000 Obs.unreachable ∧ (x = .unreachable ∨ x = .undone)

/-! ### Counting -/

/-- The polls since the last answer, and one more if that was not processed. -/
def fails (os : List Obs) : Nat :=
  os.foldl (fun n o => match o with | .unreachable => n + 1 | .undone => 1 | .done => 0 | .refused => n) 0

theorem fails_snoc (os : List Obs) (o : Obs) : fails (os ++ [o]) =
    match o with | .unreachable => fails os + 1 | .undone => 1 | .done => 0 | .refused => fails os := by
  simp only [fails, List.foldl_append, List.foldl_cons, List.foldl_nil]

theorem fails_replicate (os : List Obs) (k : Nat) : fails (os ++ List.replicate k Obs.unreachable) = fails os + k := by
  induction k with
  | zero => simp
  | succ k ih =>
    rw [List.replicate_succ', ← List.append_assoc, fails_snoc, ih]; rfl

theorem fails_gt (os : List Obs) (hr : Obs.refused ∉ os) (k : Nat) : fails os > k ↔
    ∃ pre x, os = pre ++ x :: List.replicate k Obs.unreachable ∧ (x = .unreachable ∨ x = .undone) := by
  constructor
  · induction os using Verif.Util.snocRec generalizing k with
    | nil => intro h; simp [fails] at h
    | append_singleton os o ih =>
      intro h
      rw [fails_snoc] at h
      cases o with
      | refused => exact absurd (List.mem_append_right _ (List.mem_singleton.2 rfl)) hr
      | done => simp at h
      | undone =>
        have : k = 0 := by simp only at h; omega
        subst this; exact ⟨os, .undone, by simp, Or.inr rfl⟩
      | unreachable =>
        cases k with
        | zero => exact ⟨os, .unreachable, by simp, Or.inl rfl⟩
        | succ k =>
          obtain ⟨pre, x, h1, h2⟩ := ih (fun h => hr (List.mem_append_left _ h)) k (by simp only at h; omega)
          refine ⟨pre, x, ?_, h2⟩
          rw [h1, List.replicate_succ']; simp
  · rintro ⟨pre, x, h1, h2⟩
    have : os = (pre ++ [x]) ++ List.replicate k Obs.unreachable := by rw [h1]; simp
    rw [this, fails_replicate, fails_snoc]
    rcases h2 with rfl | rfl <;> simp only <;> omega

/-! ### The invariant -/

structure Inv (l : Life σ) : Prop where
  one : l.st.ended = if l.st.returned then 1 else 0
  count : l.st.returned = false → l.st.w.lp.failCount = fails l.polls
  run : l.st.returned = false → Obs.refused ∉ l.polls ∧ l.st.w.lp.expired = 0 ∧ l.panicked = false ∧
    l.st.w.lp.firstTime = (l.st.w.lp.ready == 0) ∧ (l.st.w.lp.ready = 1 ↔ Obs.done ∈ l.polls)
  kill : l.st.returned = false → l.st.w.lp.terminated = true → l.killed = true
  exp : l.st.w.lp.expired ≤ 1
  why : l.st.w.lp.expired = 1 → l.polls.getLast? = some .refused ∨ (Obs.refused ∉ l.polls ∧ GaveUp l.polls)
  ref : Obs.refused ∈ l.polls → l.st.w.lp.expired = 1
  ready : l.st.w.lp.ready ≤ 1
  rel : l.st.returned = true → l.panicked = false → l.st.w.lp.ready = 1
  fin : l.st.returned = true → l.st.w.lp.expired = 1 ∨ l.killed = true ∨ l.panicked = true

theorem inv_start (m : M σ) (since : String) (b : Bool) : Inv ({ st := start m since b } : Life σ) where
  one := rfl
  count := fun _ => rfl
  run := fun _ => ⟨by simp, rfl, rfl, rfl, by simp [start]⟩
  kill := fun _ h => by cases h
  exp := by simp [start]
  why := fun h => by cases h
  ref := fun h => by cases h
  ready := by simp [start]
  rel := fun h => by cases h
  fin := fun h => by cases h

/-- What a turn of the loop does, by what it led to. -/
theorem poll_cases (rcv : Rcv σ) (user : String) (w : World σ) (t : Turn) (hterm : w.lp.terminated = false) :
    (w.lp.failCount > 1000 ∧ poll rcv user w t =
      ({ w with lp := { w.lp with terminated := true, expired := w.lp.expired + 1 } }, false)) ∨
    (¬ w.lp.failCount > 1000 ∧ (t.killedBefore = true ∨ t.killedAfter = true) ∧
      poll rcv user w t = ({ w with lp := { w.lp with terminated := true } }, false)) ∨
    (¬ w.lp.failCount > 1000 ∧ t.killedBefore = false ∧ t.killedAfter = false ∧
      ((outcome rcv user w t.reply = .refused ∧ poll rcv user w t =
          ({ w with lp := { w.lp with terminated := true, expired := w.lp.expired + 1 } }, false)) ∨
       (outcome rcv user w t.reply = .unreachable ∧
          poll rcv user w t = ({ w with lp := { w.lp with failCount := w.lp.failCount + 1 } }, true)) ∨
       (outcome rcv user w t.reply = .undone ∧ (poll rcv user w t).2 = true ∧
          (poll rcv user w t).1.lp.failCount = 1 ∧ (poll rcv user w t).1.lp.expired = w.lp.expired ∧
          (poll rcv user w t).1.lp.terminated = false ∧ (poll rcv user w t).1.lp.ready = w.lp.ready ∧
          (poll rcv user w t).1.lp.firstTime = w.lp.firstTime) ∨
       (outcome rcv user w t.reply = .done ∧ (poll rcv user w t).2 = true ∧
          (poll rcv user w t).1.lp.failCount = 0 ∧ (poll rcv user w t).1.lp.expired = w.lp.expired ∧
          (poll rcv user w t).1.lp.terminated = false ∧
          (poll rcv user w t).1.lp.ready = (if w.lp.firstTime then w.lp.ready + 1 else w.lp.ready) ∧
          (poll rcv user w t).1.lp.firstTime = false))) := by
  unfold poll
  by_cases h1 : w.lp.failCount > 1000
  · rw [if_pos h1]; exact Or.inl ⟨h1, rfl⟩
  rw [if_neg h1]
  right
  cases hb : t.killedBefore with
  | true => exact Or.inl ⟨h1, Or.inl rfl, by simp⟩
  | false =>
    cases ha : t.killedAfter with
    | true => exact Or.inl ⟨h1, Or.inr rfl, by simp [hterm]⟩
    | false =>
      refine Or.inr ⟨h1, rfl, rfl, ?_⟩
      simp only [hterm, Bool.or_self, Bool.false_eq_true, if_false]
      cases hr : t.reply with
      | err status =>
        by_cases hs : status = 401 ∨ status = 403
        · simp only [outcome, if_pos hs]; exact Or.inl ⟨trivial, trivial⟩
        · simp only [outcome, if_neg hs]; exact Or.inr (Or.inl ⟨trivial, trivial⟩)
      | ok res =>
        cases hsec : (sections rcv user w.m w.lp.mem res).2.2 with
        | false =>
          simp only [outcome, hsec, Bool.false_eq_true, if_false]
          exact Or.inr (Or.inr (Or.inl ⟨trivial, trivial, by simp, trivial, trivial, trivial, trivial⟩))
        | true =>
          simp only [outcome, hsec, if_true]
          exact Or.inr (Or.inr (Or.inr ⟨trivial, trivial, rfl, rfl, rfl, rfl, rfl⟩))

theorem GaveUp_iff {os : List Obs} (hr : Obs.refused ∉ os) : GaveUp os ↔ fails os > 1000 := (fails_gt os hr 1000).symm

theorem finish_ready (s : St σ) (w : World σ) (h1 : w.lp.firstTime = (w.lp.ready == 0)) (h2 : w.lp.ready ≤ 1) :
    (finish s w).w.lp.ready = 1 := by
  unfold finish
  by_cases h : w.lp.ready = 0
  · simp [h1, h]
  · have : w.lp.ready = 1 := by omega
    simp [h1, this]

theorem finish_expired (s : St σ) (w : World σ) : (finish s w).w.lp.expired = w.lp.expired := by
  unfold finish; simp only; split <;> rfl

/-- The loop ends. -/
theorem inv_finish {l : Life σ} (h : Inv l) (hret : l.st.returned = false) (w : World σ) (os : List Obs) (k : Bool)
    (hf : w.lp.firstTime = l.st.w.lp.firstTime) (hr : w.lp.ready = l.st.w.lp.ready)
    (he : (w.lp.expired = 0 ∧ k = true ∧ os = l.polls) ∨
      (w.lp.expired = 1 ∧ ((os = l.polls ∧ GaveUp l.polls) ∨ os = l.polls ++ [.refused]))) :
    Inv ({ st := finish l.st w, polls := os, killed := k, panicked := l.panicked } : Life σ) := by
  obtain ⟨r1, r2, r3, r4, r5⟩ := h.run hret
  have hone := h.one
  rw [hret] at hone
  have hone : l.st.ended = 0 := by simpa using hone
  refine ⟨by simp [finish, hone], (fun h => by cases h), (fun h => by cases h), (fun h => by cases h), ?_, ?_, ?_, ?_, ?_, ?_⟩
  · rw [finish_expired]; rcases he with ⟨e, _⟩ | ⟨e, _⟩ <;> omega
  · simp only [finish_expired]
    intro e
    rcases he with ⟨e', _⟩ | ⟨_, ⟨h1, h2⟩ | h1⟩
    · omega
    · right; rw [h1]; exact ⟨r1, h2⟩
    · left; rw [h1]; simp
  · simp only [finish_expired]
    intro e
    rcases he with ⟨_, _, e'⟩ | ⟨e', _⟩
    · rw [e'] at e; exact absurd e r1
    · exact e'
  · have := finish_ready l.st w (by rw [hf, hr, r4]) (by rw [hr]; exact h.ready)
    simp only [this]; omega
  · intro _ _
    exact finish_ready l.st w (by rw [hf, hr, r4]) (by rw [hr]; exact h.ready)
  · intro _
    simp only [finish_expired]
    rcases he with ⟨_, e, _⟩ | ⟨e, _⟩
    · exact Or.inr (Or.inl e)
    · exact Or.inl e

/-- The loop goes on. -/
theorem inv_on {l : Life σ} (h : Inv l) (hret : l.st.returned = false) (w : World σ) (o : Obs)
    (ho : o ≠ .refused) (hc : w.lp.failCount = fails (l.polls ++ [o])) (he : w.lp.expired = l.st.w.lp.expired)
    (ht : w.lp.terminated = false) (hr : w.lp.ready = if o = .done ∧ l.st.w.lp.firstTime = true then l.st.w.lp.ready + 1 else l.st.w.lp.ready)
    (hf : w.lp.firstTime = if o = .done then false else l.st.w.lp.firstTime) :
    Inv ({ st := { l.st with w := w }, polls := l.polls ++ [o], killed := l.killed, panicked := l.panicked } : Life σ) := by
  obtain ⟨r1, r2, r3, r4, r5⟩ := h.run hret
  have hready := h.ready
  have key : w.lp.firstTime = (w.lp.ready == 0) ∧ (w.lp.ready = 1 ↔ Obs.done ∈ l.polls ++ [o]) ∧ w.lp.ready ≤ 1 := by
    have h01 : l.st.w.lp.ready = 0 ∨ l.st.w.lp.ready = 1 := by omega
    by_cases hd : o = .done
    · subst hd
      rcases h01 with h0 | h0 <;> simp [hr, hf, r4, h0]
    · have hd' : ¬ (Obs.done = o) := fun h => hd h.symm
      rw [if_neg hd] at hf
      have hr : w.lp.ready = l.st.w.lp.ready := by rw [hr, if_neg (fun h => hd h.1)]
      rw [hf, hr]
      exact ⟨r4, by rw [r5]; simp [hd'], hready⟩
  have hmem : Obs.refused ∉ l.polls ++ [o] := by
    simp only [List.mem_append, List.mem_singleton, not_or]
    exact ⟨r1, fun h => ho h.symm⟩
  refine ⟨h.one, fun _ => hc, fun _ => ⟨hmem, by rw [he, r2], r3, key.1, key.2.1⟩, (fun _ h => by rw [ht] at h; cases h), ?_, ?_, ?_,
    key.2.2, ?_, ?_⟩
  · rw [he, r2]; omega
  · intro e; rw [he, r2] at e; cases e
  · intro e; exact absurd e hmem
  · intro e; rw [hret] at e; cases e
  · intro e; rw [hret] at e; cases e

theorem inv_live {rcv : Rcv σ} {user : String} {l : Life σ} (h : Inv l) (o : Step σ) : Inv (live rcv user l o) := by
  cases o with
  | kill =>
    exact ⟨h.one, by simpa [live, step, heard] using h.count, by simpa [live, step, heard] using h.run, fun _ _ => by simp [live],
      h.exp, by simpa [live, step, heard] using h.why, by simpa [live, step, heard] using h.ref, h.ready,
      by simpa [live, step] using h.rel, fun _ => Or.inr (Or.inl (by simp [live]))⟩
  | panic m =>
    by_cases hret : l.st.returned = true
    · have e : live rcv user l (.panic m) = l := by
        simp [live, step, heard, hret]
      rw [e]; exact h
    have hret : l.st.returned = false := by simpa using hret
    obtain ⟨r1, r2, r3, r4, r5⟩ := h.run hret
    by_cases ht : l.st.w.lp.terminated = true
    · have hk := h.kill hret ht
      have e : live rcv user l (.panic m) = ⟨finish l.st l.st.w, l.polls, true, l.panicked⟩ := by
        simp [live, step, heard, hret, ht, hk]
      rw [e]
      exact inv_finish h hret _ _ _ rfl rfl (Or.inl ⟨r2, rfl, rfl⟩)
    · have ht : l.st.w.lp.terminated = false := by simpa using ht
      have e : live rcv user l (.panic m) = ⟨⟨{ l.st.w with m := m }, true, l.st.ended + 1⟩, l.polls, l.killed, true⟩ := by
        simp [live, step, heard, hret, ht]
      rw [e]
      have hone := h.one
      rw [hret] at hone
      have hone : l.st.ended = 0 := by simpa using hone
      exact ⟨by simp [hone], (fun h => by cases h), (fun h => by cases h), (fun h => by cases h), h.exp, h.why, h.ref, h.ready,
        (fun _ h => by cases h), fun _ => Or.inr (Or.inr rfl)⟩
  | turn t =>
    by_cases hret : l.st.returned = true
    · have := h.fin hret
      have e1 : (live rcv user l (.turn t)).st = l.st := by simp [live, step, hret]
      have e2 : (live rcv user l (.turn t)).polls = l.polls := by simp [live, heard, hret]
      have e3 : (live rcv user l (.turn t)).panicked = l.panicked := by simp [live]
      refine ⟨?_, ?_, ?_, ?_, ?_, ?_, ?_, ?_, ?_, ?_⟩ <;> (try rw [e1]) <;> (try rw [e2]) <;> (try rw [e3])
      · exact h.one
      · exact h.count
      · exact h.run
      · intro h'; rw [hret] at h'; cases h'
      · exact h.exp
      · exact h.why
      · exact h.ref
      · exact h.ready
      · exact h.rel
      · intro _
        rcases this with h | h | h
        · exact Or.inl h
        · exact Or.inr (Or.inl (by simp [live, h]))
        · exact Or.inr (Or.inr h)
    have hret : l.st.returned = false := by simpa using hret
    obtain ⟨r1, r2, r3, r4, r5⟩ := h.run hret
    have hcount := h.count hret
    by_cases ht : l.st.w.lp.terminated = true
    · have hk := h.kill hret ht
      have e : live rcv user l (.turn t) = ⟨finish l.st l.st.w, l.polls, true, l.panicked⟩ := by
        simp [live, step, heard, hret, ht, hk]
      rw [e]
      exact inv_finish h hret _ _ _ rfl rfl (Or.inl ⟨r2, rfl, rfl⟩)
    have ht : l.st.w.lp.terminated = false := by simpa using ht
    rcases poll_cases rcv user l.st.w t ht with ⟨c1, c2⟩ | ⟨c1, c2, c3⟩ | ⟨c1, c2, c3, c4⟩
    · have e : live rcv user l (.turn t) = ⟨finish l.st (poll rcv user l.st.w t).1, l.polls,
          l.killed || (t.killedBefore || t.killedAfter), l.panicked⟩ := by
        simp [live, step, heard, hret, ht, c1, c2]
      rw [e, c2]
      refine inv_finish h hret _ _ _ rfl rfl (Or.inr ⟨by simp [r2], Or.inl ⟨rfl, ?_⟩⟩)
      rw [GaveUp_iff r1, ← hcount]; exact c1
    · have e : live rcv user l (.turn t) = ⟨finish l.st (poll rcv user l.st.w t).1, l.polls, true, l.panicked⟩ := by
        rcases c2 with c2 | c2 <;> simp [live, step, heard, hret, ht, c2, c3]
      rw [e, c3]
      exact inv_finish h hret _ _ _ rfl rfl (Or.inl ⟨r2, rfl, rfl⟩)
    · have hh : heard rcv user l.st (.turn t) = [outcome rcv user l.st.w t.reply] := by
        simp only [heard]
        rw [if_neg (by simp [hret, ht, c2, c3]; omega)]
      rcases c4 with ⟨d1, d2⟩ | ⟨d1, d2⟩ | ⟨d1, d2, d3, d4, d5, d6, d7⟩ | ⟨d1, d2, d3, d4, d5, d6, d7⟩
      · have e : live rcv user l (.turn t) = ⟨finish l.st (poll rcv user l.st.w t).1, l.polls ++ [.refused], l.killed, l.panicked⟩ := by
          simp [live, step, hh, hret, ht, c2, c3, d1, d2]
        rw [e, d2]
        exact inv_finish h hret _ _ _ rfl rfl (Or.inr ⟨by simp [r2], Or.inr rfl⟩)
      · have e : live rcv user l (.turn t) = ⟨{ l.st with w := (poll rcv user l.st.w t).1 }, l.polls ++ [.unreachable], l.killed, l.panicked⟩ := by
          simp [live, step, hh, hret, ht, c2, c3, d1, d2]
        rw [e, d2]
        exact inv_on h hret _ _ (by simp) (by rw [fails_snoc]; simp [hcount]) rfl ht (by simp) (by simp)
      · have e : live rcv user l (.turn t) = ⟨{ l.st with w := (poll rcv user l.st.w t).1 }, l.polls ++ [.undone], l.killed, l.panicked⟩ := by
          simp [live, step, hh, hret, ht, c2, c3, d1, d2]
        rw [e]
        exact inv_on h hret _ _ (by simp) (by rw [fails_snoc, d3]) d4 d5 (by simp [d6]) (by simp [d7])
      · have e : live rcv user l (.turn t) = ⟨{ l.st with w := (poll rcv user l.st.w t).1 }, l.polls ++ [.done], l.killed, l.panicked⟩ := by
          simp [live, step, hh, hret, ht, c2, c3, d1, d2]
        rw [e]
        exact inv_on h hret _ _ (by simp) (by rw [fails_snoc, d3]) d4 d5 (by simp [d6]) (by simp [d7])

theorem inv_life (rcv : Rcv σ) (user : String) (m : M σ) (since : String) (b : Bool) (ops : List (Step σ)) :
    Inv (life rcv user m since b ops) := by
  induction ops using Verif.Util.snocRec with
  | nil => exact inv_start m since b
  | append_singleton ops o ih =>
    simp only [life, List.foldl_append, List.foldl_cons, List.foldl_nil]
    exact inv_live ih o

/-! ### C105 -/

/-- A poller gives its token up as expired at most once, as its last act, and only if the homeserver refused the token in the
last poll, or more than a thousand polls in a row got nothing done, the last thousand because no usable answer came. It does
give it up when the token is refused; and after so many polls it does at the next turn, unless it was terminated before. -/
theorem C105_expires (rcv : Rcv σ) (user : String) (m : M σ) (since : String) (b : Bool) (ops : List (Step σ)) :
    let l := life rcv user m since b ops
    l.st.w.lp.expired ≤ 1 ∧
    (l.st.w.lp.expired = 1 → l.st.returned = true ∧ (l.polls.getLast? = some .refused ∨ GaveUp l.polls)) ∧
    (Obs.refused ∈ l.polls → l.st.w.lp.expired = 1) ∧
    (GaveUp l.polls → l.st.returned = false → l.st.w.lp.terminated = false → ∀ t : Turn,
      (life rcv user m since b (ops ++ [.turn t])).st.w.lp.expired = 1) := by
  intro l
  have h : Inv l := inv_life rcv user m since b ops
  refine ⟨h.exp, fun e => ⟨?_, ?_⟩, h.ref, ?_⟩
  · cases hr : l.st.returned with
    | true => rfl
    | false => have := (h.run hr).2.1; omega
  · rcases h.why e with h | h
    · exact Or.inl h
    · exact Or.inr h.2
  · intro hg hret ht t
    have hr := h.run hret
    have hc : l.st.w.lp.failCount > 1000 := by rw [h.count hret]; exact (GaveUp_iff hr.1).1 hg
    have e : (life rcv user m since b (ops ++ [.turn t])) = live rcv user l (.turn t) := by
      simp only [life, List.foldl_append, List.foldl_cons, List.foldl_nil]; rfl
    rw [e]
    have hp : poll rcv user l.st.w t = ({ l.st.w with lp := { l.st.w.lp with terminated := true, expired := l.st.w.lp.expired + 1 } }, false) := by
      unfold poll; rw [if_pos hc]
    simp only [live, step, hret, ht, Bool.false_eq_true, if_false, hp, finish_expired, hr.2.1]

/-- A poller's loop ends only because the token is given up, somebody terminated the poller, or it panicked; when it does
`OnTerminated` is called once. -/
theorem C105_ends (rcv : Rcv σ) (user : String) (m : M σ) (since : String) (b : Bool) (ops : List (Step σ)) :
    let l := life rcv user m since b ops
    l.st.ended = (if l.st.returned then 1 else 0) ∧
    (l.st.returned = true → l.st.w.lp.expired = 1 ∨ l.killed = true ∨ l.panicked = true) := by
  intro l
  have h : Inv l := inv_life rcv user m since b ops
  exact ⟨h.one, h.fin⟩

theorem stopped_live (rcv : Rcv σ) (user : String) (l : Life σ) (h : l.st.returned = true ∨ l.st.w.lp.terminated = true) (o : Step σ) :
    ((live rcv user l o).st.returned = true ∨ (live rcv user l o).st.w.lp.terminated = true) ∧ (live rcv user l o).polls = l.polls ∧
    (live rcv user l o).st.w.m = l.st.w.m ∧ (live rcv user l o).panicked = l.panicked ∧
    (l.st.returned = true → (live rcv user l o).st.returned = true) ∧ (o ≠ .kill → (live rcv user l o).st.returned = true) := by
  have hf : ∀ w : World σ, (finish l.st w).w.m = w.m := fun w => by unfold finish; split <;> rfl
  cases o with
  | kill => simp [live, step, heard]
  | turn t =>
    by_cases hr : l.st.returned = true
    · simp [live, step, heard, hr]
    · have ht := h.resolve_left hr
      simp [live, step, heard, hr, ht, hf, finish]
      split <;> rfl
  | panic m =>
    by_cases hr : l.st.returned = true
    · simp [live, step, heard, hr]
    · have ht := h.resolve_left hr
      simp [live, step, heard, hr, ht, hf, finish]
      split <;> rfl

/-- A terminated poller polls no more, whatever comes: no answer is looked at, nothing is stored, and the loop ends when it next comes to
its test. -/
theorem C105_terminated (rcv : Rcv σ) (user : String) (m : M σ) (since : String) (b : Bool) (ops ops' : List (Step σ)) :
    let l := life rcv user m since b ops
    let l' := life rcv user m since b (ops ++ .kill :: ops')
    l'.polls = l.polls ∧ l'.st.w.m = l.st.w.m ∧ l'.panicked = l.panicked ∧ ((∃ o ∈ ops', o ≠ .kill) → l'.st.returned = true) := by
  intro l l'
  have h0 : l' = ops'.foldl (live rcv user) (live rcv user l .kill) := by
    simp only [l', l, life, List.foldl_append, List.foldl_cons]
  have hk : (live rcv user l .kill).polls = l.polls ∧ (live rcv user l .kill).st.w.m = l.st.w.m ∧ (live rcv user l .kill).panicked = l.panicked ∧
      ((live rcv user l .kill).st.returned = true ∨ (live rcv user l .kill).st.w.lp.terminated = true) := by
    simp [live, step, heard]
  obtain ⟨k1, k2, k3, k4⟩ := hk
  suffices H : ∀ (ops' : List (Step σ)) (x : Life σ), (x.st.returned = true ∨ x.st.w.lp.terminated = true) →
      (ops'.foldl (live rcv user) x).polls = x.polls ∧ (ops'.foldl (live rcv user) x).st.w.m = x.st.w.m ∧
      (ops'.foldl (live rcv user) x).panicked = x.panicked ∧
      ((x.st.returned = true ∨ ∃ o ∈ ops', o ≠ .kill) → (ops'.foldl (live rcv user) x).st.returned = true) by
    obtain ⟨e1, e2, e3, e4⟩ := H ops' _ k4
    rw [h0]
    exact ⟨e1.trans k1, e2.trans k2, e3.trans k3, fun h => e4 (Or.inr h)⟩
  intro ops'
  induction ops' with
  | nil => intro x _; exact ⟨rfl, rfl, rfl, fun h => h.elim id (fun ⟨o, ho, _⟩ => by cases ho)⟩
  | cons o ops' ih =>
    intro x hx
    obtain ⟨a1, a2, a3, a4, a5, a6⟩ := stopped_live rcv user x hx o
    obtain ⟨e1, e2, e3, e4⟩ := ih _ a1
    refine ⟨e1.trans a2, e2.trans a3, e3.trans a4, fun h => e4 ?_⟩
    rcases h with h | ⟨o', ho', hne⟩
    · exact Or.inl (a5 h)
    · rcases List.mem_cons.1 ho' with rfl | ho'
      · exact Or.inl (a6 hne)
      · exact Or.inr ⟨o', ho', hne⟩

/-- Those who wait for the first sync are released at most once: while the loop runs, exactly if a poll was done; when it has
ended, always, but for a panic. What is missing from C105: the panic (`C105_violated_panic`), and that a poller whose polls are
never done gives up (`C105_violated_undone`). -/
theorem C105_released_partial (rcv : Rcv σ) (user : String) (m : M σ) (since : String) (b : Bool) (ops : List (Step σ)) :
    let l := life rcv user m since b ops
    l.st.w.lp.ready ≤ 1 ∧ (l.st.returned = true → l.panicked = false → l.st.w.lp.ready = 1) ∧
    (l.st.returned = false → (l.st.w.lp.ready = 1 ↔ Obs.done ∈ l.polls)) := by
  intro l
  have h : Inv l := inv_life rcv user m since b ops
  exact ⟨h.ready, h.rel, fun hr => (h.run hr).2.2.2.2⟩

/-! ### What is not so -/

/-- A receiver that cannot store to-device messages. -/
def badRcv : Rcv Unit := fun _ _ => ((), .other)

def badTurn : Turn :=
  { killedBefore := false, killedAfter := false, reply := .ok ⟨"s1", [], none, [], [], [], [], [], [], ["msg"]⟩, now := 0, persistOk := true }

/-- However often in a row the answers cannot be processed, the poller never gives up: the count of failures starts again with
each answer. Nobody who waits for its first sync is released. -/
theorem C105_violated_undone (n : Nat) :
    let l := life badRcv "@a" ⟨(), []⟩ "" false (List.replicate n (.turn badTurn))
    l.polls = List.replicate n .undone ∧ l.st.returned = false ∧ l.st.w.lp.expired = 0 ∧ l.st.w.lp.ready = 0 := by
  have h : ∀ n, let l := life badRcv "@a" ⟨(), []⟩ "" false (List.replicate n (.turn badTurn))
      l.polls = List.replicate n .undone ∧ l.st.returned = false ∧ l.st.w.lp.expired = 0 ∧ l.st.w.lp.ready = 0 ∧
      l.st.w.lp.terminated = false ∧ l.st.w.lp.failCount ≤ 1 := by
    intro n
    induction n with
    | zero => exact ⟨rfl, rfl, rfl, rfl, rfl, by decide⟩
    | succ n ih =>
      obtain ⟨h1, h2, h3, h4, h5, h6⟩ := ih
      have e : life badRcv "@a" ⟨(), []⟩ "" false (List.replicate (n + 1) (.turn badTurn)) =
          live badRcv "@a" (life badRcv "@a" ⟨(), []⟩ "" false (List.replicate n (.turn badTurn))) (.turn badTurn) := by
        simp only [life, List.replicate_succ', List.foldl_append, List.foldl_cons, List.foldl_nil]
      rw [e]
      generalize life badRcv "@a" ⟨(), []⟩ "" false (List.replicate n (.turn badTurn)) = l at *
      have ho : outcome badRcv "@a" l.st.w badTurn.reply = .undone := by
        have : (sections badRcv "@a" l.st.w.m l.st.w.lp.mem ⟨"s1", [], none, [], [], [], [], [], [], ["msg"]⟩).2.2 = false := by
          unfold sections
          simp only
          split
          · rfl
          · simp [parseAccount, parseRooms, parseToDevice, call, badRcv, shouldRetry, joinErrs, loop, Call.silent]
        simp [outcome, badTurn, this]
      have hh : heard badRcv "@a" l.st (.turn badTurn) = [.undone] := by
        simp only [heard]
        rw [if_neg (by simp [h2, h5, badTurn]; omega), ho]
      rcases poll_cases badRcv "@a" l.st.w badTurn h5 with ⟨c, _⟩ | ⟨_, c, _⟩ | ⟨_, _, _, c⟩
      · omega
      · rcases c with c | c <;> cases c
      · rw [ho] at c
        rcases c with ⟨d1, _⟩ | ⟨d1, _⟩ | ⟨_, d2, d3, d4, d5, d6, d7⟩ | ⟨d1, _⟩
        · cases d1
        · cases d1
        · simp only [live, step, hh, h2, h5, d2, Bool.false_eq_true, if_false, if_true]
          exact ⟨by rw [h1, List.replicate_succ'], trivial, by rw [d4, h3], by rw [d6, h4], d5, by omega⟩
        · cases d1
  obtain ⟨h1, h2, h3, h4, _⟩ := h n
  exact ⟨h1, h2, h3, h4⟩

/-- If the poller panics in its first sync its loop has ended, but those who wait for the sync are never released. -/
theorem C105_violated_panic (rcv : Rcv Unit) (ops : List (Step Unit)) :
    let l := life rcv "@a" ⟨(), []⟩ "" false (.panic ⟨(), []⟩ :: ops)
    l.st.returned = true ∧ l.st.w.lp.ready = 0 := by
  induction ops using Verif.Util.snocRec with
  | nil => exact ⟨rfl, rfl⟩
  | append_singleton ops o ih =>
    obtain ⟨h1, h2⟩ := ih
    have e : life rcv "@a" ⟨(), []⟩ "" false (.panic ⟨(), []⟩ :: (ops ++ [o])) =
        live rcv "@a" (life rcv "@a" ⟨(), []⟩ "" false (.panic ⟨(), []⟩ :: ops)) o := by
      simp only [life, List.foldl_cons, List.foldl_append, List.foldl_nil]
    rw [e]
    generalize life rcv "@a" ⟨(), []⟩ "" false (.panic ⟨(), []⟩ :: ops) = l at *
    cases o with
    | kill => exact ⟨h1, h2⟩
    | panic m => simp only [live, step, h1, if_true, h2]; exact ⟨trivial, trivial⟩
    | turn t => simp only [live, step, h1, if_true, h2]; exact ⟨trivial, trivial⟩

/-! ### Examples -/

def okRcv : Rcv Unit := fun _ _ => ((), .nil)

def errTurn (status : Nat) : Turn :=
  { killedBefore := false, killedAfter := false, reply := .err status, now := 0, persistOk := true }

/-- An answer that is processed, one failure, and a refusal: the token is given up, those who waited were released before. -/
example : let l := life okRcv "@a" ⟨(), []⟩ "" false [.turn badTurn, .turn (errTurn 502), .turn (errTurn 401)]
    l.polls = [.done, .unreachable, .refused] ∧ l.st.w.lp.expired = 1 ∧ l.st.returned = true ∧ l.st.w.lp.ready = 1 := by
  decide +kernel

/-- Polls after which the token is given up. -/
example : GaveUp ([.done, .undone] ++ List.replicate 1000 Obs.unreachable) := ⟨[.done], .undone, rfl, Or.inr rfl⟩

end Verif.PollLoop
