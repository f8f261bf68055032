import Verif.LiveLoop
/-!
# C82: updates queued for a connection are answered in order, without loss
-/
namespace Verif.LiveLoop
variable {U R : Type} (P : Prog U R)

/-! ### Specification -/

/-- The updates processed for the request being answered. -/
def Pc.took : Pc U R → List U
  | .idle => []
  | .loop c => c.took
  | .inner c => c.took
  | .after c => c.took
  | .catchup _ c => c.took

/-- All updates that were processed, in order: those of each response, then those of the request being answered. -/
def State.processed (s : State U R) : List U := s.done.flatMap (·.c.took) ++ s.pc.took

/-- The updates of one producer. -/
def on (p : Nat) (l : List U) : List U := l.filter fun u => P.src u = p

/-- `b` is longer than `a` and begins with it. -/
def Longer (a b : List U) : Prop := ∃ u t, b = a ++ u :: t

/-- Beyond 100 updates, one is only processed if there was no data before it. -/
def Capped (c : Cur U R) : Prop :=
  ∀ a u b, c.took = a ++ u :: b → 100 ≤ a.length → P.hasData c.initial (a.foldl P.apply c.r0) = false

/-- What is required of an answer: it is made by the updates from what the request itself caused (`r0`).  If that already
was data, an initial request processes no updates, and another one at least all that were queued, but no more than fit into
the buffer.  If there was none, the request waits for it. -/
structure Answer (d : Done U R) : Prop where
  folded : d.c.r = d.c.took.foldl P.apply d.c.r0
  data : P.hasData d.c.initial d.c.r0 = true → d.quit = false ∧ (d.c.initial = true → d.c.took = []) ∧
    (d.c.initial = false → d.c.queued <+: d.c.took ∧ d.c.took.length ≤ P.cap)
  nodata : P.hasData d.c.initial d.c.r0 = false → P.hasData d.c.initial d.c.r = !d.quit ∧
    (d.quit = false → d.c.took ≠ []) ∧ Capped P d.c

/-! ### Invariant -/

def Folded (c : Cur U R) : Prop := c.r = c.took.foldl P.apply c.r0

/-- Live streaming has begun without data, or has not begun. -/
def Streamed (c : Cur U R) : Prop :=
  (c.live = true ∧ c.took ≠ [] ∧ P.hasData c.initial c.r0 = false) ∨ (c.live = false ∧ c.took = [] ∧ c.r = c.r0)

/-- What is known at each point of the request. -/
def AtPc (q : List U) : Pc U R → Prop
  | .idle => True
  | .loop c => Folded P c ∧ Capped P c ∧ Streamed P c ∧ (c.live = false → c.queued <+: q)
  | .inner c => Folded P c ∧ Capped P c ∧ c.live = true ∧ c.took ≠ [] ∧ P.hasData c.initial c.r0 = false
  | .after c => Folded P c ∧ Capped P c ∧ Streamed P c ∧ P.hasData c.initial c.r = true ∧ (c.live = false → c.queued <+: q)
  | .catchup k c => Folded P c ∧ c.live = false ∧ c.initial = false ∧ P.hasData c.initial c.r0 = true ∧ k ≤ q.length ∧
      c.took.length + k ≤ P.cap ∧ c.queued <+: c.took ++ q.take k

structure Inv (s : State U R) : Prop where
  pc : AtPc P s.queue s.pc
  cap : s.queue.length ≤ P.cap
  src : ∀ p u, s.waiting p = some u → P.src u = p
  alive : s.full = false → ∀ p, on P p (s.processed ++ s.queue) ++ (s.waiting p).toList = on P p s.offered
  dead : s.full = true → (∀ p, on P p (s.processed ++ s.queue) ++ (s.waiting p).toList <+: on P p s.offered) ∧
    ∃ p, Longer (on P p (s.processed ++ s.queue) ++ (s.waiting p).toList) (on P p s.offered)
  done : ∀ d ∈ s.done, Answer P d

theorem snoc_cases {t a b : List U} {u v : U} (h : t ++ [u] = a ++ v :: b) :
    (a = t ∧ v = u ∧ b = []) ∨ ∃ b', b = b' ++ [u] ∧ t = a ++ v :: b' := by
  rcases List.eq_nil_or_concat b with rfl | ⟨b', x, rfl⟩
  · left
    have := List.append_inj' h (by simp)
    refine ⟨this.1.symm, ?_, rfl⟩
    have := this.2
    simp only [List.cons.injEq, and_true] at this
    exact this.symm
  · right
    simp only [List.concat_eq_append] at h ⊢
    rw [show a ++ v :: (b' ++ [x]) = (a ++ v :: b') ++ [x] by simp] at h
    have := List.append_inj' h (by simp)
    have h2 := this.2
    simp only [List.cons.injEq, and_true] at h2
    exact ⟨b', by rw [h2], this.1⟩

theorem folded_take {c : Cur U R} (h : Folded P c) (u : U) : Folded P (c.take P u) := by
  unfold Folded at *
  simp only [Cur.take]
  rw [List.foldl_append, ← h]
  rfl

theorem capped_take {c : Cur U R} (h1 : Folded P c) (h2 : Capped P c) (u : U)
    (h : c.took.length < 100 ∨ P.hasData c.initial c.r = false) : Capped P (c.take P u) := by
  intro a v b e hl
  simp only [Cur.take] at e ⊢
  rcases snoc_cases e with ⟨rfl, _, _⟩ | ⟨b', _, e'⟩
  · rcases h with h | h
    · omega
    · unfold Folded at h1
      rw [← h1]
      exact h
  · exact h2 a v b' e' hl

theorem atPc_push {q : List U} {pc : Pc U R} (h : AtPc P q pc) (u : U) : AtPc P (q ++ [u]) pc := by
  cases pc with
  | idle => trivial
  | loop c => exact ⟨h.1, h.2.1, h.2.2.1, fun e => (h.2.2.2 e).trans (List.prefix_append _ _)⟩
  | inner c => exact h
  | after c => exact ⟨h.1, h.2.1, h.2.2.1, h.2.2.2.1, fun e => (h.2.2.2.2 e).trans (List.prefix_append _ _)⟩
  | catchup k c =>
    obtain ⟨h1, h2, h3, h4, h5, h6, h7⟩ := h
    refine ⟨h1, h2, h3, h4, ?_, h6, ?_⟩
    · rw [List.length_append]; omega
    · rw [List.take_append_of_le_length h5]
      exact h7

theorem on_append (p : Nat) (a b : List U) : on P p (a ++ b) = on P p a ++ on P p b := List.filter_append ..

theorem on_self (u : U) : on P (P.src u) [u] = [u] := by simp [on]

theorem on_other {p : Nat} {u : U} (h : P.src u ≠ p) : on P p [u] = [] := by simp [on, h]

theorem setAt_self (f : Nat → Option U) (p : Nat) (v : Option U) : setAt f p v p = v := if_pos rfl

theorem setAt_other (f : Nat → Option U) {p x : Nat} (v : Option U) (h : x ≠ p) : setAt f p v x = f x := if_neg h

theorem Longer.snoc {a b : List U} (h : Longer a b) (c : List U) : Longer a (b ++ c) := by
  obtain ⟨u, t, rfl⟩ := h
  exact ⟨u, t ++ c, by simp⟩

theorem Longer.prefix {a b : List U} (h : Longer a b) : a <+: b := by
  obtain ⟨u, t, rfl⟩ := h
  exact List.prefix_append _ _

theorem Longer.of_append {a b : List U} {u : U} (h : a ++ [u] <+: b) : Longer a b := by
  obtain ⟨t, rfl⟩ := h
  exact ⟨u, t, by simp⟩

theorem inv_init : Inv P ({} : State U R) := by
  refine ⟨trivial, Nat.zero_le _, ?_, fun _ _ => rfl, ?_, ?_⟩
  · intro p u h; cases h
  · intro h; cases h
  · intro d hd; cases hd

theorem inv_offer {s s' : State U R} (hi : Inv P s) {u : U} (h : offer P s u = some s') : Inv P s' := by
  unfold offer at h
  split at h
  · cases h
  · rename_i hw
    dsimp only at h
    split at h
    · rename_i hf
      cases h
      refine ⟨hi.pc, hi.cap, hi.src, ?_, ?_, hi.done⟩
      · intro hf'; exact absurd (hf.symm.trans hf') (by decide)
      · intro _
        obtain ⟨h1, p, h2⟩ := hi.dead hf
        refine ⟨?_, p, ?_⟩
        · intro q
          show _ <+: on P q (s.offered ++ [u])
          rw [on_append (b := [u])]
          exact (h1 q).trans (List.prefix_append _ _)
        · show Longer _ (on P p (s.offered ++ [u]))
          rw [on_append (b := [u])]
          exact h2.snoc _
    · rename_i hf
      have hf : s.full = false := by simpa using hf
      have ha := hi.alive hf
      split at h
      · rename_i hc
        cases h
        refine ⟨atPc_push P hi.pc u, ?_, hi.src, ?_, ?_, hi.done⟩
        · show (s.queue ++ [u]).length ≤ _
          rw [List.length_append]
          exact hc
        · intro _ p
          show on P p (s.processed ++ (s.queue ++ [u])) ++ (s.waiting p).toList = on P p (s.offered ++ [u])
          rw [← List.append_assoc, on_append, on_append (b := [u]), ← ha p]
          by_cases hp : P.src u = p
          · subst hp; rw [hw]; simp
          · rw [on_other P hp]; simp
        · intro hf'; exact absurd (hf.symm.trans hf') (by decide)
      · cases h
        refine ⟨hi.pc, hi.cap, ?_, ?_, ?_, hi.done⟩
        · intro p v hv
          by_cases hp : p = P.src u
          · subst hp
            dsimp only at hv
            rw [setAt_self] at hv
            cases hv; rfl
          · dsimp only at hv
            rw [setAt_other _ _ hp] at hv
            exact hi.src p v hv
        · intro _ p
          show on P p (s.processed ++ s.queue) ++ (setAt s.waiting (P.src u) (some u) p).toList = on P p (s.offered ++ [u])
          rw [on_append (b := [u]), ← ha p]
          by_cases hp : p = P.src u
          · subst hp; rw [hw, setAt_self, on_self]; simp
          · rw [setAt_other _ _ hp, on_other P (Ne.symm hp)]; simp
        · intro hf'; exact absurd (hf.symm.trans hf') (by decide)

theorem inv_deliver {s s' : State U R} (hi : Inv P s) {p : Nat} (h : deliver P s p = some s') : Inv P s' := by
  unfold deliver at h
  split at h
  · cases h
  · rename_i u hw
    have hsrc := hi.src p u hw
    subst hsrc
    split at h
    · rename_i hc
      cases h
      have same : ∀ q, on P q (s.processed ++ (s.queue ++ [u])) ++ (setAt s.waiting (P.src u) none q).toList =
          on P q (s.processed ++ s.queue) ++ (s.waiting q).toList := by
        intro q
        rw [← List.append_assoc, on_append (b := [u])]
        by_cases hq : q = P.src u
        · subst hq; rw [hw, setAt_self, on_self]; simp
        · rw [setAt_other _ _ hq, on_other P (Ne.symm hq)]; simp
      refine ⟨atPc_push P hi.pc u, ?_, ?_, ?_, ?_, hi.done⟩
      · show (s.queue ++ [u]).length ≤ _
        rw [List.length_append]
        exact hc
      · intro q v hv
        by_cases hq : q = P.src u
        · subst hq
          dsimp only at hv
          rw [setAt_self] at hv
          cases hv
        · dsimp only at hv
          rw [setAt_other _ _ hq] at hv
          exact hi.src q v hv
      · intro hf q
        exact (same q).trans (hi.alive hf q)
      · intro hf
        obtain ⟨h1, q, h2⟩ := hi.dead hf
        refine ⟨fun q => ?_, q, ?_⟩
        · exact (same q) ▸ h1 q
        · exact (same q) ▸ h2
    · cases h

theorem inv_giveUp {s s' : State U R} (hi : Inv P s) {p : Nat} (h : giveUp s p = some s') : Inv P s' := by
  unfold giveUp at h
  split at h
  · cases h
  · rename_i u hw
    have hall : ∀ q, on P q (s.processed ++ s.queue) ++ (s.waiting q).toList <+: on P q s.offered := by
      cases hf : s.full with
      | false => intro q; rw [hi.alive hf q]; exact List.prefix_refl _
      | true => exact (hi.dead hf).1
    have hp : Longer (on P p (s.processed ++ s.queue) ++ (setAt s.waiting p none p).toList) (on P p s.offered) := by
      have := hall p
      rw [hw] at this
      rw [setAt_self]
      simp only [Option.toList_none, List.append_nil]
      exact Longer.of_append this
    cases h
    refine ⟨hi.pc, hi.cap, ?_, nofun, ?_, hi.done⟩
    · intro q v hv
      by_cases hq : q = p
      · subst hq
        dsimp only at hv
        rw [setAt_self] at hv
        cases hv
      · dsimp only at hv
        rw [setAt_other _ _ hq] at hv
        exact hi.src q v hv
    · intro _
      refine ⟨fun q => ?_, p, hp⟩
      by_cases hq : q = p
      · subst hq; exact hp.prefix
      · show on P q (s.processed ++ s.queue) ++ (setAt s.waiting p none q).toList <+: _
        rw [setAt_other _ _ hq]
        exact hall q

theorem inv_begin {s s' : State U R} (hi : Inv P s) {i : Bool} {r : R} (h : «begin» s i r = some s') : Inv P s' := by
  unfold «begin» at h
  split at h
  · rename_i hpc
    split at h
    · cases h
    · cases h
      have hp : s.processed = s.done.flatMap (·.c.took) := by simp [State.processed, hpc, Pc.took]
      refine ⟨⟨rfl, ?_, Or.inr ⟨rfl, rfl, rfl⟩, fun _ => List.prefix_refl _⟩, hi.cap, hi.src, ?_, ?_, hi.done⟩
      · intro a u b e; exact absurd e (by simp)
      · intro hf
        have := hi.alive hf
        rw [hp] at this
        simpa [State.processed, Pc.took] using this
      · intro hf
        have := hi.dead hf
        rw [hp] at this
        simpa [State.processed, Pc.took] using this
  · cases h

/-- A step of the request that takes nothing. -/
theorem inv_move {s : State U R} (hi : Inv P s) {pc' : Pc U R} (h : AtPc P s.queue pc') (ht : pc'.took = s.pc.took) :
    Inv P { s with pc := pc' } := by
  have hp : State.processed { s with pc := pc' } = s.processed := by simp [State.processed, ht]
  exact ⟨h, hi.cap, hi.src, fun hf => by rw [hp]; exact hi.alive hf, fun hf => by rw [hp]; exact hi.dead hf, hi.done⟩

/-- A step of the request that takes an update. -/
theorem inv_take {s : State U R} (hi : Inv P s) {u : U} {q : List U} (hq : s.queue = u :: q) {pc' : Pc U R}
    (h : AtPc P q pc') (ht : pc'.took = s.pc.took ++ [u]) : Inv P { s with queue := q, pc := pc' } := by
  have hp : State.processed { s with queue := q, pc := pc' } ++ q = s.processed ++ s.queue := by
    simp [State.processed, ht, hq]
  refine ⟨h, ?_, hi.src, ?_, ?_, hi.done⟩
  · have := hi.cap
    rw [hq] at this
    simp only [List.length_cons] at this
    exact Nat.le_of_succ_le this
  · intro hf
    have := hi.alive hf
    rw [← hp] at this
    exact this
  · intro hf
    have := hi.dead hf
    rw [← hp] at this
    exact this

/-- The request is answered. -/
theorem inv_finish {s : State U R} (hi : Inv P s) {c : Cur U R} {q : Bool} (h : Answer P ⟨c, q⟩) (ht : c.took = s.pc.took) :
    Inv P (finish s c q) := by
  have hp : (finish s c q).processed = s.processed := by simp [finish, State.processed, ht, Pc.took]
  refine ⟨trivial, hi.cap, hi.src, ?_, ?_, ?_⟩
  · intro hf; rw [hp]; exact hi.alive hf
  · intro hf; rw [hp]; exact hi.dead hf
  · intro d hd
    rcases List.mem_append.1 hd with hd | hd
    · exact hi.done d hd
    · rw [List.mem_singleton.1 hd]; exact h

theorem inv_go {s s' : State U R} (hi : Inv P s) (h : go P s = some s') : Inv P s' := by
  have hpc := hi.pc
  unfold go at h
  split at h
  · cases h
  · rename_i c hc
    rw [hc] at hpc
    obtain ⟨h1, h2, h3, h4⟩ := hpc
    split at h
    · rename_i hd
      cases h
      exact inv_move P hi ⟨h1, h2, h3, hd, h4⟩ (by rw [hc]; rfl)
    · rename_i hd
      have hd : P.hasData c.initial c.r = false := by simpa using hd
      split at h
      · cases h
      · rename_i u q hq
        cases h
        refine inv_take P hi hq ⟨?_, ?_, rfl, ?_, ?_⟩ (by rw [hc]; rfl)
        · exact folded_take P (c := { c with live := true }) h1 u
        · exact capped_take P (c := { c with live := true }) h1 h2 u (Or.inr hd)
        · simp [Cur.take]
        · rcases h3 with ⟨_, _, h3⟩ | ⟨_, _, h3⟩
          · exact h3
          · show P.hasData c.initial c.r0 = false
            rw [← h3]; exact hd
  · rename_i c hc
    rw [hc] at hpc
    obtain ⟨h1, h2, h3, h4, h5⟩ := hpc
    have hloop : Inv P { s with pc := .loop c } := by
      refine inv_move P hi ⟨h1, h2, Or.inl ⟨h3, h4, h5⟩, ?_⟩ (by rw [hc]; rfl)
      intro e; rw [h3] at e; cases e
    split at h
    · cases h; exact hloop
    · rename_i u q hq
      split at h
      · rename_i hl
        cases h
        refine inv_take P hi hq ⟨folded_take P h1 u, capped_take P h1 h2 u (Or.inl hl), h3, ?_, h5⟩ (by rw [hc]; rfl)
        simp [Cur.take]
      · cases h; exact hloop
  · rename_i c hc
    rw [hc] at hpc
    obtain ⟨h1, h2, h3, h4, h5⟩ := hpc
    split at h
    · rename_i hcond
      simp only [Bool.and_eq_true, Bool.not_eq_true', decide_eq_true_eq] at hcond
      obtain ⟨⟨hlive, hinit⟩, hlen⟩ := hcond
      cases h
      rcases h3 with ⟨h3, _⟩ | ⟨_, h3, h3'⟩
      · rw [h3] at hlive; cases hlive
      · refine inv_move P hi ⟨h1, hlive, hinit, by rw [← h3']; exact h4, Nat.le_refl _, ?_, ?_⟩ (by rw [hc]; rfl)
        · rw [h3]; simpa using hi.cap
        · rw [h3, List.take_length]; exact h5 hlive
    · rename_i hcond
      cases h
      refine inv_finish P hi ⟨h1, ?_, ?_⟩ (by rw [hc]; rfl)
      · intro hd
        rcases h3 with ⟨_, _, h3⟩ | ⟨h3l, h3, _⟩
        · exact absurd (h3.symm.trans hd) (by decide)
        · refine ⟨rfl, fun _ => h3, ?_⟩
          intro hinit
          dsimp only at hinit
          have hq : s.queue = [] := by
            cases hq : s.queue with
            | nil => rfl
            | cons u q =>
              rw [h3l, hinit, hq] at hcond
              exact absurd (by simp) hcond
          have := h5 h3l
          rw [hq] at this
          refine ⟨?_, by simp [h3]⟩
          rw [List.prefix_nil.1 this]
          exact List.nil_prefix
      · intro hd
        rcases h3 with ⟨_, h3, _⟩ | ⟨_, _, h3⟩
        · exact ⟨h4, fun _ => h3, h2⟩
        · rw [h3] at h4
          exact absurd (hd.symm.trans h4) (by decide)
  · rename_i c hc
    rw [hc] at hpc
    obtain ⟨h1, h2, h3, h4, h5, h6, h7⟩ := hpc
    cases h
    refine inv_finish P hi ⟨h1, ?_, ?_⟩ (by rw [hc]; rfl)
    · intro _
      refine ⟨rfl, ?_, ?_⟩
      · intro e; exact absurd (h3.symm.trans e) (by decide)
      · intro _
        exact ⟨by simpa using h7, by simpa using h6⟩
    · intro hd; exact absurd (hd.symm.trans h4) (by decide)
  · rename_i k c hc
    rw [hc] at hpc
    obtain ⟨h1, h2, h3, h4, h5, h6, h7⟩ := hpc
    split at h
    · cases h
    · rename_i u q hq
      cases h
      rw [hq] at h5 h7
      refine inv_take P hi hq ⟨folded_take P h1 u, h2, h3, h4, ?_, ?_, ?_⟩ (by rw [hc]; rfl)
      · simpa using h5
      · simp only [Cur.take, List.length_append, List.length_singleton]; omega
      · simpa [Cur.take] using h7

theorem inv_quit {s s' : State U R} (hi : Inv P s) (h : quit P s = some s') : Inv P s' := by
  have hpc := hi.pc
  unfold quit at h
  split at h
  · rename_i c hc
    rw [hc] at hpc
    obtain ⟨h1, h2, h3, h4⟩ := hpc
    split at h
    · cases h
    · rename_i hd
      have hd : P.hasData c.initial c.r = false := by simpa using hd
      have hd0 : P.hasData c.initial c.r0 = false := by
        rcases h3 with ⟨_, _, h3⟩ | ⟨_, _, h3⟩
        · exact h3
        · rw [← h3]; exact hd
      cases h
      refine inv_finish P hi ⟨h1, ?_, ?_⟩ (by rw [hc]; rfl)
      · intro e; exact absurd (hd0.symm.trans e) (by decide)
      · intro _; exact ⟨hd, nofun, h2⟩
  · cases h

theorem inv_step {s s' : State U R} (hi : Inv P s) {a : Act U R} (h : step P s a = some s') : Inv P s' := by
  cases a with
  | offer u => exact inv_offer P hi h
  | deliver p => exact inv_deliver P hi h
  | giveUp p => exact inv_giveUp P hi h
  | begin i r => exact inv_begin P hi h
  | go => exact inv_go P hi h
  | quit => exact inv_quit P hi h

theorem inv_run {s s' : State U R} (hi : Inv P s) {as : List (Act U R)} (h : run P s as = some s') : Inv P s' := by
  induction as generalizing s with
  | nil => cases h; exact hi
  | cons a as ih =>
    unfold run at h
    rw [Option.bind_eq_some_iff] at h
    obtain ⟨s1, h1, h2⟩ := h
    exact ih (inv_step P hi h1) h2

/-! ### Theorems -/

/-- C82: after any interleaving of updates, requests, time-outs and cancellations, the updates of each producer are, in
order, those processed for the responses so far, those queued and the one being offered: each is used for one response.  If
an update was dropped, the connection is dead, and what it took of the updates of each producer is a beginning of them.  The
buffer never holds more than it may. -/
theorem C82_order (as : List (Act U R)) (s : State U R) (h : run P {} as = some s) :
    (s.full = false → ∀ p, on P p (s.processed ++ s.queue) ++ (s.waiting p).toList = on P p s.offered) ∧
    (∀ p, on P p (s.processed ++ s.queue) ++ (s.waiting p).toList <+: on P p s.offered) ∧ s.queue.length ≤ P.cap := by
  have hi := inv_run P (inv_init P) h
  refine ⟨hi.alive, ?_, hi.cap⟩
  cases hf : s.full with
  | false => intro p; rw [hi.alive hf p]; exact List.prefix_refl _
  | true => exact (hi.dead hf).1

/-- C82: with one producer, the updates processed and queued are the updates of the connection, or a beginning of them if
the connection is dead. -/
theorem C82_single (hone : ∀ u, P.src u = 0) (as : List (Act U R)) (s : State U R) (h : run P {} as = some s) :
    (s.full = false → s.processed ++ s.queue ++ (s.waiting 0).toList = s.offered) ∧ s.processed ++ s.queue <+: s.offered := by
  have hon : ∀ l : List U, on P 0 l = l := by intro l; simp [on, hone]
  obtain ⟨h1, h2, _⟩ := C82_order P as s h
  constructor
  · intro hf
    have := h1 hf 0
    rwa [hon, hon] at this
  · have := h2 0
    rw [hon, hon] at this
    exact (List.prefix_append _ _).trans this

/-- C82: an update is dropped only if the connection dies: an update that is neither processed, queued nor being offered
means that the connection is dead. -/
theorem C82_dropped (as : List (Act U R)) (s : State U R) (h : run P {} as = some s) (u : U) (hu : u ∈ s.offered)
    (h1 : u ∉ s.processed) (h2 : u ∉ s.queue) (h3 : ∀ p, s.waiting p ≠ some u) : s.full = true := by
  cases hf : s.full with
  | true => rfl
  | false =>
    exfalso
    have ha := (C82_order P as s h).1 hf (P.src u)
    have : u ∈ on P (P.src u) s.offered := by simp [on, hu]
    rw [← ha] at this
    rcases List.mem_append.1 this with h4 | h4
    · have := (List.mem_filter.1 h4).1
      rcases List.mem_append.1 this with h5 | h5
      · exact h1 h5
      · exact h2 h5
    · exact h3 _ (by simpa using h4)

/-- C82: every response is as required by `Answer`. -/
theorem C82_answer (as : List (Act U R)) (s : State U R) (h : run P {} as = some s) : ∀ d ∈ s.done, Answer P d :=
  (inv_run P (inv_init P) h).done

/-- C82: a client that keeps changing its request does not starve: a request that is not the first, does not time out and
finds updates in the queue processes some. -/
theorem C82_no_starvation (as : List (Act U R)) (s : State U R) (h : run P {} as = some s) (d : Done U R) (hd : d ∈ s.done)
    (hi : d.c.initial = false) (hq : d.quit = false) (hu : d.c.queued ≠ []) : d.c.took ≠ [] := by
  have ha := C82_answer P as s h d hd
  cases h0 : P.hasData d.c.initial d.c.r0 with
  | false => exact (ha.nodata h0).2.1 hq
  | true =>
    have := ((ha.data h0).2.2 hi).1
    intro e
    rw [e] at this
    exact hu (List.prefix_nil.1 this)

/-- Work left for the request. -/
def work (s : State U R) : Nat :=
  match s.pc with
  | .idle => 0
  | .loop _ => 3 * s.queue.length + 3
  | .inner _ => 3 * s.queue.length + 4
  | .after _ => 3 * s.queue.length + 2
  | .catchup k _ => k + 1

/-- C82: a request is never blocked except at the `select`, where it can time out: in every reachable state with a request
there is a next step, and each step of the request leaves less work, so it is answered after at most `3 n + 3` steps if no
more updates arrive than the `n` queued. -/
theorem C82_answered (as : List (Act U R)) (s : State U R) (h : run P {} as = some s) :
    (∀ s', go P s = some s' ∨ quit P s = some s' → work s' < work s) ∧
    (s.pc ≠ .idle → (go P s).isSome = true ∨ ((quit P s).isSome = true ∧ s.queue = [])) := by
  have hi := inv_run P (inv_init P) h
  have hpc := hi.pc
  constructor
  · intro s' hs
    rcases hs with hs | hs
    · unfold go at hs
      split at hs
      · cases hs
      · rename_i c hc
        split at hs
        · cases hs; simp [work, hc]
        · split at hs
          · cases hs
          · rename_i u q hq
            cases hs; simp [work, hc, hq]; omega
      · rename_i c hc
        split at hs
        · cases hs; simp [work, hc]
        · rename_i u q hq
          split at hs
          · cases hs; simp [work, hc, hq]
          · cases hs; simp [work, hc]
      · rename_i c hc
        split at hs
        · cases hs
          simp only [work, hc]; omega
        · cases hs; simp [work, hc, finish]
      · rename_i c hc
        cases hs; simp [work, hc, finish]
      · rename_i k c hc
        split at hs
        · cases hs
        · cases hs; simp [work, hc]
    · unfold quit at hs
      split at hs
      · rename_i c hc
        split at hs
        · cases hs
        · cases hs; simp [work, hc, finish]
      · cases hs
  · intro hne
    cases hc : s.pc with
    | idle => exact absurd hc hne
    | loop c =>
      by_cases hd : P.hasData c.initial c.r
      · left; simp [go, hc, hd]
      · cases hq : s.queue with
        | nil => right; simp [quit, hc, hd]
        | cons u q => left; simp [go, hc, hd, hq]
    | inner c =>
      left
      cases hq : s.queue with
      | nil => simp [go, hc, hq]
      | cons u q =>
        by_cases hl : c.took.length < 100 <;> simp [go, hc, hq, hl]
    | after c =>
      left
      simp only [go, hc]
      split <;> rfl
    | catchup k c =>
      left
      cases k with
      | zero => simp [go, hc]
      | succ k =>
        rw [hc] at hpc
        obtain ⟨_, _, _, _, h5, _⟩ := hpc
        cases hq : s.queue with
        | nil => rw [hq] at h5; exact absurd h5 (by simp)
        | cons u q => simp [go, hc, hq]

/-- Once the connection is dead it stays dead and answers at most the request it is working on. -/
theorem dead_step {s s' : State U R} {a : Act U R} (hf : s.full = true) (h : step P s a = some s') :
    s'.full = true ∧ s'.done.length + (match s'.pc with | .idle => 0 | _ => 1) ≤ s.done.length + (match s.pc with | .idle => 0 | _ => 1) := by
  cases a with
  | offer u =>
    simp only [step, offer] at h
    split at h
    · cases h
    · rw [if_pos hf] at h; cases h; exact ⟨hf, Nat.le_refl _⟩
  | deliver p =>
    simp only [step, deliver] at h
    split at h
    · cases h
    · split at h
      · cases h; exact ⟨hf, Nat.le_refl _⟩
      · cases h
  | giveUp p =>
    simp only [step, giveUp] at h
    split at h
    · cases h
    · cases h; exact ⟨rfl, Nat.le_refl _⟩
  | begin i r =>
    simp only [step, «begin»] at h
    split at h
    · rw [if_pos hf] at h; cases h
    · cases h
  | go =>
    simp only [step, go] at h
    split at h
    · cases h
    all_goals
      rename_i hc
      rw [hc]
      repeat' split at h
      all_goals (cases h <;> simp [hf, finish])
  | quit =>
    simp only [step, quit] at h
    split at h
    · rename_i hc
      rw [hc]
      split at h
      · cases h
      · cases h; simp [hf, finish]
    · cases h

/-- C82: after an update was dropped the connection answers at most one more request, the one in flight: no client continues
on a connection that has a hole. -/
theorem C82_dead (s s' : State U R) (hf : s.full = true) (as : List (Act U R)) (h : run P s as = some s') :
    s'.full = true ∧ s'.done.length ≤ s.done.length + 1 := by
  have key : s'.full = true ∧ s'.done.length + (match s'.pc with | .idle => 0 | _ => 1) ≤
      s.done.length + (match s.pc with | .idle => 0 | _ => 1) := by
    induction as generalizing s with
    | nil => cases h; exact ⟨hf, Nat.le_refl _⟩
    | cons a as ih =>
      unfold run at h
      rw [Option.bind_eq_some_iff] at h
      obtain ⟨s1, h1, h2⟩ := h
      obtain ⟨h3, h4⟩ := dead_step P hf h1
      obtain ⟨h5, h6⟩ := ih s1 h3 h2
      exact ⟨h5, Nat.le_trans h6 h4⟩
  refine ⟨key.1, ?_⟩
  have := key.2
  have hle : (match s.pc with | .idle => 0 | _ => 1) ≤ 1 := by split <;> omega
  omega

/-! ### Examples -/

/-- Updates are numbers, the response is their sum, data is a positive sum; even and odd numbers have different producers. -/
def sums : Prog Nat Nat := ⟨(· + ·), fun _ r => decide (0 < r), 2, (· % 2)⟩

/-- A request that waits and is answered by an update, one that catches up, and an update that is dropped while another
producer is waiting. -/
def acts : List (Act Nat Nat) :=
  [.begin true 0, .offer 0, .go, .offer 5, .go, .go, .go, .go, .offer 1, .offer 2, .begin false 7, .go, .go, .go, .go, .go,
   .offer 3, .begin false 0, .offer 4, .offer 6, .offer 7, .giveUp 0, .go, .deliver 1, .go, .go, .go, .go, .go, .offer 8]

example : (run sums {} acts).map (fun s => (s.done.map fun d => (d.c.took, d.c.r, d.quit), s.queue, s.offered, s.full)) =
    some ([([0, 5], 5, false), ([1, 2], 10, false), ([3, 4, 7], 14, false)], [], [0, 5, 1, 2, 3, 4, 6, 7, 8], true) := by
  decide +kernel

/-- C82 is violated across producers: while the buffer is full two producers wait (the listener and a timer that releases an
event held back for its transaction ID).  One gives up and its update is dropped; the other one's is queued afterwards, and
the request in flight processes it.  That last response of the connection has a hole. -/
theorem C82_violated_hole : ∃ (as : List (Act Nat Nat)) (s : State Nat Nat) (u v : Nat) (a b : List Nat),
    run sums {} as = some s ∧ s.offered = a ++ u :: v :: b ∧ u ∉ s.processed ++ s.queue ∧ (∀ p, s.waiting p ≠ some u) ∧
    ∃ d ∈ s.done, v ∈ d.c.took := by
  refine ⟨[.begin false 0, .offer 3, .offer 4, .offer 6, .offer 7, .giveUp 0, .go, .deliver 1, .go, .go, .go, .go, .go],
    { offered := [3, 4, 6, 7], full := true, waiting := setAt (setAt (setAt (setAt (fun _ => none) 0 (some 6)) 1 (some 7)) 0 none) 1 none,
      done := [⟨⟨false, true, 0, [], [3, 4, 7], 14⟩, false⟩] }, 6, 7, [3, 4], [], rfl, rfl, ?_, ?_, ?_⟩
  · simp [State.processed, Pc.took]
  · intro p
    simp only [setAt]
    by_cases h1 : p = 1
    · rw [if_pos h1]; simp
    · by_cases h0 : p = 0
      · rw [if_neg h1, if_pos h0]; simp
      · rw [if_neg h1, if_neg h0, if_neg h1, if_neg h0]; simp
  · exact ⟨_, List.mem_singleton.2 rfl, by simp⟩

end Verif.LiveLoop
