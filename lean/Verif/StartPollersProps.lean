import Verif.StartPollers
/-!
# C75: at start-up every device is tried, and told about, once
-/
namespace Verif.StartPollers

/-! ## Specification -/

/-- All workers are done. -/
def Finished (s : State) : Prop := s.queue = [] ∧ ∀ p ∈ s.workers, p = .idle

/-- The tokens that can be used. -/
def usable (tokens : List Token) : List Token := tokens.filter fun t => decide (t.access ≠ "")

/-! ## Lemmas -/

def held : Phase → List Token
  | .idle => []
  | .calling t | .wrote t | .checked t => [t]

def inflight (ws : List Phase) : List Token := ws.flatMap held

theorem inflight_set (ws : List Phase) : ∀ (w : Nat) (p q : Phase), ws[w]? = some p →
    (held p ++ inflight (ws.set w q)).Perm (held q ++ inflight ws) := by
  induction ws with
  | nil => intro w p q h; simp at h
  | cons x ws ih =>
    intro w p q h
    cases w with
    | zero =>
      simp only [List.getElem?_cons_zero, Option.some.injEq] at h
      subst h
      simp only [List.set_cons_zero, inflight, List.flatMap_cons]
      rw [← List.append_assoc, ← List.append_assoc]
      exact List.Perm.append_right _ List.perm_append_comm
    | succ w =>
      simp only [List.getElem?_cons_succ] at h
      simp only [List.set_cons_succ, inflight, List.flatMap_cons]
      have h1 : (held p ++ (held x ++ inflight (ws.set w q))).Perm (held x ++ (held p ++ inflight (ws.set w q))) := by
        rw [← List.append_assoc, ← List.append_assoc]; exact List.Perm.append_right _ List.perm_append_comm
      have h2 : (held x ++ (held q ++ inflight ws)).Perm (held q ++ (held x ++ inflight ws)) := by
        rw [← List.append_assoc, ← List.append_assoc]; exact List.Perm.append_right _ List.perm_append_comm
      exact h1.trans ((List.Perm.append_left _ (ih w p q h)).trans h2)

/-- Every token is in one place. -/
def All (s : State) : List Token := s.queue ++ (inflight s.workers ++ s.sent.map (·.1))

theorem step_all {s s' : State} {a : Act} (h : step s a = some s') : (All s').Perm (All s) := by
  unfold All
  cases a with
  | take w =>
    simp only [step] at h
    split at h
    · rename_i t q hw hq
      simp only [Option.some.injEq] at h
      subst h
      have := inflight_set s.workers w .idle (.calling t) hw
      simp only [held, List.nil_append] at this
      rw [hq]
      refine (List.Perm.append_left q (List.Perm.append_right _ this)).trans ?_
      simp only [List.cons_append, List.nil_append]
      exact List.perm_middle
    · cases h
  | finish w ok =>
    simp only [step] at h
    split at h
    · rename_i t hw
      simp only [Option.some.injEq] at h
      subst h
      have := inflight_set s.workers w (.calling t) (.wrote t) hw
      simp only [held] at this
      exact List.Perm.append_left _ (List.Perm.append_right _ ((List.perm_append_left_iff _).1 this))
    · cases h
  | check w =>
    simp only [step] at h
    split at h
    · rename_i t hw
      simp only [Option.some.injEq] at h
      subst h
      have := inflight_set s.workers w (.wrote t) (.checked t) hw
      simp only [held] at this
      exact List.Perm.append_left _ (List.Perm.append_right _ ((List.perm_append_left_iff _).1 this))
    · cases h
  | notify w =>
    simp only [step] at h
    split at h
    · rename_i t hw
      simp only [Option.some.injEq] at h
      subst h
      have := inflight_set s.workers w (.checked t) .idle hw
      simp only [held, List.nil_append] at this
      refine List.Perm.append_left _ ?_
      show (inflight (s.workers.set w .idle) ++ (s.sent ++ [(t, !s.failed)]).map (·.1)).Perm _
      rw [List.map_append]
      refine List.Perm.trans ?_ (List.Perm.append_right _ this)
      simp only [List.map_cons, List.map_nil, List.cons_append, List.nil_append]
      rw [← List.append_assoc]
      exact List.perm_append_comm
    · cases h

theorem run_append (a b : List Act) : ∀ s, run s (a ++ b) = (run s a).bind fun s' => run s' b := by
  induction a with
  | nil => intro s; rfl
  | cons x a ih =>
    intro s
    simp only [List.cons_append, run]
    cases step s x with
    | none => rfl
    | some s' => exact ih s'

theorem run_inv {P : State → Prop} (hs : ∀ s a s', P s → step s a = some s' → P s') (acts : List Act) : ∀ s s', P s → run s acts = some s' → P s' := by
  induction acts with
  | nil => intro s s' hp h; simp only [run, Option.some.injEq] at h; subst h; exact hp
  | cons a l ih =>
    intro s s' hp h
    simp only [run] at h
    cases h1 : step s a with
    | none => rw [h1] at h; cases h
    | some s1 => rw [h1] at h; exact ih s1 s' (hs s a s1 hp h1) h

theorem start_all (tokens : List Token) (n : Nat) : All (start tokens n) = usable tokens := by
  have : ∀ n, inflight (List.replicate n .idle) = [] := by
    intro n
    induction n with
    | zero => rfl
    | succ n ih => rw [List.replicate_succ]; unfold inflight at ih ⊢; rw [List.flatMap_cons, ih]; rfl
  simp [All, start, this, usable]

theorem run_all {acts : List Act} {s s' : State} (h : run s acts = some s') : (All s').Perm (All s) :=
  run_inv (P := fun x => (All x).Perm (All s)) (fun _ _ _ hp h => (step_all h).trans hp) acts s s' (List.Perm.refl _) h

/-! ## C75 -/

/-- In every interleaving of any number of workers, when they are done each usable token has been notified exactly as often as it
occurs, and no other. -/
theorem C75_each_once (tokens : List Token) (n : Nat) (acts : List Act) (s : State) (h : run (start tokens n) acts = some s) (hf : Finished s) :
    (s.sent.map (·.1)).Perm (usable tokens) := by
  have := run_all h
  rw [start_all] at this
  have hi : inflight s.workers = [] := by
    unfold inflight
    rw [List.flatMap_eq_nil_iff]
    intro p hp
    rw [hf.2 p hp]; rfl
  unfold All at this
  rw [hf.1, hi] at this
  simpa using this

def cost : Phase → Nat
  | .idle => 0
  | .calling _ => 3
  | .wrote _ => 2
  | .checked _ => 1

def left (s : State) : Nat := 4 * s.queue.length + (s.workers.map cost).sum

theorem cost_set (ws : List Phase) : ∀ (w : Nat) (p q : Phase), ws[w]? = some p →
    cost p + ((ws.set w q).map cost).sum = cost q + (ws.map cost).sum := by
  induction ws with
  | nil => intro w p q h; simp at h
  | cons x ws ih =>
    intro w p q h
    cases w with
    | zero =>
      simp only [List.getElem?_cons_zero, Option.some.injEq] at h
      subst h
      simp only [List.set_cons_zero, List.map_cons, List.sum_cons]
      omega
    | succ w =>
      simp only [List.getElem?_cons_succ] at h
      have := ih w p q h
      simp only [List.set_cons_succ, List.map_cons, List.sum_cons]
      omega

theorem step_left {s s' : State} {a : Act} (h : step s a = some s') : left s' + 1 = left s := by
  unfold left
  cases a with
  | take w =>
    simp only [step] at h
    split at h
    · rename_i t q hw hq
      simp only [Option.some.injEq] at h
      subst h
      have := cost_set s.workers w .idle (.calling t) hw
      simp only [cost] at this
      rw [hq]
      simp only [List.length_cons]
      omega
    · cases h
  | finish w ok =>
    simp only [step] at h
    split at h
    · rename_i t hw
      simp only [Option.some.injEq] at h
      subst h
      have := cost_set s.workers w (.calling t) (.wrote t) hw
      simp only [cost] at this
      dsimp only
      omega
    · cases h
  | check w =>
    simp only [step] at h
    split at h
    · rename_i t hw
      simp only [Option.some.injEq] at h
      subst h
      have := cost_set s.workers w (.wrote t) (.checked t) hw
      simp only [cost] at this
      dsimp only
      omega
    · cases h
  | notify w =>
    simp only [step] at h
    split at h
    · rename_i t hw
      simp only [Option.some.injEq] at h
      subst h
      have := cost_set s.workers w (.checked t) .idle hw
      simp only [cost] at this
      dsimp only
      omega
    · cases h

theorem run_left {acts : List Act} : ∀ {s s' : State}, run s acts = some s' → left s' + acts.length = left s := by
  induction acts with
  | nil => intro s s' h; simp only [run, Option.some.injEq] at h; subst h; rfl
  | cons a l ih =>
    intro s s' h
    simp only [run] at h
    cases h1 : step s a with
    | none => rw [h1] at h; cases h
    | some s1 =>
      rw [h1] at h
      have := ih h
      have := step_left h1
      simp only [List.length_cons]
      omega

theorem step_workers {s s' : State} {a : Act} (h : step s a = some s') : s'.workers.length = s.workers.length := by
  cases a <;> simp only [step] at h <;> split at h <;> first | (simp only [Option.some.injEq] at h; subst h; exact List.length_set) | cases h

/-- The workers always finish: no interleaving gets stuck, as long as calls return, and all take four steps per token. -/
theorem C75_finishes (tokens : List Token) (n : Nat) (hn : 0 < n) (acts : List Act) (s : State) (h : run (start tokens n) acts = some s) :
    (Finished s ∨ ∀ ok, ∃ w, step s (.take w) ≠ none ∨ step s (.finish w ok) ≠ none ∨ step s (.check w) ≠ none ∨ step s (.notify w) ≠ none) ∧
    acts.length ≤ 4 * (usable tokens).length ∧ (Finished s ↔ acts.length = 4 * (usable tokens).length) := by
  have hl := run_left h
  have hst : left (start tokens n) = 4 * (usable tokens).length := by
    unfold left start usable
    simp [cost]
  rw [hst] at hl
  have hw : s.workers.length = n := by
    refine run_inv (P := fun s => s.workers.length = n) (fun _ _ _ hp h => (step_workers h).trans hp) acts _ s ?_ h
    simp [start]
  refine ⟨?_, by omega, ?_⟩
  · by_cases hall : ∀ p ∈ s.workers, p = .idle
    · by_cases hq : s.queue = []
      · exact Or.inl ⟨hq, hall⟩
      · right
        intro ok
        refine ⟨0, Or.inl ?_⟩
        obtain ⟨t, q, hq⟩ := List.exists_cons_of_ne_nil hq
        have h0 : s.workers[0]? = some .idle := by
          rw [List.getElem?_eq_getElem (by omega)]
          exact congrArg some (hall _ (List.getElem_mem _))
        simp [step, h0, hq]
    · right
      intro ok
      obtain ⟨p, hp, hne⟩ : ∃ p ∈ s.workers, p ≠ .idle := Classical.byContradiction fun hc =>
        hall fun p hp => Classical.byContradiction fun hne => hc ⟨p, hp, hne⟩
      obtain ⟨w, hw, rfl⟩ := List.getElem_of_mem hp
      refine ⟨w, Or.inr ?_⟩
      have hg : s.workers[w]? = some s.workers[w] := List.getElem?_eq_getElem hw
      generalize s.workers[w] = p at hg hne
      cases p with
      | idle => exact absurd rfl hne
      | calling t => exact Or.inl (by simp [step, hg])
      | wrote t => exact Or.inr (Or.inl (by simp [step, hg]))
      | checked t => exact Or.inr (Or.inr (by simp [step, hg]))
  · have hz : Finished s ↔ left s = 0 := by
      constructor
      · rintro ⟨h1, h2⟩
        unfold left
        rw [h1]
        have : ∀ l : List Phase, (∀ p ∈ l, p = .idle) → (l.map cost).sum = 0 := by
          intro l
          induction l with
          | nil => intro _; rfl
          | cons x l ih =>
            intro hl
            rw [List.map_cons, List.sum_cons, hl x List.mem_cons_self, ih fun p hp => hl p (List.mem_cons_of_mem _ hp)]; rfl
        rw [this _ h2]; rfl
      · intro hz
        unfold left at hz
        refine ⟨List.length_eq_zero_iff.1 (by omega), fun p hp => ?_⟩
        have : ∀ (l : List Phase), (l.map cost).sum = 0 → ∀ p ∈ l, p = .idle := by
          intro l
          induction l with
          | nil => simp
          | cons x l ih =>
            intro h p hp
            simp only [List.map_cons, List.sum_cons] at h
            rcases List.mem_cons.1 hp with hp | hp
            · subst hp
              cases p <;> simp only [cost] at h <;> first | rfl | omega
            · exact ih (by omega) p hp
        exact this _ (by omega) p hp
    rw [hz]; omega

/-- A notification says whether the poller started, if no other call returns between the return of its call and the notification.
Missing: otherwise it says whether the last poller to return started (`C75_violated`). -/
theorem C75_success_partial (s s1 s2 s3 : State) (w : Nat) (ok : Bool) (t : Token) (b : List Act) (hw : s.workers[w]? = some (.calling t))
    (h1 : step s (.finish w ok) = some s1) (h2 : run s1 b = some s2) (hb : ∀ w' ok', Act.finish w' ok' ∉ b)
    (h3 : step s2 (.notify w) = some s3) : s3.sent = s2.sent ++ [(t, ok)] := by
  have hlt : w < s.workers.length := by
    rcases Nat.lt_or_ge w s.workers.length with h | h
    · exact h
    · rw [List.getElem?_eq_none h] at hw; cases hw
  have hinit : s1.failed = !ok ∧ s1.workers[w]? = some (.wrote t) := by
    simp only [step, hw, Option.some.injEq] at h1
    subst h1
    exact ⟨rfl, by simp [hlt]⟩
  have key : ∀ (b : List Act) (x y : State), (∀ w' ok', Act.finish w' ok' ∉ b) → x.failed = !ok →
      (x.workers[w]? = some (.wrote t) ∨ x.workers[w]? = some (.checked t) ∨ x.workers[w]? = some .idle ∨ ∃ t', x.workers[w]? = some (.calling t')) →
      run x b = some y → y.failed = !ok ∧
      (y.workers[w]? = some (.wrote t) ∨ y.workers[w]? = some (.checked t) ∨ y.workers[w]? = some .idle ∨ ∃ t', y.workers[w]? = some (.calling t')) := by
    intro b
    induction b with
    | nil => intro x y _ h1 h2 h; simp only [run, Option.some.injEq] at h; subst h; exact ⟨h1, h2⟩
    | cons a b ih =>
      intro x y hb hx hp h
      simp only [run] at h
      cases ha : step x a with
      | none => rw [ha] at h; cases h
      | some x1 =>
        rw [ha] at h
        refine ih x1 y (fun w' ok' hm => hb w' ok' (List.mem_cons_of_mem _ hm)) ?_ ?_ h
        · cases a with
          | finish w' ok' => exact absurd (List.mem_cons_self) (hb w' ok')
          | take w' =>
            simp only [step] at ha
            split at ha
            · simp only [Option.some.injEq] at ha; subst ha; exact hx
            · cases ha
          | check w' =>
            simp only [step] at ha
            split at ha
            · simp only [Option.some.injEq] at ha; subst ha; exact hx
            · cases ha
          | notify w' =>
            simp only [step] at ha
            split at ha
            · simp only [Option.some.injEq] at ha; subst ha; exact hx
            · cases ha
        · cases a with
          | finish w' ok' => exact absurd (List.mem_cons_self) (hb w' ok')
          | take w' =>
            simp only [step] at ha
            split at ha
            · rename_i t1 q hw1 _
              simp only [Option.some.injEq] at ha
              subst ha
              dsimp only
              rw [List.getElem?_set]
              split
              · rename_i hww
                subst hww
                split
                · exact Or.inr (Or.inr (Or.inr ⟨t1, rfl⟩))
                · rename_i hl; rw [List.getElem?_eq_none (by omega)] at hw1; cases hw1
              · exact hp
            · cases ha
          | check w' =>
            simp only [step] at ha
            split at ha
            · rename_i t1 hw1
              simp only [Option.some.injEq] at ha
              subst ha
              dsimp only
              rw [List.getElem?_set]
              split
              · rename_i hww
                subst hww
                split
                · right; left
                  rw [hw1] at hp
                  simpa using hp
                · rename_i hl; rw [List.getElem?_eq_none (by omega)] at hw1; cases hw1
              · exact hp
            · cases ha
          | notify w' =>
            simp only [step] at ha
            split at ha
            · rename_i t1 hw1
              simp only [Option.some.injEq] at ha
              subst ha
              dsimp only
              rw [List.getElem?_set]
              split
              · rename_i hww
                subst hww
                split
                · exact Or.inr (Or.inr (Or.inl rfl))
                · rename_i hl; rw [List.getElem?_eq_none (by omega)] at hw1; cases hw1
              · exact hp
            · cases ha
  obtain ⟨hf, hp⟩ := key b s1 s2 hb hinit.1 (Or.inl hinit.2) h2
  simp only [step] at h3
  split at h3
  · rename_i t1 hw1
    simp only [Option.some.injEq] at h3
    rw [hw1] at hp
    have : t1 = t := by simpa using hp
    rw [← h3, hf, this]
    simp
  · cases h3

/-- If all calls so far ended alike, so do all notifications say. -/
theorem C75_alike (tokens : List Token) (n : Nat) (acts : List Act) (s : State) (ok : Bool) (h : run (start tokens n) acts = some s)
    (ha : ∀ w ok', Act.finish w ok' ∈ acts → ok' = ok) : ∀ p ∈ s.sent, p.2 = ok := by
  have key : ∀ (acts : List Act) (x y : State), (∀ w ok', Act.finish w ok' ∈ acts → ok' = ok) → (∀ p ∈ x.sent, p.2 = ok) →
      (x.failed = !ok ∨ ∀ p ∈ x.workers, ∀ t, p ≠ .wrote t ∧ p ≠ .checked t) → run x acts = some y → ∀ p ∈ y.sent, p.2 = ok := by
    intro acts
    induction acts with
    | nil => intro x y _ h1 _ h; simp only [run, Option.some.injEq] at h; subst h; exact h1
    | cons a b ih =>
      intro x y hall hx hp h
      simp only [run] at h
      cases hstep : step x a with
      | none => rw [hstep] at h; cases h
      | some x1 =>
        rw [hstep] at h
        have hb : ∀ w ok', Act.finish w ok' ∈ b → ok' = ok := fun w ok' hm => hall w ok' (List.mem_cons_of_mem _ hm)
        cases a with
        | take w =>
          simp only [step] at hstep
          split at hstep
          · rename_i t q hw _
            simp only [Option.some.injEq] at hstep
            refine ih x1 y hb (by rw [← hstep]; exact hx) ?_ h
            rw [← hstep]
            rcases hp with hp | hp
            · exact Or.inl hp
            · right
              intro p hpm t'
              rcases List.mem_or_eq_of_mem_set hpm with hpm | hpm
              · exact hp p hpm t'
              · rw [hpm]; simp
          · cases hstep
        | finish w ok' =>
          have := hall w ok' (List.mem_cons_self)
          subst this
          simp only [step] at hstep
          split at hstep
          · simp only [Option.some.injEq] at hstep
            exact ih x1 y hb (by rw [← hstep]; exact hx) (Or.inl (by rw [← hstep])) h
          · cases hstep
        | check w =>
          simp only [step] at hstep
          split at hstep
          · rename_i t hw
            simp only [Option.some.injEq] at hstep
            refine ih x1 y hb (by rw [← hstep]; exact hx) ?_ h
            rw [← hstep]
            rcases hp with hp | hp
            · exact Or.inl hp
            · exact absurd rfl (hp _ (List.mem_of_getElem? hw) t).1
          · cases hstep
        | notify w =>
          simp only [step] at hstep
          split at hstep
          · rename_i t hw
            simp only [Option.some.injEq] at hstep
            have hfl : x.failed = !ok := by
              rcases hp with hp | hp
              · exact hp
              · exact absurd rfl (hp _ (List.mem_of_getElem? hw) t).2
            refine ih x1 y hb ?_ (Or.inl (by rw [← hstep]; exact hfl)) h
            rw [← hstep]
            intro p hpm
            rcases List.mem_append.1 hpm with hpm | hpm
            · exact hx p hpm
            · rw [List.mem_singleton.1 hpm, hfl]; simp
          · cases hstep
  refine key acts _ s ha (by simp [start]) (Or.inr ?_) h
  intro p hp t
  simp only [start, List.mem_replicate] at hp
  rw [hp.2]
  simp

/-! ## Examples and violations -/

def exA : Token := ⟨"@alice", "A", "good"⟩
def exB : Token := ⟨"@bob", "B", "expired"⟩
def exBad : Token := ⟨"@carol", "C", ""⟩

/-- Non-vacuity: two workers and three tokens, one of which cannot be decrypted. -/
example : ∃ s, run (start [exA, exBad, exB] 2)
      [.take 1, .take 0, .finish 1 true, .check 1, .notify 1, .finish 0 false, .check 0, .notify 0] = some s ∧ Finished s ∧
      s.sent = [(exA, true), (exB, false)] :=
  ⟨_, rfl, ⟨rfl, by decide⟩, rfl⟩

/-- **C75 fails when calls return together**: the workers share `err`, so a poller that started is reported as failed (its clients are
turned away), and one that failed as started. -/
theorem C75_violated :
    (run (start [exA, exB] 2) [.take 0, .take 1, .finish 0 true, .finish 1 false, .check 0, .notify 0, .check 1, .notify 1]).map (·.sent) =
      some [(exA, false), (exB, false)] ∧
    (run (start [exA, exB] 2) [.take 0, .take 1, .finish 1 false, .finish 0 true, .check 0, .notify 0, .check 1, .notify 1]).map (·.sent) =
      some [(exA, true), (exB, true)] := by decide

end Verif.StartPollers
