import Verif.PollerMap
/-! C51 (one live poller per device) and C69 (the poller of a device is running, and alone). -/
namespace Verif.PollerMap

/-! ### Specification -/

/-- Poller number `i` is for the device and not terminated. -/
def Live (s : State) (pid : Pid) (i : Nat) : Prop := ∃ p, s.all[i]? = some p ∧ p.pid = pid ∧ p.terminated = false

/-- The goroutine of poller number `i`, for the device, has not ended. -/
def Running (s : State) (pid : Pid) (i : Nat) : Prop := ∃ p, s.all[i]? = some p ∧ p.pid = pid ∧ p.stopped = false

/-! ### Lemmas -/

theorem lookup_assign (m : List (Pid × Nat)) (pid q : Pid) (i : Nat) :
    lookup (assign m pid i) q = if q = pid then some i else lookup m q := by
  simp only [lookup, assign, List.find?_append]
  by_cases h : q = pid
  · subst h
    rw [if_pos rfl]
    have : (m.filter fun e => decide (e.1 ≠ q)).find? (fun e => decide (e.1 = q)) = none := by
      rw [List.find?_eq_none]
      intro e he
      simpa using (List.mem_filter.1 he).2
    rw [this]; simp
  · rw [if_neg h]
    have h1 : ([(pid, i)] : List (Pid × Nat)).find? (fun e => decide (e.1 = q)) = none := by
      simp [Ne.symm h]
    rw [h1, Option.or_none]
    congr 1
    induction m with
    | nil => rfl
    | cons e m ih =>
      simp only [List.filter_cons]
      by_cases he : e.1 = pid
      · have : ¬ e.1 = q := fun h' => h (h'.symm.trans he)
        simp [he, List.find?_cons] at ih ⊢
        simp [Ne.symm h, ih]
      · simp only [he, ne_eq, not_false_eq_true, decide_true, if_true, List.find?_cons]
        rw [ih]

theorem update_all (s : State) (i : Nat) (f : P → P) (j : Nat) :
    (update s i f).all[j]? = if i = j then (s.all[j]?).map f else s.all[j]? := by
  unfold update
  cases hp : s.all[i]? with
  | none =>
    simp only
    by_cases hij : i = j
    · subst hij; simp [hp]
    · simp [hij]
  | some p =>
    simp only
    rw [List.getElem?_set]
    by_cases hij : i = j
    · subst hij
      have hlt : i < s.all.length := (List.getElem?_eq_some_iff.1 hp).1
      rw [if_pos rfl, if_pos hlt, if_pos rfl, hp]; rfl
    · simp [hij]

theorem update_cur (s : State) (i : Nat) (f : P → P) : (update s i f).cur = s.cur := by
  unfold update; split <;> rfl

theorem run_snoc (ops : List Op) (op : Op) : run (ops ++ [op]) = step (run ops) op := by
  simp only [run, List.foldl_append, List.foldl_cons, List.foldl_nil]

/-- Every poller that is not terminated is the one in the map. -/
def Inv (s : State) : Prop :=
  (∀ i p, s.all[i]? = some p → p.terminated = false → lookup s.cur p.pid = some i) ∧
  (∀ e ∈ s.cur, ∃ p, s.all[e.2]? = some p ∧ p.pid = e.1) ∧
  (∀ e ∈ s.cur, lookup s.cur e.1 = some e.2)

theorem inv_update {s : State} (h : Inv s) (i : Nat) (f : P → P) (h1 : ∀ p, (f p).pid = p.pid)
    (h2 : ∀ p, (f p).terminated = false → p.terminated = false) : Inv (update s i f) := by
  refine ⟨?_, ?_, ?_⟩
  · intro j p hp ht
    rw [update_all] at hp
    rw [update_cur]
    by_cases hij : i = j
    · rw [if_pos hij] at hp
      cases hs : s.all[j]? with
      | none => rw [hs] at hp; cases hp
      | some q =>
        rw [hs] at hp
        simp only [Option.map_some, Option.some.injEq] at hp
        rw [← hp, h1]
        exact h.1 j q hs (h2 q (by rw [hp]; exact ht))
    · rw [if_neg hij] at hp; exact h.1 j p hp ht
  · intro e he
    rw [update_cur] at he
    obtain ⟨p, hp, hpid⟩ := h.2.1 e he
    rw [update_all]
    by_cases hij : i = e.2
    · rw [if_pos hij, hp]; exact ⟨f p, rfl, by rw [h1, hpid]⟩
    · rw [if_neg hij]; exact ⟨p, hp, hpid⟩
  · intro e he
    rw [update_cur] at he ⊢
    exact h.2.2 e he

theorem mem_of_lookup {m : List (Pid × Nat)} {pid : Pid} {i : Nat} (h : lookup m pid = some i) : (pid, i) ∈ m := by
  simp only [lookup] at h
  cases hf : m.find? fun e => decide (e.1 = pid) with
  | none => rw [hf] at h; cases h
  | some e =>
    rw [hf] at h
    have h1 := List.mem_of_find?_eq_some hf
    have h2 : e.1 = pid := by simpa using List.find?_some hf
    simp only [Option.map_some, Option.some.injEq] at h
    rw [← h2, ← h]; exact h1

theorem live_iff {s : State} (h : Inv s) {pid : Pid} {i : Nat} (hl : lookup s.cur pid = some i) :
    live s i = true ↔ Live s pid i := by
  obtain ⟨p, hp, hpid⟩ := h.2.1 _ (mem_of_lookup hl)
  simp only at hp hpid
  simp only [live, hp, Live, Option.some.injEq]
  constructor
  · intro ht; exact ⟨p, rfl, hpid, by simpa using ht⟩
  · rintro ⟨q, rfl, _, ht⟩; simp [ht]

theorem ensure_none {s : State} {pid : Pid} (h : (lookup s.cur pid).filter (live s) = none) (hi : Inv s) (i : Nat) :
    ¬ Live s pid i := by
  rintro ⟨p, hp, hpid, ht⟩
  have hl := hi.1 i p hp ht
  rw [hpid] at hl
  have : live s i = true := (live_iff hi hl).2 ⟨p, hp, hpid, ht⟩
  rw [hl] at h
  simp [Option.filter, this] at h

theorem inv_step {s : State} (h : Inv s) (op : Op) : Inv (step s op) := by
  cases op with
  | terminate i => exact inv_update h i _ (fun _ => rfl) (fun p hp => by cases hp)
  | synced i =>
    refine inv_update h i _ (fun p => ?_) (fun p hp => ?_)
    · split <;> rfl
    · split at hp <;> exact hp
  | stop i =>
    refine inv_update h i _ (fun p => ?_) (fun p hp => ?_)
    · split <;> rfl
    · split at hp <;> exact hp
  | panic i => exact inv_update h i _ (fun _ => rfl) (fun p hp => hp)
  | ensure pid b =>
    simp only [step, ensure]
    cases hc : (lookup s.cur pid).filter (live s) with
    | some i => exact h
    | none =>
      have hno := ensure_none hc h
      simp only
      refine ⟨?_, ?_, ?_⟩
      · intro i p hp ht
        rw [lookup_assign]
        rw [List.getElem?_append] at hp
        by_cases hi : i < s.all.length
        · rw [if_pos hi] at hp
          have hne : p.pid ≠ pid := fun he => hno i ⟨p, hp, he, ht⟩
          rw [if_neg hne]; exact h.1 i p hp ht
        · rw [if_neg hi] at hp
          have h0 : i - s.all.length = 0 := by
            rcases Nat.eq_zero_or_pos (i - s.all.length) with h0 | h0
            · exact h0
            · rw [List.getElem?_eq_none (by simp; omega)] at hp; cases hp
          rw [h0] at hp
          simp only [List.getElem?_cons_zero, Option.some.injEq] at hp
          rw [← hp, if_pos rfl]
          congr 1; omega
      · intro e he
        simp only [assign, List.mem_append, List.mem_filter, List.mem_singleton] at he
        rcases he with ⟨he, _⟩ | he
        · obtain ⟨p, hp, hpid⟩ := h.2.1 e he
          refine ⟨p, ?_, hpid⟩
          rw [List.getElem?_append_left (List.getElem?_eq_some_iff.1 hp).1]; exact hp
        · rw [he]; exact ⟨_, by simp; rfl, rfl⟩
      · intro e he
        rw [lookup_assign]
        simp only [assign, List.mem_append, List.mem_filter, List.mem_singleton, decide_eq_true_eq] at he
        rcases he with ⟨he, hne⟩ | he
        · rw [if_neg hne]; exact h.2.2 e he
        · rw [he, if_pos rfl]

theorem inv_run (ops : List Op) : Inv (run ops) := by
  induction ops using Verif.Util.snocRec with
  | nil => refine ⟨?_, ?_, ?_⟩ <;> simp [run]
  | append_singleton ops op ih => rw [run_snoc]; exact inv_step ih op

/-! ### C51 -/

/-- At any time at most one poller of a device is not terminated. -/
theorem C51_one_live (ops : List Op) (pid : Pid) (i j : Nat) (hi : Live (run ops) pid i) (hj : Live (run ops) pid j) :
    i = j := by
  obtain ⟨p, hp, hpp, ht⟩ := hi
  obtain ⟨q, hq, hqp, hu⟩ := hj
  have h1 := (inv_run ops).1 i p hp ht
  have h2 := (inv_run ops).1 j q hq hu
  rw [hpp] at h1
  rw [hqp, h1] at h2
  exact Option.some.inj h2

/-- A request for a device: if it has a poller that is not terminated, that one is used and no poller is made; if not, exactly
one is made, for this device and live, and the caller waits for its first sync exactly if no other device of the
user has a poller that is not terminated. -/
theorem C51_ensure (ops : List Op) (pid : Pid) (b : Bool) :
    (∀ i, Live (run ops) pid i → ensure (run ops) pid b = (run ops, .existing i)) ∧
    ((∀ i, ¬ Live (run ops) pid i) → ∃ wait, (ensure (run ops) pid b).2 = .created (run ops).all.length wait ∧
      (∃ p, (ensure (run ops) pid b).1.all = (run ops).all ++ [p] ∧ p.pid = pid ∧ p.terminated = false ∧ p.stopped = false ∧
        p.toDeviceOnly = (!wait && !b)) ∧
      (wait = false ↔ ∃ d i, d ≠ pid.2 ∧ Live (run ops) (pid.1, d) i)) := by
  have hinv := inv_run ops
  constructor
  · rintro i ⟨p, hp, hpid, ht⟩
    have hl := hinv.1 i p hp ht
    rw [hpid] at hl
    have : (lookup (run ops).cur pid).filter (live (run ops)) = some i := by
      rw [hl]
      simp [Option.filter, (live_iff hinv hl).2 ⟨p, hp, hpid, ht⟩]
    simp only [ensure, this]
  · intro hno
    have hnone : (lookup (run ops).cur pid).filter (live (run ops)) = none := by
      cases hl : lookup (run ops).cur pid with
      | none => rfl
      | some i =>
        have : live (run ops) i = false := by
          cases hlv : live (run ops) i with
          | false => rfl
          | true => exact absurd ((live_iff hinv hl).1 hlv) (hno i)
        simp [Option.filter, this]
    simp only [ensure, hnone]
    refine ⟨_, rfl, ⟨_, rfl, rfl, rfl, rfl, rfl⟩, ?_⟩
    simp only [Bool.not_eq_false', List.any_eq_true, Bool.and_eq_true, decide_eq_true_eq]
    constructor
    · rintro ⟨e, he, ⟨h1, h2⟩, h3⟩
      have hl := hinv.2.2 e he
      have := (live_iff hinv hl).1 h3
      refine ⟨e.1.2, e.2, h2, ?_⟩
      rw [← h1]; exact this
    · rintro ⟨d, i, hd, p, hp, hpid, ht⟩
      have hl := hinv.1 i p hp ht
      rw [hpid] at hl
      exact ⟨((pid.1, d), i), mem_of_lookup hl, ⟨rfl, hd⟩, (live_iff hinv hl).2 ⟨p, hp, hpid, ht⟩⟩

/-- Two devices of a user; the first one's poller is terminated and replaced. -/
example : run [.ensure ("@a", "X") false, .ensure ("@a", "Y") false, .ensure ("@a", "X") false, .terminate 0,
    .ensure ("@a", "X") false] =
    { all := [⟨("@a", "X"), true, false, false, false⟩, ⟨("@a", "Y"), false, false, false, true⟩,
        ⟨("@a", "X"), false, false, false, true⟩]
      cur := [(("@a", "Y"), 1), (("@a", "X"), 2)] } := by decide

/-! ### C69 -/

/-- C69 as stated: after a request for a device, it has a running poller, and only one. -/
def RunningAlone : Prop := ∀ (ops : List Op) (pid : Pid) (b : Bool),
  ∃ i, ∀ j, Running (ensure (run ops) pid b).1 pid j ↔ j = i

/-- A panic in a poller ends its goroutine without marking it terminated: it is never replaced, and if it was in its first
sync, the waiters wait for ever. -/
theorem C69_violated_panic :
    (∀ i, ¬ Running (ensure (run [.ensure ("@a", "X") false, .panic 0]) ("@a", "X") false).1 ("@a", "X") i) ∧
    (ensure (run [.ensure ("@a", "X") false, .panic 0]) ("@a", "X") false).2 = .existing 0 ∧
    ∃ p, (run [.ensure ("@a", "X") false, .panic 0]).all[0]? = some p ∧ p.synced = false := by
  refine ⟨?_, by decide, _, rfl, rfl⟩
  rintro i ⟨p, hp, _, hs⟩
  have hall : (ensure (run [.ensure ("@a", "X") false, .panic 0]) ("@a", "X") false).1.all =
      [⟨("@a", "X"), false, true, false, false⟩] := by decide
  rw [hall] at hp
  match i with
  | 0 => simp only [List.getElem?_cons_zero, Option.some.injEq] at hp; rw [← hp] at hs; cases hs
  | i + 1 => simp at hp

/-- A poller that was terminated while processing a response goes on to process it while the next one is already running:
terminating does not wait. -/
theorem C69_violated_overlap :
    Running (run [.ensure ("@a", "X") false, .terminate 0, .ensure ("@a", "X") false]) ("@a", "X") 0 ∧
    Running (run [.ensure ("@a", "X") false, .terminate 0, .ensure ("@a", "X") false]) ("@a", "X") 1 :=
  ⟨⟨_, rfl, by decide, by decide⟩, ⟨_, rfl, by decide, by decide⟩⟩

/-- C69 is violated after a panic: the device has a poller that no longer runs and that is not replaced. -/
theorem C69_violated : ¬ RunningAlone := by
  intro h
  obtain ⟨i, hi⟩ := h [.ensure ("@a", "X") false, .panic 0] ("@a", "X") false
  exact C69_violated_panic.1 i ((hi i).2 rfl)

/-- Without panics: after a request, the device has a running poller that is not terminated; any other poller of the device
that still runs is terminated, and so ends at its next check; and who waits for a poller that ended is released.
Missing from C69: panics, and the overlap with a poller about to end. -/
theorem C69_running_partial (ops : List Op) (hp : ∀ i, Op.panic i ∉ ops) (pid : Pid) (b : Bool) :
    (∃ i, Running (ensure (run ops) pid b).1 pid i ∧ Live (ensure (run ops) pid b).1 pid i ∧
      ∀ j p, j ≠ i → (ensure (run ops) pid b).1.all[j]? = some p → p.pid = pid → p.terminated = true) ∧
    (∀ p ∈ (run ops).all, p.stopped = true → p.terminated = true ∧ p.synced = true) := by
  have hstop : ∀ p ∈ (run ops).all, p.stopped = true → p.terminated = true ∧ p.synced = true := by
    have hupd : ∀ (s : State) (i : Nat) (f : P → P), (∀ p ∈ s.all, p.stopped = true → p.terminated = true ∧ p.synced = true) →
        (∀ p, (p.stopped = true → p.terminated = true ∧ p.synced = true) →
          ((f p).stopped = true → (f p).terminated = true ∧ (f p).synced = true)) →
        ∀ p ∈ (update s i f).all, p.stopped = true → p.terminated = true ∧ p.synced = true := by
      intro s i f h1 h2 p hp
      obtain ⟨j, hj⟩ := List.mem_iff_getElem?.1 hp
      rw [update_all] at hj
      by_cases hij : i = j
      · rw [if_pos hij] at hj
        cases hs : s.all[j]? with
        | none => rw [hs] at hj; cases hj
        | some q =>
          rw [hs] at hj
          simp only [Option.map_some, Option.some.injEq] at hj
          rw [← hj]
          exact h2 q (h1 q (List.mem_iff_getElem?.2 ⟨j, hs⟩))
      · rw [if_neg hij] at hj
        exact h1 p (List.mem_iff_getElem?.2 ⟨j, hj⟩)
    induction ops using Verif.Util.snocRec with
    | nil => intro p h; simp [run] at h
    | append_singleton ops op ih =>
      have ih := ih fun i hi => hp i (by simp [hi])
      rw [run_snoc]
      cases op with
      | ensure q b =>
        simp only [step, ensure]
        split
        · exact ih
        · intro p h hs
          rcases List.mem_append.1 h with h | h
          · exact ih p h hs
          · rw [List.mem_singleton.1 h] at hs; cases hs
      | terminate i => exact hupd _ i _ ih fun p h hs => ⟨rfl, (h hs).2⟩
      | synced i =>
        refine hupd _ i _ ih fun p h hs => ?_
        by_cases hps : p.stopped = true
        · simp only [hps, if_true]; exact h hps
        · simp only [hps] at hs; exact absurd hs (by simpa using hps)
      | stop i =>
        refine hupd _ i _ ih fun p h hs => ?_
        by_cases hpt : p.terminated = true
        · simp [hpt]
        · simp only [hpt] at hs ⊢; exact h hs
      | panic i => exact absurd (List.mem_append_right _ (List.mem_singleton.2 rfl)) (hp i)
  refine ⟨?_, hstop⟩
  have hone := C51_one_live (ops ++ [.ensure pid b]) pid
  rw [run_snoc] at hone
  simp only [step] at hone
  have hlive : ∃ i, Live (ensure (run ops) pid b).1 pid i ∧ Running (ensure (run ops) pid b).1 pid i := by
    by_cases hex : ∃ i, Live (run ops) pid i
    · obtain ⟨i, hi⟩ := hex
      rw [(C51_ensure ops pid b).1 i hi]
      refine ⟨i, hi, ?_⟩
      obtain ⟨p, h1, h2, h3⟩ := hi
      refine ⟨p, h1, h2, ?_⟩
      cases hs : p.stopped with
      | false => rfl
      | true =>
        have := (hstop p (List.mem_iff_getElem?.2 ⟨i, h1⟩) hs).1
        rw [h3] at this; cases this
    · obtain ⟨wait, _, ⟨p, h1, h2, h3, h4, _⟩, _⟩ := (C51_ensure ops pid b).2 fun i hi => hex ⟨i, hi⟩
      refine ⟨(run ops).all.length, ⟨p, ?_, h2, h3⟩, ⟨p, ?_, h2, h4⟩⟩ <;> rw [h1] <;> simp
  obtain ⟨i, hl, hr⟩ := hlive
  refine ⟨i, hr, hl, ?_⟩
  intro j p hji hpj hpid
  cases ht : p.terminated with
  | true => rfl
  | false => exact absurd (hone j i ⟨p, hpj, hpid, ht⟩ hl) hji

/-- Something happened in a history that releases those who wait for the poller: its first sync, or its end once terminated. -/
def Released (ops : List Op) (i : Nat) : Prop :=
  ∃ a o b q, ops = a ++ o :: b ∧ (run a).all[i]? = some q ∧ ((o = .synced i ∧ q.stopped = false) ∨ (o = .stop i ∧ q.terminated = true))

theorem released_snoc (ops : List Op) (o : Op) (i : Nat) : Released (ops ++ [o]) i ↔ Released ops i ∨
    ∃ q, (run ops).all[i]? = some q ∧ ((o = .synced i ∧ q.stopped = false) ∨ (o = .stop i ∧ q.terminated = true)) := by
  constructor
  · rintro ⟨a, o', b, q, h1, h2, h3⟩
    rcases List.eq_nil_or_concat b with hb | ⟨b', x, hb⟩
    · subst hb
      obtain ⟨e1, e2⟩ := List.append_inj' h1 rfl
      cases e2; subst e1
      exact Or.inr ⟨q, h2, h3⟩
    · rw [List.concat_eq_append] at hb
      subst hb
      have : ops ++ [o] = (a ++ o' :: b') ++ [x] := by simpa using h1
      obtain ⟨e1, _⟩ := List.append_inj' this rfl
      exact Or.inl ⟨a, o', b', q, e1, h2, h3⟩
  · rintro (⟨a, o', b, q, h1, h2, h3⟩ | ⟨q, h2, h3⟩)
    · exact ⟨a, o', b ++ [o], q, by rw [h1]; simp, h2, h3⟩
    · exact ⟨ops, o, [], q, rfl, h2, h3⟩

theorem not_released {ops : List Op} {i : Nat} (h : (run ops).all[i]? = none) : ¬ Released ops i := by
  rintro ⟨a, o, b, q, rfl, h2, _⟩
  have hlen : ∀ (s : State) (l : List Op), s.all.length ≤ (l.foldl step s).all.length := by
    intro s l
    induction l generalizing s with
    | nil => exact Nat.le_refl _
    | cons o l ih =>
      refine Nat.le_trans ?_ (ih (step s o))
      have hu : ∀ j f, (update s j f).all.length = s.all.length := by
        intro j f; unfold update; split <;> simp
      cases o with
      | ensure pid b =>
        simp only [step, ensure]
        split
        · exact Nat.le_refl _
        · simp
      | terminate j => simp only [step, hu]; exact Nat.le_refl _
      | synced j => simp only [step, hu]; exact Nat.le_refl _
      | stop j => simp only [step, hu]; exact Nat.le_refl _
      | panic j => simp only [step, hu]; exact Nat.le_refl _
  have h1 := hlen (run a) (o :: b)
  have e : (o :: b).foldl step (run a) = run (a ++ o :: b) := by unfold run; rw [List.foldl_append]
  rw [e] at h1
  have h3 : i < (run a).all.length := by
    rcases Nat.lt_or_ge i (run a).all.length with h | h
    · exact h
    · rw [List.getElem?_eq_none h] at h2; cases h2
  rw [List.getElem?_eq_getElem (Nat.lt_of_lt_of_le h3 h1)] at h
  cases h

/-- C69, in part: those who wait for a poller are released exactly by its first sync, or by its end once terminated. -/
theorem C69_released (ops : List Op) (i : Nat) (p : P) (hp : (run ops).all[i]? = some p) : p.synced = true ↔ Released ops i := by
  induction ops using Verif.Util.snocRec generalizing p with
  | nil => simp [run] at hp
  | append_singleton ops op ih =>
    rw [released_snoc]
    rw [run_snoc] at hp
    have hupd : ∀ (j : Nat) (f : P → P) (R : P → Prop), (update (run ops) j f).all[i]? = some p →
        (∀ q, (f q).synced = true ↔ q.synced = true ∨ R q) → (p.synced = true ↔ Released ops i ∨ ∃ q, (run ops).all[i]? = some q ∧ j = i ∧ R q) := by
      intro j f R h1 h2
      rw [update_all] at h1
      by_cases hij : j = i
      · rw [if_pos hij] at h1
        cases hq : (run ops).all[i]? with
        | none => rw [hq] at h1; cases h1
        | some q =>
          rw [hq] at h1
          simp only [Option.map_some, Option.some.injEq] at h1
          rw [← h1, h2 q, ih q hq]
          simp [hij]
      · rw [if_neg hij] at h1
        rw [ih p h1]
        simp [hij]
    cases op with
    | ensure pid b =>
      have hno : ¬ ∃ q, (run ops).all[i]? = some q ∧ ((Op.ensure pid b = .synced i ∧ q.stopped = false) ∨ (Op.ensure pid b = .stop i ∧ q.terminated = true)) := by
        simp
      simp only [hno, or_false]
      simp only [step, ensure] at hp
      split at hp
      · exact ih p hp
      · simp only at hp
        by_cases hi : i < (run ops).all.length
        · rw [List.getElem?_append_left hi] at hp; exact ih p hp
        · have hn : (run ops).all[i]? = none := List.getElem?_eq_none (by omega)
          rw [List.getElem?_append_right (by omega)] at hp
          have hps : p.synced = false := by
            obtain ⟨k, hk⟩ : ∃ k, i - (run ops).all.length = k := ⟨_, rfl⟩
            rw [hk] at hp
            cases k with
            | zero => simp only [List.getElem?_cons_zero, Option.some.injEq] at hp; rw [← hp]
            | succ k => simp at hp
          simp [hps, not_released hn]
    | terminate j =>
      rw [hupd j _ (fun _ => False) hp (fun q => by simp)]
      simp
    | synced j =>
      rw [hupd j _ (fun q => q.stopped = false) hp (fun q => by cases q.stopped <;> simp)]
      simp
    | stop j =>
      rw [hupd j _ (fun q => q.terminated = true) hp (fun q => by cases q.terminated <;> simp)]
      simp
    | panic j =>
      rw [hupd j _ (fun _ => False) hp (fun q => by simp)]
      simp

/-- Released by the first sync, and not before. -/
example : Released [.ensure ("@a", "X") false, .synced 0] 0 ∧ ¬ Released [.ensure ("@a", "X") false] 0 := by
  refine ⟨⟨[.ensure ("@a", "X") false], _, [], _, rfl, rfl, Or.inl ⟨rfl, rfl⟩⟩, fun h => ?_⟩
  exact absurd ((C69_released [.ensure ("@a", "X") false] 0 _ rfl).2 h) (by decide)

/-- C69, in part: a terminated poller that reaches the end of its loop has ended, for good. -/
theorem C69_ended (a b : List Op) (i : Nat) (q : P) (hq : (run a).all[i]? = some q) (ht : q.terminated = true) (pid : Pid) :
    ¬ Running (run (a ++ .stop i :: b)) pid i := by
  have key : ∀ (b : List Op) (s : State), (∃ p, s.all[i]? = some p ∧ p.stopped = true) →
      ∃ p, (b.foldl step s).all[i]? = some p ∧ p.stopped = true := by
    intro b
    induction b with
    | nil => exact fun _ h => h
    | cons o b ih =>
      intro s hs
      refine ih _ ?_
      obtain ⟨p, h1, h2⟩ := hs
      have hupd : ∀ (j : Nat) (f : P → P), (∀ p : P, p.stopped = true → (f p).stopped = true) →
          ∃ p, (update s j f).all[i]? = some p ∧ p.stopped = true := by
        intro j f hf
        rw [update_all]
        by_cases hij : j = i
        · rw [if_pos hij, h1]; exact ⟨f p, rfl, hf p h2⟩
        · rw [if_neg hij]; exact ⟨p, h1, h2⟩
      cases o with
      | ensure pid b =>
        simp only [step, ensure]
        split
        · exact ⟨p, h1, h2⟩
        · refine ⟨p, ?_, h2⟩
          obtain ⟨hl, _⟩ := List.getElem?_eq_some_iff.1 h1
          simp only
          rw [List.getElem?_append_left hl]; exact h1
      | terminate j => exact hupd j _ fun _ h => h
      | synced j => exact hupd j _ fun p h => by simp [h]
      | stop j => exact hupd j _ fun p h => by cases p.terminated <;> simp [h]
      | panic j => exact hupd j _ fun _ _ => rfl
  have hrun : run (a ++ .stop i :: b) = b.foldl step (step (run a) (.stop i)) := by
    unfold run; rw [List.foldl_append]; rfl
  obtain ⟨p, h1, h2⟩ := key b (step (run a) (.stop i)) (by
    refine ⟨{ q with stopped := true, synced := true }, ?_, rfl⟩
    simp only [step, update_all, if_true, hq, Option.map_some, ht])
  rintro ⟨p', h3, _, h4⟩
  rw [hrun, h1] at h3
  cases h3
  rw [h2] at h4
  cases h4

example : (run [.ensure ("@a", "X") false, .terminate 0]).all[0]? = some ⟨("@a", "X"), true, false, false, false⟩ := by decide

end Verif.PollerMap
