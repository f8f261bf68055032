import Verif.FirstLoad
/-!
# C97: a list has all the rooms the user is in, also if the first load fails

Specification: a list is due to have every room of the events from before the connection and of the updates that were taken. This holds
if the load of the first request works. After a failure the code means to try again with the next request, but this does not repair the
lists, and does not happen at all if an update was taken in between.
-/
namespace Verif.FirstLoad

/-- Every list has every room that is due. -/
def Complete (s : State) : Prop := ∀ k l, Assoc.get s.lists k = some l → ∀ r, r ∈ s.log.take s.taken → r ∈ l

/-- The rooms of the updates that were taken after `s` and until `t`. -/
def Since (s t : State) (r : String) : Prop := r ∈ (t.log.take t.taken).drop s.taken

/-- The events of a history with no request. -/
def Events (ops : List Op) : Prop := ∀ o, o ∈ ops → ∃ r, o = .event r

theorem mem_add {l : List String} {r x : String} : x ∈ add l r ↔ x ∈ l ∨ x = r := by
  unfold add
  split
  · rename_i h
    constructor
    · exact Or.inl
    · rintro (h' | rfl)
      · exact h'
      · exact h
  · simp

theorem mem_adds {rs l : List String} {x : String} : x ∈ rs.foldl add l ↔ x ∈ l ∨ x ∈ rs := by
  induction rs generalizing l with
  | nil => simp
  | cons r rs ih => rw [List.foldl_cons, ih, mem_add, List.mem_cons, or_assoc]

theorem get_map (m : List (String × List String)) (k : String) (f : List String → List String) :
    Assoc.get (m.map fun p => (p.1, f p.2)) k = (Assoc.get m k).map f := by
  induction m with
  | nil => rfl
  | cons p m ih =>
    simp only [Assoc.get, List.map_cons, List.find?_cons] at ih ⊢
    by_cases h : p.1 = k
    · simp [h]
    · simpa [h] using ih

/-! ## The small steps -/

/-- `P` holds of the states along every execution if it is kept by the small steps. -/
theorem keeps {P : State → Prop} (hE : ∀ s r, P s → P { s with log := s.log ++ [r] })
    (hL : ∀ s, unset s.anchor = true → P s → P (load s)) (hA : ∀ s k, P s → P (assign s k)) (hT : ∀ s, P s → P (take s))
    (ops : List Op) (s : State) (h : P s) : P (run s ops) := by
  have hTs : ∀ n s, P s → P (takes n s) := by
    intro n
    induction n with
    | zero => intro s h; exact h
    | succ n ih => intro s h; exact ih _ (hT s h)
  have hAs : ∀ (ks : List String) s, P s → P (ks.foldl assign s) := by
    intro ks
    induction ks with
    | nil => intro s h; exact h
    | cons k ks ih => intro s h; exact ih _ (hA s k h)
  induction ops generalizing s with
  | nil => exact h
  | cons o os ih =>
    refine ih _ ?_
    cases o with
    | event r => exact hE s r h
    | request ok keys n =>
      refine hTs n _ (hAs keys _ ?_)
      by_cases hu : (unset s.anchor && ok) = true
      · rw [if_pos hu]; exact hL s (by simp at hu; exact hu.1) h
      · rw [if_neg hu]; exact h

theorem take_cases (s : State) : take s = s ∨ ∃ r, s.log[s.taken]? = some r ∧ (take s).taken = s.taken + 1 ∧ (take s).log = s.log ∧
    (take s).known = add s.known r ∧ (∀ k, Assoc.get (take s).lists k = (Assoc.get s.lists k).map fun l => add l r) ∧
    unset (take s).anchor = false := by
  cases h : s.log[s.taken]? with
  | none => left; simp only [take, h]
  | some r =>
    right
    refine ⟨r, rfl, ?_, ?_, ?_, ?_, ?_⟩
    · simp only [take, h]
    · simp only [take, h]
    · simp only [take, h]
    · intro k; simp only [take, h]; exact get_map _ _ (fun l => add l r)
    · simp only [take, h]
      cases s.anchor with
      | none => simp [unset]
      | some a => simp [unset]

theorem take_succ {l : List String} {n : Nat} {r : String} (h : l[n]? = some r) : l.take (n + 1) = l.take n ++ [r] := by
  rw [List.take_add_one, h]; rfl

theorem lt_of_get {l : List String} {n : Nat} {r : String} (h : l[n]? = some r) : n < l.length :=
  (List.getElem?_eq_some_iff.1 h).1

/-- From a state on, nothing is lost of the log. -/
structure Ext (s t : State) : Prop where
  le : s.taken ≤ t.taken
  len : t.taken ≤ t.log.length

theorem ext_since {s t : State} {r x : String} (h : Ext s t) (hr : t.log[t.taken]? = some r) :
    x ∈ (t.log.take (t.taken + 1)).drop s.taken ↔ Since s t x ∨ x = r := by
  have hl : s.taken ≤ (t.log.take t.taken).length := by rw [List.length_take]; have := h.le; have := h.len; omega
  rw [take_succ hr, List.drop_append_of_le_length hl, List.mem_append, List.mem_singleton]; rfl

theorem since_event {s t : State} {r x : String} (h : Ext s t) :
    Since s { t with log := t.log ++ [r] } x ↔ Since s t x := by
  show x ∈ ((t.log ++ [r]).take t.taken).drop s.taken ↔ _
  rw [List.take_append_of_le_length h.len]; rfl

theorem ext_event {s t : State} {r : String} (h : Ext s t) : Ext s { t with log := t.log ++ [r] } :=
  ⟨h.le, by show t.taken ≤ (t.log ++ [r]).length; rw [List.length_append]; have := h.len; omega⟩

theorem assign_same (s : State) (k : String) : (assign s k).log = s.log ∧ (assign s k).taken = s.taken ∧
    (assign s k).known = s.known ∧ (assign s k).anchor = s.anchor := by
  unfold assign; split <;> exact ⟨rfl, rfl, rfl, rfl⟩

theorem assign_get (s : State) (k q : String) : Assoc.get (assign s k).lists q =
    if q = k ∧ Assoc.get s.lists k = none then some s.known else Assoc.get s.lists q := by
  cases h : Assoc.get s.lists k with
  | some l => simp [assign, h]
  | none =>
    simp only [assign, h, Assoc.get_set]
    by_cases hq : q = k <;> simp [hq]

theorem ext_assign {s t : State} (h : Ext s t) (k : String) : Ext s (assign t k) := by
  have ⟨h1, h2, _, _⟩ := assign_same t k
  exact ⟨by rw [h2]; exact h.le, by rw [h1, h2]; exact h.len⟩

theorem ext_take {s t : State} (h : Ext s t) : Ext s (take t) := by
  rcases take_cases t with e | ⟨r, hr, h1, h2, _⟩
  · rw [e]; exact h
  · exact ⟨by rw [h1]; have := h.le; omega, by rw [h1, h2]; exact lt_of_get hr⟩

theorem since_self (s : State) (x : String) : ¬ Since s s x := by
  intro h
  have hd : (s.log.take s.taken).drop s.taken = [] := List.drop_eq_nil_of_le (by rw [List.length_take]; omega)
  rw [Since, hd] at h; cases h

theorem since_assign {s t : State} {k x : String} : Since s (assign t k) x ↔ Since s t x := by
  have ⟨h1, h2, _, _⟩ := assign_same t k
  unfold Since; rw [h1, h2]

/-! ## The exact content of a list -/

/-- A list has what it had, and the rooms of the updates taken since. So what a list lacks when it is made, a load does not put there. -/
theorem C97_list (s : State) (hs : s.taken ≤ s.log.length) (k : String) (l : List String) (hk : Assoc.get s.lists k = some l)
    (ops : List Op) : ∃ l', Assoc.get (run s ops).lists k = some l' ∧ ∀ x, x ∈ l' ↔ x ∈ l ∨ Since s (run s ops) x := by
  have key : Ext s (run s ops) ∧ ∃ l', Assoc.get (run s ops).lists k = some l' ∧ ∀ x, x ∈ l' ↔ x ∈ l ∨ Since s (run s ops) x := by
    refine keeps (P := fun t => Ext s t ∧ ∃ l', Assoc.get t.lists k = some l' ∧ ∀ x, x ∈ l' ↔ x ∈ l ∨ Since s t x)
      ?_ ?_ ?_ ?_ ops s ⟨⟨Nat.le_refl _, hs⟩, l, hk, fun x => ⟨Or.inl, fun h => h.elim id fun h => absurd h (since_self s x)⟩⟩
    · rintro t r ⟨he, l', h1, h2⟩
      exact ⟨ext_event he, l', h1, fun x => by rw [h2, since_event he]⟩
    · rintro t _ ⟨he, l', h1, h2⟩
      exact ⟨⟨he.le, he.len⟩, l', h1, h2⟩
    · rintro t q ⟨he, l', h1, h2⟩
      refine ⟨ext_assign he q, l', ?_, fun x => by rw [h2, since_assign]⟩
      rw [assign_get, if_neg, h1]
      rintro ⟨rfl, h⟩; rw [h1] at h; cases h
    · rintro t ⟨he, l', h1, h2⟩
      refine ⟨ext_take he, ?_⟩
      rcases take_cases t with e | ⟨r, hr, e1, e2, _, e4, _⟩
      · rw [e]; exact ⟨l', h1, h2⟩
      · refine ⟨add l' r, by rw [e4, h1]; rfl, fun x => ?_⟩
        rw [mem_add, h2]; unfold Since; rw [e1, e2, ext_since he hr, or_assoc]; rfl
  exact key.2

/-- Once the position is set, nothing is loaded: the connection knows what it knew, and the rooms of the updates taken since. -/
theorem C97_stuck (s : State) (hs : s.taken ≤ s.log.length) (ha : unset s.anchor = false) (ops : List Op) :
    unset (run s ops).anchor = false ∧ ∀ x, x ∈ (run s ops).known ↔ x ∈ s.known ∨ Since s (run s ops) x := by
  have key : Ext s (run s ops) ∧ unset (run s ops).anchor = false ∧ ∀ x, x ∈ (run s ops).known ↔ x ∈ s.known ∨ Since s (run s ops) x := by
    refine keeps (P := fun t => Ext s t ∧ unset t.anchor = false ∧ ∀ x, x ∈ t.known ↔ x ∈ s.known ∨ Since s t x)
      ?_ ?_ ?_ ?_ ops s ⟨⟨Nat.le_refl _, hs⟩, ha, fun x => ⟨Or.inl, fun h => h.elim id fun h => absurd h (since_self s x)⟩⟩
    · rintro t r ⟨he, h1, h2⟩
      exact ⟨ext_event he, h1, fun x => by rw [since_event he]; exact h2 x⟩
    · rintro t hu ⟨_, h1, _⟩
      rw [h1] at hu; cases hu
    · rintro t q ⟨he, h1, h2⟩
      have ⟨_, _, e3, e4⟩ := assign_same t q
      exact ⟨ext_assign he q, by rw [e4]; exact h1, fun x => by rw [e3, since_assign]; exact h2 x⟩
    · rintro t ⟨he, h1, h2⟩
      refine ⟨ext_take he, ?_⟩
      rcases take_cases t with e | ⟨r, hr, e1, e2, e3, _, e5⟩
      · rw [e]; exact ⟨h1, h2⟩
      · refine ⟨e5, fun x => ?_⟩
        rw [e3, mem_add, h2]; unfold Since; rw [e1, e2, ext_since he hr, or_assoc]; rfl
  exact key.2

/-! ## When the first load works -/

/-- All that was joined when the first load worked, and all that is due, is known and on every list. -/
structure Good (n : Nat) (s : State) : Prop where
  len : s.taken ≤ s.log.length
  nlen : n ≤ s.log.length
  known : ∀ r, r ∈ s.log.take (max n s.taken) → r ∈ s.known
  lists : ∀ k l, Assoc.get s.lists k = some l → ∀ r, r ∈ s.log.take (max n s.taken) → r ∈ l

theorem good_keeps (n : Nat) (ops : List Op) (s : State) (h : Good n s) : Good n (run s ops) := by
  refine keeps (P := Good n) ?_ ?_ ?_ ?_ ops s h
  · intro t r h
    have hm : max n t.taken ≤ t.log.length := by have := h.len; have := h.nlen; omega
    have he : ({ t with log := t.log ++ [r] } : State).log.take (max n t.taken) = t.log.take (max n t.taken) :=
      List.take_append_of_le_length hm
    refine ⟨?_, ?_, ?_, ?_⟩
    · show t.taken ≤ (t.log ++ [r]).length; rw [List.length_append]; have := h.len; omega
    · show n ≤ (t.log ++ [r]).length; rw [List.length_append]; have := h.nlen; omega
    · intro x hx; exact h.known x (he ▸ hx)
    · intro k l hk x hx; exact h.lists k l hk x (he ▸ hx)
  · intro t _ h
    exact ⟨h.len, h.nlen, fun x hx => mem_adds.2 (Or.inl (h.known x hx)), h.lists⟩
  · intro t k h
    have ⟨e1, e2, e3, _⟩ := assign_same t k
    refine ⟨by rw [e1, e2]; exact h.len, by rw [e1]; exact h.nlen, by rw [e1, e2, e3]; exact h.known, ?_⟩
    intro q l hq x hx
    rw [e1, e2] at hx
    rw [assign_get] at hq
    split at hq
    · injection hq with hq; subst hq; exact h.known x hx
    · exact h.lists q l hq x hx
  · intro t h
    rcases take_cases t with e | ⟨r, hr, e1, e2, e3, e4, _⟩
    · rw [e]; exact h
    · have hlt := lt_of_get hr
      have hx' : ∀ x, x ∈ t.log.take (max n (t.taken + 1)) → x ∈ t.log.take (max n t.taken) ∨ x = r := by
        intro x hx
        by_cases hn : n ≤ t.taken
        · rw [Nat.max_eq_right (by omega), take_succ hr, List.mem_append, List.mem_singleton] at hx
          rw [Nat.max_eq_right hn]; exact hx
        · rw [Nat.max_eq_left (by omega)] at hx
          rw [Nat.max_eq_left (by omega)]; exact Or.inl hx
      refine ⟨by rw [e1, e2]; exact hlt, by rw [e2]; exact h.nlen, ?_, ?_⟩
      · intro x hx; rw [e1, e2] at hx
        rw [e3, mem_add]; exact (hx' x hx).imp (h.known x) id
      · intro k l hk x hx; rw [e1, e2] at hx
        rw [e4] at hk
        obtain ⟨l', hl', rfl⟩ := Option.map_eq_some_iff.1 hk
        rw [mem_add]; exact (hx' x hx).imp (h.lists k l' hl' x) id

theorem run_events (ops : List Op) (h : Events ops) (s : State) : (run s ops).lists = s.lists ∧ (run s ops).taken = s.taken ∧
    (run s ops).anchor = s.anchor ∧ ∃ m, (run s ops).log = s.log ++ m := by
  induction ops generalizing s with
  | nil => exact ⟨rfl, rfl, rfl, [], by simp [run]⟩
  | cons o os ih =>
    obtain ⟨r, rfl⟩ := h o (List.mem_cons_self ..)
    obtain ⟨h1, h2, h3, m, h4⟩ := ih (fun o ho => h o (List.mem_cons_of_mem _ ho)) (step s (.event r))
    refine ⟨h1, h2, h3, r :: m, ?_⟩
    show (run (step s (.event r)) os).log = _
    rw [h4]; simp [step]

/-- If the load of the first request works, then at all times every list has every room that is due; it also has every room that was
joined when that request came. Missing: this is not so if the first load fails, see below. -/
theorem C97_loaded_partial (before : List String) (evs : List Op) (he : Events evs) (keys : List String) (n : Nat) (ops : List Op) :
    Complete (run (init before) (evs ++ .request true keys n :: ops)) ∧
    ∀ k l, Assoc.get (run (init before) (evs ++ .request true keys n :: ops)).lists k = some l →
      ∀ r, r ∈ (run (init before) evs).log → r ∈ l := by
  obtain ⟨h1, h2, h3, m, h4⟩ := run_events evs he (init before)
  generalize hs : run (init before) evs = s at *
  have hrun : run (init before) (evs ++ .request true keys n :: ops) = run (load s) (.request false keys n :: ops) := by
    have hu : unset s.anchor = true := by rw [h3]; rfl
    show List.foldl step _ (evs ++ _) = _
    rw [List.foldl_append]
    show List.foldl step (run (init before) evs) _ = _
    rw [hs]
    simp [run, step, hu]
  have hlen : s.taken ≤ s.log.length := by
    rw [h2, h4]; show before.length ≤ (before ++ m).length; rw [List.length_append]; omega
  have g0 : Good s.log.length (load s) := by
    refine ⟨hlen, Nat.le_refl _, fun r hr => mem_adds.2 (Or.inr (List.mem_of_mem_take hr)), ?_⟩
    intro k l hk
    have hk : Assoc.get s.lists k = some l := hk
    rw [h1] at hk; cases hk
  have g := good_keeps _ (.request false keys n :: ops) (load s) g0
  -- the log only grows
  have hp : s.log <+: (run (load s) (.request false keys n :: ops)).log := by
    refine keeps (P := fun t => s.log <+: t.log) ?_ ?_ ?_ ?_ _ _ (List.prefix_refl _)
    · intro t r h; exact h.trans (List.prefix_append _ _)
    · intro t _ h; exact h
    · intro t k h; rw [(assign_same t k).1]; exact h
    · intro t h
      rcases take_cases t with e | ⟨r, _, _, e2, _⟩
      · rw [e]; exact h
      · rw [e2]; exact h
  rw [hrun]
  refine ⟨?_, ?_⟩
  · intro k l hk r hr
    exact g.lists k l hk r ((List.take_subset_take_left _ (Nat.le_max_right ..)) hr)
  · intro k l hk r hr
    refine g.lists k l hk r ((List.take_subset_take_left _ (Nat.le_max_left ..)) ?_)
    obtain ⟨m, hm⟩ := hp
    rw [← hm, List.take_left']
    · exact hr
    · rfl

example : Events [.event "!b"] := by intro o ho; exact ⟨"!b", by simpa using ho⟩

/-! ## When the first load fails -/

/-- The room of an event. -/
def room : Op → Option String
  | .event r => some r
  | .request .. => none

theorem takes_log (n : Nat) (s : State) : (takes n s).log = s.log := by
  induction n generalizing s with
  | zero => rfl
  | succ n ih =>
    rw [takes, ih]
    rcases take_cases s with e | ⟨r, _, _, e2, _⟩
    · rw [e]
    · exact e2

theorem assigns_log (ks : List String) (s : State) : (ks.foldl assign s).log = s.log := by
  induction ks generalizing s with
  | nil => rfl
  | cons k ks ih => rw [List.foldl_cons, ih, (assign_same s k).1]

theorem run_log (ops : List Op) (s : State) : (run s ops).log = s.log ++ ops.filterMap room := by
  induction ops generalizing s with
  | nil => simp [run]
  | cons o os ih =>
    show (run (step s o) os).log = _
    rw [ih]
    cases o with
    | event r => simp [step, room]
    | request ok keys n =>
      simp only [step, takes_log, assigns_log, room, List.filterMap_cons]
      split <;> rfl

/-- The first load fails; the request makes the list, with no rooms. The next request loads, but the list is there and is not filled:
the user is in a room and the list stays empty until the room has an event. -/
theorem C97_violated_empty :
    ¬ Complete (run (init ["!a"]) [.request false ["all"] 0, .request true ["all"] 0]) := by
  intro h
  exact absurd (h "all" [] (by decide +kernel) "!a" (by decide +kernel)) (by decide)

/-- The first load fails; while that request waits there is an event of a room, which sets the position. So the connection does not load
any more, and has no rooms but those with events: also a list that is made later lacks the others, whatever is requested, for as long as
there is no event of them. -/
theorem C97_violated_never (ops : List Op) (hq : ∀ r, .event r ∈ ops → r ≠ "!a") :
    "!a" ∉ (run (init ["!a", "!b"]) (.event "!b" :: .request false ["all"] 1 :: ops)).known ∧
    ∃ l, Assoc.get (run (init ["!a", "!b"]) (.event "!b" :: .request false ["all"] 1 :: ops)).lists "all" = some l ∧ "!a" ∉ l := by
  have hs : (run (init ["!a", "!b"]) [.event "!b", .request false ["all"] 1]).taken = 3 ∧
      (run (init ["!a", "!b"]) [.event "!b", .request false ["all"] 1]).log = ["!a", "!b", "!b"] ∧
      (run (init ["!a", "!b"]) [.event "!b", .request false ["all"] 1]).known = ["!b"] ∧
      Assoc.get (run (init ["!a", "!b"]) [.event "!b", .request false ["all"] 1]).lists "all" = some ["!b"] ∧
      unset (run (init ["!a", "!b"]) [.event "!b", .request false ["all"] 1]).anchor = false := by decide +kernel
  have hr : run (init ["!a", "!b"]) (.event "!b" :: .request false ["all"] 1 :: ops) =
      run (run (init ["!a", "!b"]) [.event "!b", .request false ["all"] 1]) ops := rfl
  rw [hr]
  generalize run (init ["!a", "!b"]) [.event "!b", .request false ["all"] 1] = s at hs
  obtain ⟨h1, h2, h3, h4, h5⟩ := hs
  have hle : s.taken ≤ s.log.length := by rw [h1, h2]; decide
  have hn : ¬ Since s (run s ops) "!a" := by
    intro h
    unfold Since at h
    rw [List.drop_take, run_log, h1, h2] at h
    have h := List.mem_of_mem_take h
    rw [List.drop_append_of_le_length (by decide)] at h
    simp only [List.drop_succ_cons, List.drop_nil, List.nil_append, List.mem_filterMap] at h
    obtain ⟨o, ho, he⟩ := h
    cases o with
    | event r => injection he with he; exact hq r ho he
    | request ok keys n => cases he
  refine ⟨?_, ?_⟩
  · rw [(C97_stuck s hle h5 ops).2, h3]
    rintro (h | h)
    · exact absurd h (by decide)
    · exact hn h
  · obtain ⟨l, hl, hx⟩ := C97_list s hle "all" _ h4 ops
    refine ⟨l, hl, ?_⟩
    rw [hx]
    rintro (h | h)
    · exact absurd h (by decide)
    · exact hn h

end Verif.FirstLoad
