import Verif.RowLocks
/-!
# C152: the transactions on a device's encryption data do not wait for each other in a circle
-/
namespace Verif.RowLocks

/-! ## Specification -/

/-- Transaction `i` needs a row which transaction `j` has locked. -/
def Waits (s : List T) (i j : Nat) : Prop := i ≠ j ∧ ∃ a b r, s[i]? = some a ∧ s[j]? = some b ∧ a.next = some r ∧ r ∈ b.held

/-- A deadlock: transactions each of which waits for one of them. -/
def Circle (s : List T) (c : Nat → Prop) : Prop := (∃ i, c i) ∧ ∀ i, c i → ∃ j, c j ∧ Waits s i j

/-- There is one poller for a device: at most one `Upsert` at a time. -/
def OnePoller (js : List Job) : Prop := ∀ (i j : Nat) (d : String) (ts us : List String),
  js[i]? = some (.upsert d ts) → js[j]? = some (.upsert d us) → i = j

/-- No user's list changes again while a request is fetching the change before. -/
def Apart (js : List Job) : Prop := ∀ d ts row old new, Job.upsert d ts ∈ js → Job.select d row true old new ∈ js → ∀ t ∈ ts, t ∉ new

/-! ## Exclusion -/

theorem taken_false {s : List T} {i : Nat} {r : Row} (h : taken s i r = false) {j : Nat} {b : T} (hj : s[j]? = some b) (hne : j ≠ i) :
    r ∉ b.held := by
  intro hr
  unfold taken at h
  rw [List.any_eq_false] at h
  have hl : j < s.length := (List.getElem?_eq_some_iff.1 hj).1
  have := h j (List.mem_range.2 hl)
  simp [hj, hne, hr] at this

structure Inv (js : List Job) (s : List T) : Prop where
  jobs : s.map (·.job) = js
  excl : ∀ (i j : Nat) (a b : T) (r : Row), s[i]? = some a → s[j]? = some b → r ∈ a.held → r ∈ b.held → i = j

theorem inv_set {js : List Job} {s : List T} (h : Inv js s) {i : Nat} {t t' : T} (ht : s[i]? = some t) (hj : t'.job = t.job)
    (hx : ∀ r ∈ t'.held, r ∈ t.held ∨ ∀ j b, s[j]? = some b → j ≠ i → r ∉ b.held) : Inv js (s.set i t') := by
  have hl : i < s.length := (List.getElem?_eq_some_iff.1 ht).1
  refine ⟨?_, ?_⟩
  · rw [List.map_set, ← h.jobs]
    apply List.ext_getElem?
    intro k
    rw [List.getElem?_set]
    split
    · rename_i hk
      subst hk
      rw [List.length_map, if_pos hl, List.getElem?_map, ht, hj]; rfl
    · rfl
  · have key : ∀ (j : Nat) (b : T), s[j]? = some b → j ≠ i → ∀ r, r ∈ t'.held → r ∈ b.held → False := by
      intro j b hb hne r h1 h2
      rcases hx r h1 with h3 | h3
      · exact hne (h.excl j i b t r hb ht h2 h3)
      · exact h3 j b hb hne h2
    intro x y a b r ha hb h1 h2
    rw [List.getElem?_set] at ha hb
    by_cases hxi : i = x <;> by_cases hyi : i = y
    · omega
    · rw [if_pos hxi, if_pos hl] at ha
      rw [if_neg hyi] at hb
      cases ha
      exact (key y b hb (Ne.symm hyi) r h1 h2).elim
    · rw [if_neg hxi] at ha
      rw [if_pos hyi, if_pos hl] at hb
      cases hb
      exact (key x a ha (Ne.symm hxi) r h2 h1).elim
    · rw [if_neg hxi] at ha
      rw [if_neg hyi] at hb
      exact h.excl x y a b r ha hb h1 h2

theorem ended_held {t : T} (h : t.ended = true) : t.held = [] := by simp [T.held, h]

theorem inv_step {js : List Job} {s : List T} (h : Inv js s) (x : Act) : Inv js (step s x) := by
  cases x with
  | abort i =>
    simp only [step]
    cases hi : s[i]? with
    | none => exact h
    | some t =>
      exact inv_set h hi rfl fun r hr => by rw [ended_held rfl] at hr; cases hr
  | go i =>
    simp only [step]
    cases hi : s[i]? with
    | none => exact h
    | some t =>
      dsimp only
      cases he : t.ended with
      | true => exact h
      | false =>
        simp only [Bool.false_eq_true, if_false]
        cases hn : t.next with
        | none => exact inv_set h hi rfl fun r hr => by rw [ended_held rfl] at hr; cases hr
        | some r =>
          dsimp only
          cases ht : taken s i r with
          | true => exact h
          | false =>
            simp only [Bool.false_eq_true, if_false]
            refine inv_set h hi rfl fun q hq => ?_
            have hn' : (rows t.job)[t.n]? = some r := by simpa [T.next, he] using hn
            have hq' : q ∈ (rows t.job).take (t.n + 1) := by simpa [T.held, he] using hq
            rw [List.take_add_one, hn'] at hq'
            rcases List.mem_append.1 hq' with h1 | h1
            · left; simpa [T.held, he] using h1
            · right
              simp only [Option.toList_some, List.mem_singleton] at h1
              subst h1
              exact fun j b hb hne => taken_false ht hb hne

theorem inv_run (js : List Job) (acts : List Act) : Inv js (run js acts) := by
  unfold run
  have h0 : Inv js (start js) := by
    refine ⟨by simp [start, Function.comp_def], fun i j a b r ha _ hr _ => ?_⟩
    unfold start at ha
    rw [List.getElem?_map, Option.map_eq_some_iff] at ha
    obtain ⟨_, _, rfl⟩ := ha
    simp [T.held] at hr
  revert h0
  generalize start js = s
  intro h0
  induction acts generalizing s with
  | nil => exact h0
  | cons x l ih => exact ih _ (inv_step h0 x)

/-! ## Who can wait for whom -/

theorem mem_jobs {js : List Job} {s : List T} (h : Inv js s) {i : Nat} {a : T} (ha : s[i]? = some a) : js[i]? = some a.job := by
  rw [← h.jobs, List.getElem?_map, ha]; rfl

theorem mem_rows {j : Job} {r : Row} (h : r ∈ rows j) : r = .data j.dev ∨ ∃ t b, r = .list j.dev t b := by
  cases j with
  | upsert d ts =>
    simp only [rows, List.mem_append, List.mem_map, List.mem_singleton] at h
    rcases h with ⟨t, _, rfl⟩ | rfl
    · exact Or.inr ⟨t, false, rfl⟩
    · exact Or.inl rfl
  | select d row swap old new =>
    simp only [rows] at h
    split at h
    · rcases List.mem_cons.1 h with rfl | h
      · exact Or.inl rfl
      · split at h
        · simp only [List.mem_append, List.mem_map] at h
          rcases h with ⟨t, _, rfl⟩ | ⟨t, _, rfl⟩
          · exact Or.inr ⟨t, true, rfl⟩
          · exact Or.inr ⟨t, false, rfl⟩
        · cases h
    · cases h

theorem held_rows {t : T} {r : Row} (h : r ∈ t.held) : r ∈ rows t.job ∧ t.ended = false := by
  unfold T.held at h
  cases he : t.ended with
  | true => rw [he] at h; cases h
  | false =>
    rw [he] at h
    exact ⟨List.mem_of_mem_take h, rfl⟩

theorem next_rows {t : T} {r : Row} (h : t.next = some r) : (rows t.job)[t.n]? = some r ∧ t.ended = false := by
  unfold T.next at h
  cases he : t.ended with
  | true => rw [he] at h; cases h
  | false =>
    rw [he] at h
    exact ⟨h, rfl⟩

/-- Two transactions of which one waits for the other are of the same device. -/
theorem waits_dev {a b : T} {r : Row} (h1 : a.next = some r) (h2 : r ∈ b.held) : a.job.dev = b.job.dev := by
  have h1 := mem_rows (List.mem_of_getElem? (next_rows h1).1)
  have h2 := mem_rows (held_rows h2).1
  rcases h1 with h1 | ⟨_, _, h1⟩ <;> rcases h2 with h2 | ⟨_, _, h2⟩ <;> rw [h1] at h2 <;> injection h2

/-- A `Select` that has any lock has that on the device's row. -/
theorem select_first {t : T} {d : String} {row swap : Bool} {old new : List String} (hj : t.job = .select d row swap old new)
    {r : Row} (h : r ∈ t.held) : Row.data d ∈ t.held := by
  have he := (held_rows h).2
  unfold T.held at h ⊢
  rw [he] at h ⊢
  simp only [Bool.false_eq_true, if_false] at h ⊢
  rw [hj] at h ⊢
  simp only [rows] at h ⊢
  cases row with
  | false => simp at h
  | true =>
    simp only [if_true] at h ⊢
    cases hn : t.n with
    | zero => rw [hn] at h; simp at h
    | succ m => simp

/-- A `Select` waits for the row of the device, or has it. -/
theorem select_next {t : T} {d : String} {row swap : Bool} {old new : List String} (hj : t.job = .select d row swap old new)
    {r : Row} (h : t.next = some r) : r = .data d ∨ (Row.data d ∈ t.held ∧ swap = true ∧ row = true ∧
      ((∃ u ∈ old, r = .list d u true) ∨ ∃ u ∈ new, r = .list d u false)) := by
  obtain ⟨h, he⟩ := next_rows h
  rw [hj] at h
  simp only [rows] at h
  cases row with
  | false => simp at h
  | true =>
    simp only [if_true] at h
    cases hn : t.n with
    | zero => rw [hn] at h; left; simpa using h.symm
    | succ m =>
      right
      rw [hn] at h
      rw [List.getElem?_cons_succ] at h
      refine ⟨?_, ?_⟩
      · unfold T.held; rw [he, hj, hn]; simp [rows]
      · cases swap with
        | false => simp at h
        | true =>
          have := List.mem_of_getElem? h
          simp only [if_true, List.mem_append, List.mem_map] at this
          refine ⟨rfl, rfl, ?_⟩
          rcases this with ⟨u, hu, rfl⟩ | ⟨u, hu, rfl⟩
          · exact Or.inl ⟨u, hu, rfl⟩
          · exact Or.inr ⟨u, hu, rfl⟩

/-- An `Upsert` that has the device's row waits for nothing. -/
theorem upsert_last {t : T} {d : String} {ts : List String} (hj : t.job = .upsert d ts) (h : Row.data d ∈ t.held) :
    t.next = none := by
  have he := (held_rows h).2
  unfold T.held at h
  rw [he] at h
  simp only [Bool.false_eq_true, if_false, hj, rows] at h
  have hn : ts.length < t.n := by
    apply Classical.byContradiction
    intro hn
    rw [List.take_append_of_le_length (by rw [List.length_map]; omega)] at h
    obtain ⟨_, _, h⟩ := List.mem_map.1 (List.mem_of_mem_take h)
    cases h
  unfold T.next
  rw [he, hj]
  simp [rows]
  omega

/-! ## C152 -/

/-- Whatever transactions run, as long as each device has one poller: in every circle there is an `Upsert` and a swapping `Select` of one
device which wait for each other. -/
theorem C152_pair (js : List Job) (h1 : OnePoller js) (acts : List Act) (c : Nat → Prop) (hc : Circle (run js acts) c) :
    ∃ i j d ts row old new, c i ∧ c j ∧ js[i]? = some (.upsert d ts) ∧ js[j]? = some (.select d row true old new) ∧
      Waits (run js acts) i j ∧ Waits (run js acts) j i := by
  have hi := inv_run js acts
  generalize run js acts = s at hc hi ⊢
  -- a `Select` of the circle which has the device's row
  have key : ∀ (i : Nat) (a : T) (d : String) (row swap : Bool) (old new : List String), c i → s[i]? = some a →
      a.job = Job.select d row swap old new → Row.data d ∈ a.held →
      ∃ i j d ts row old new, c i ∧ c j ∧ js[i]? = some (.upsert d ts) ∧ js[j]? = some (.select d row true old new) ∧
        Waits s i j ∧ Waits s j i := by
    intro i a d row swap old new hci ha hja hh
    obtain ⟨j, hcj, hw⟩ := hc.2 i hci
    have hw' := hw
    obtain ⟨hne, a', b, r, ha', hb, hr, hrb⟩ := hw
    rw [ha] at ha'; cases ha'
    have hd := waits_dev hr hrb
    rcases select_next hja hr with rfl | ⟨_, hsw, _, _⟩
    · exact absurd (hi.excl i j a b _ ha hb hh hrb) hne
    · subst hsw
      cases hjb : b.job with
      | select d' row' swap' old' new' =>
        rw [hja, hjb] at hd
        have hd : d = d' := hd
        subst hd
        exact absurd (hi.excl i j a b _ ha hb hh (select_first hjb hrb)) hne
      | upsert d' ts =>
        rw [hja, hjb] at hd
        have hd : d = d' := hd
        subst hd
        obtain ⟨k, hck, hwk⟩ := hc.2 j hcj
        have hwk' := hwk
        obtain ⟨hne', b', e, q, hb', he, hq, hqe⟩ := hwk
        rw [hb] at hb'; cases hb'
        have hd' := waits_dev hq hqe
        have hki : k = i := by
          cases hje : e.job with
          | upsert d'' us =>
            rw [hjb, hje] at hd'
            have hd' : d = d'' := hd'
            subst hd'
            exact absurd (h1 j k d ts us (by rw [mem_jobs hi hb, hjb]) (by rw [mem_jobs hi he, hje])) hne'
          | select d'' row'' swap'' old'' new'' =>
            rw [hjb, hje] at hd'
            have hd' : d = d'' := hd'
            subst hd'
            exact hi.excl k i e a _ he ha (select_first hje hqe) hh
        subst hki
        exact ⟨j, k, d, ts, row, old, new, hcj, hci, by rw [mem_jobs hi hb, hjb], by rw [mem_jobs hi ha, hja], hwk', hw'⟩
  -- one which is waited for
  obtain ⟨i, hci⟩ := hc.1
  obtain ⟨j, hcj, _, a, b, r, ha, hb, hr, hrb⟩ := hc.2 i hci
  cases hjb : b.job with
  | select d row swap old new => exact key j b d row swap old new hcj hb hjb (select_first hjb hrb)
  | upsert d ts =>
    obtain ⟨k, hck, hne, b', e, q, hb', he, hq, hqe⟩ := hc.2 j hcj
    rw [hb] at hb'; cases hb'
    have hd := waits_dev hq hqe
    cases hje : e.job with
    | select d' row swap old new => exact key k e d' row swap old new hck he hje (select_first hje hqe)
    | upsert d' us =>
      rw [hjb, hje] at hd
      have hd : d = d' := hd
      subst hd
      exact absurd (h1 j k d ts us (by rw [mem_jobs hi hb, hjb]) (by rw [mem_jobs hi he, hje])) hne

/-- No deadlock if no user's device list changes again while a request is fetching the change before.  Missing: such changes
(`C152_violated`). -/
theorem C152_no_circle_partial (js : List Job) (h1 : OnePoller js) (h2 : Apart js) (acts : List Act) (c : Nat → Prop) :
    ¬ Circle (run js acts) c := by
  intro hc
  obtain ⟨i, j, d, ts, row, old, new, _, _, hi, hj, hwi, hw⟩ := C152_pair js h1 acts c hc
  have hv := inv_run js acts
  obtain ⟨hne, b, a, r, hb, ha, hr, hra⟩ := hw
  have hja := mem_jobs hv ha
  have hjb := mem_jobs hv hb
  rw [hi] at hja
  rw [hj] at hjb
  have hja : a.job = .upsert d ts := (Option.some.inj hja).symm
  have hjb : b.job = .select d row true old new := (Option.some.inj hjb).symm
  have hrow := (held_rows hra).1
  rw [hja] at hrow
  simp only [rows, List.mem_append, List.mem_map, List.mem_singleton] at hrow
  rcases select_next hjb hr with rfl | ⟨_, _, _, ⟨u, _, rfl⟩ | ⟨u, hu, rfl⟩⟩
  · -- the `Upsert` has the row of the device: it waits for nothing
    have := upsert_last hja hra
    obtain ⟨_, a', _, _, ha', _, hq, _⟩ := hwi
    rw [ha] at ha'; cases ha'
    rw [this] at hq; cases hq
  · rcases hrow with ⟨t, _, h⟩ | h <;> cases h
  · rcases hrow with ⟨t, ht, h⟩ | h
    · injection h with _ h _
      subst h
      exact h2 d ts row old new (List.mem_of_getElem? hi) (List.mem_of_getElem? hj) t ht hu
    · cases h

/-- Then, as long as a transaction has not ended, one of them can go on. -/
theorem C152_progress_partial (js : List Job) (h1 : OnePoller js) (h2 : Apart js) (acts : List Act)
    (hu : ∃ (i : Nat) (t : T), (run js acts)[i]? = some t ∧ t.ended = false) : ∃ i, run js (acts ++ [.go i]) ≠ run js acts := by
  apply Classical.byContradiction
  intro hn
  refine C152_no_circle_partial js h1 h2 acts (fun i => ∃ t, (run js acts)[i]? = some t ∧ t.ended = false) ⟨hu, ?_⟩
  rintro i ⟨t, ht, he⟩
  have hs : step (run js acts) (.go i) = run js acts := by
    apply Classical.byContradiction
    intro h
    exact hn ⟨i, by simpa [run] using h⟩
  have hl : i < (run js acts).length := (List.getElem?_eq_some_iff.1 ht).1
  simp only [step, ht, he, Bool.false_eq_true, if_false] at hs
  cases hnx : t.next with
  | none =>
    rw [hnx] at hs
    have := congrArg (fun l => l[i]?) hs
    simp only [List.getElem?_set, if_pos hl, ht, if_true, Option.some.injEq] at this
    have := congrArg T.ended this
    rw [he] at this; cases this
  | some r =>
    rw [hnx] at hs
    dsimp only at hs
    cases hk : taken (run js acts) i r with
    | false =>
      rw [hk] at hs
      simp only [Bool.false_eq_true, if_false] at hs
      have := congrArg (fun l => l[i]?) hs
      simp only [List.getElem?_set, if_pos hl, ht, if_true, Option.some.injEq] at this
      have := congrArg T.n this
      simp at this
    | true =>
      unfold taken at hk
      rw [List.any_eq_true] at hk
      obtain ⟨j, _, hj⟩ := hk
      simp only [Bool.and_eq_true, decide_eq_true_eq] at hj
      obtain ⟨hne, hb⟩ := hj
      cases hbj : (run js acts)[j]? with
      | none => rw [hbj] at hb; simp at hb
      | some b =>
        rw [hbj] at hb
        have hb : r ∈ b.held := by simpa using hb
        exact ⟨j, ⟨b, hbj, (held_rows hb).2⟩, Ne.symm hne, t, b, r, ht, hbj, hnx, hb⟩

/-! ## A deadlock -/

/-- Bob's devices changed and the client has not fetched it yet. They change again as the client makes a request: the poller updates the
row on Bob, the request locks the row of the device; now each needs the row of the other. -/
theorem C152_violated : ∃ js acts, OnePoller js ∧ Circle (run js acts) (fun i => i < 2) := by
  refine ⟨[.upsert "D" ["@bob"], .select "D" true true [] ["@bob"]], [.go 0, .go 1], ?_, ⟨0, by decide⟩, ?_⟩
  · intro i j d ts us hi hj
    match i, j with
    | 0, 0 => rfl
    | 0, 1 => simp at hj
    | 1, _ => simp at hi
    | 0, n + 2 => simp at hj
    | n + 2, _ => simp at hi
  · intro i hi
    match i, hi with
    | 0, _ => exact ⟨1, by decide, by decide, _, _, .data "D", rfl, rfl, by decide +kernel, by decide +kernel⟩
    | 1, _ => exact ⟨0, by decide, by decide, _, _, .list "D" "@bob" false, rfl, rfl, by decide +kernel, by decide +kernel⟩

/-! ## Examples -/

def exJobs : List Job :=
  [.upsert "D" ["@bob", "@eve"], .select "D" true true ["@bob"] ["@joe"], .select "D" true false ["@bob"] [], .upsert "E" ["@bob"]]

example : OnePoller exJobs ∧ Apart exJobs ∧ (run exJobs [.go 0, .go 1, .go 0, .go 0, .go 2]).map (·.n) = [2, 1, 0, 0] := by
  refine ⟨?_, ?_, by decide +kernel⟩
  · intro i j d ts us hi hj
    have hl := (List.getElem?_eq_some_iff.1 hi).1
    have hl' := (List.getElem?_eq_some_iff.1 hj).1
    have hl : i < 4 := hl
    have hl' : j < 4 := hl'
    have h4 : ∀ i < 4, ∀ j < 4, i ≠ j → ∀ x ∈ exJobs[i]?, ∀ y ∈ exJobs[j]?, (match x, y with
        | .upsert d _, .upsert e _ => decide (d ≠ e)
        | _, _ => true) = true := by decide
    apply Classical.byContradiction
    intro hne
    have := h4 i hl j hl' hne _ hi _ hj
    simp at this
  · intro d ts row old new h1 h2 t ht
    simp only [exJobs, List.mem_cons, Job.upsert.injEq, Job.select.injEq, reduceCtorEq, List.not_mem_nil, or_false, false_or] at h1 h2
    rcases h2 with ⟨rfl, _, _, _, rfl⟩ | ⟨_, _, h, _⟩
    · rcases h1 with ⟨_, rfl⟩ | ⟨h, _⟩
      · simp only [List.mem_cons, List.not_mem_nil, or_false] at ht
        rcases ht with rfl | rfl <;> decide
      · exact absurd h (by decide)
    · cases h

end Verif.RowLocks
