import Verif.ToDevice
/-!
# To-device messages: C34, C35
-/
namespace Verif.ToDevice

/-! ## Table facts -/

theorem number_mem {n : Nat} {ms : List Msg} {r : Row} (h : r ∈ number n ms) : n < r.pos ∧ r.pos ≤ n + ms.length := by
  induction ms generalizing n with
  | nil => simp [number] at h
  | cons m ms ih =>
    simp only [number, List.mem_cons] at h
    rcases h with rfl | h
    · simp
    · have := ih h; simp only [List.length_cons]; omega

private theorem number_sorted (n : Nat) (ms : List Msg) : (number n ms).Pairwise fun a b => a.pos < b.pos := by
  induction ms generalizing n with
  | nil => exact .nil
  | cons m ms ih =>
    refine .cons (fun r hr => ?_) (ih _)
    have := number_mem hr; simp only; omega

theorem number_msgs (n : Nat) (ms : List Msg) : (number n ms).map (·.msg) = ms := by
  induction ms generalizing n with
  | nil => rfl
  | cons m ms ih => simp [number, ih]

/-- Rows are stored in ascending order of position, up to the sequence. -/
def Sorted (s : State) : Prop :=
  s.rows.Pairwise (fun a b => a.pos < b.pos) ∧ ∀ r ∈ s.rows, 0 < r.pos ∧ r.pos ≤ s.seq

private theorem insert_sorted {s : State} (h : Sorted s) (k : Nat) (ms : List Msg) : Sorted (insert s k ms) := by
  refine ⟨?_, ?_⟩
  · refine List.pairwise_append.2 ⟨h.1.filter _, number_sorted _ _, fun a ha b hb => ?_⟩
    have := h.2 a (List.mem_filter.1 ha).1
    have := number_mem hb
    omega
  · intro r hr
    rcases List.mem_append.1 hr with hr | hr
    · have := h.2 r (List.mem_filter.1 hr).1
      simp only [insert]; omega
    · have := number_mem hr
      simp only [insert]; omega

private theorem request_rows (s : State) (p : Option Nat) (l : Nat) (r : Row) :
    r ∈ (request s p l).1.rows ↔ r ∈ s.rows ∧ ¬ (s.known = true ∧ ∃ q, p = some q ∧ r.pos ≤ q) := by
  unfold request
  cases hk : s.known
  · simp
  · cases p with
    | none => simp
    | some q => simp

theorem request_sorted {s : State} (h : Sorted s) (p : Option Nat) (l : Nat) : Sorted (request s p l).1 := by
  refine ⟨?_, fun r hr => ?_⟩
  · unfold request
    cases hk : s.known
    · exact h.1
    · cases p with
      | none => exact h.1
      | some q => exact h.1.filter _
  · have hseq : (request s p l).1.seq = s.seq := by
      unfold request; cases s.known <;> cases p <;> rfl
    rw [hseq]
    exact h.2 r ((request_rows s p l r).1 hr).1

theorem run_sorted (ops : List Op) : Sorted (run ops) := by
  have : ∀ (ops : List Op) (s : State), Sorted s → Sorted (ops.foldl step s) := by
    intro ops
    induction ops with
    | nil => exact fun _ h => h
    | cons o os ih =>
      intro s h
      refine ih _ ?_
      cases o with
      | insert k ms => exact insert_sorted h k ms
      | request p l => exact request_sorted h p l
      | known b => exact h
  exact this ops {} ⟨.nil, by simp⟩

/-- Where a request starts reading. -/
def start (s : State) (since : Option Nat) : Nat := if s.known then since.getD 0 else 0

private theorem take_sorted_mem {l : List Row} (h : l.Pairwise fun a b => a.pos < b.pos) (n : Nat) {r x : Row}
    (hr : r ∈ l) (hx : (l.take n).getLast? = some x) (hle : r.pos ≤ x.pos) : r ∈ l.take n := by
  have hs := List.take_append_drop n l
  rw [← hs] at hr
  rcases List.mem_append.1 hr with h' | h'
  · exact h'
  · rw [← hs] at h
    have := (List.pairwise_append.1 h).2.2 x (List.mem_of_getLast? hx) r h'
    omega

theorem messages_spec {s : State} (h : s.rows.Pairwise fun a b => a.pos < b.pos) (p l : Nat) :
    (messages s p l).1.Pairwise (fun a b => a.pos < b.pos) ∧
    (∀ r, r ∈ (messages s p l).1 ↔ r ∈ s.rows ∧ p < r.pos ∧ r.pos ≤ (messages s p l).2) ∧
    p ≤ (messages s p l).2 ∧ (0 < l → (messages s p l).1 = [] → ∀ r ∈ s.rows, r.pos ≤ p) := by
  have hf := h.filter (fun r => decide (r.pos > p))
  simp only [messages]
  generalize hF : s.rows.filter (fun r => decide (r.pos > p)) = F at hf
  have hmem : ∀ r, r ∈ F ↔ r ∈ s.rows ∧ p < r.pos := fun r => by rw [← hF]; simp
  have ht : (F.take l).Pairwise (fun a b => a.pos < b.pos) := hf.sublist (List.take_sublist _ _)
  cases hx : (F.take l).getLast? with
  | none =>
    have hnil : F.take l = [] := List.getLast?_eq_none_iff.1 hx
    refine ⟨ht, fun r => ?_, Nat.le_refl _, fun hl _ r hr => ?_⟩
    · rw [hnil]; simp only [List.not_mem_nil, false_iff]; omega
    · refine Classical.byContradiction fun hc => ?_
      have hr' : r ∈ F := (hmem r).2 ⟨hr, by omega⟩
      have hlen : (F.take l).length = 0 := by rw [hnil]; rfl
      have := List.length_pos_of_mem hr'
      rw [List.length_take] at hlen; omega
  | some x =>
    have hxm := List.mem_of_getLast? hx
    have hxF := (hmem x).1 (List.mem_of_mem_take hxm)
    refine ⟨ht, fun r => ?_, by simp only; omega, fun hl hn => ?_⟩
    · constructor
      · intro hr
        have := (hmem r).1 (List.mem_of_mem_take hr)
        refine ⟨this.1, this.2, ?_⟩
        simp only
        have hlast : ∃ ys, F.take l = ys ++ [x] := by
          obtain ⟨ys, hy⟩ := List.getLast?_eq_some_iff.1 hx
          exact ⟨ys, hy⟩
        obtain ⟨ys, hy⟩ := hlast
        rw [hy] at hr ht
        rcases List.mem_append.1 hr with h' | h'
        · have := (List.pairwise_append.1 ht).2.2 r h' x (by simp); omega
        · simp at h'; rw [h']; exact Nat.le_refl _
      · rintro ⟨h1, h2, h3⟩
        exact take_sorted_mem hf l ((hmem r).2 ⟨h1, h2⟩) hx h3
    · rw [hn] at hx; simp at hx

/-! ## C34 -/

/-- C34, one response: in any reachable state, the messages returned are in ascending order, and they are
exactly the stored messages after the starting point and up to `next_batch`: no gap.  Nothing is returned only
if nothing is waiting. -/
theorem C34_response (ops : List Op) (since : Option Nat) (limit : Nat) :
    let s := run ops
    let res := (request s since limit).2
    res.1.Pairwise (fun a b => a.pos < b.pos) ∧
    (∀ r, r ∈ res.1 ↔ r ∈ s.rows ∧ start s since < r.pos ∧ r.pos ≤ res.2) ∧
    start s since ≤ res.2 ∧
    (res.1 = [] → ∀ r ∈ s.rows, r.pos ≤ start s since) := by
  have hs := run_sorted ops
  simp only
  generalize run ops = s at hs
  have hl : 0 < (if limit = 0 then 100 else limit) := by split <;> omega
  unfold request start
  cases hk : s.known
  · simp only [Bool.false_eq_true, if_false, Option.getD_none]
    have := messages_spec hs.1 0 (if limit = 0 then 100 else limit)
    exact ⟨this.1, this.2.1, this.2.2.1, this.2.2.2 hl⟩
  · simp only [if_true]
    cases since with
    | none =>
      have := messages_spec hs.1 0 (if limit = 0 then 100 else limit)
      exact ⟨this.1, this.2.1, this.2.2.1, this.2.2.2 hl⟩
    | some q =>
      simp only [Option.getD_some]
      have := messages_spec (s := { s with rows := s.rows.filter fun r => !decide (r.pos ≤ q), known := true }) (hs.1.filter _) q
        (if limit = 0 then 100 else limit)
      refine ⟨this.1, fun r => ?_, this.2.2.1, fun hn r hr => ?_⟩
      · rw [this.2.1 r]
        simp only [List.mem_filter, Bool.not_eq_true', decide_eq_false_iff_not]
        constructor
        · rintro ⟨⟨h1, _⟩, h2⟩; exact ⟨h1, h2⟩
        · rintro ⟨h1, h2, h3⟩; exact ⟨⟨h1, by omega⟩, h2, h3⟩
      · refine Classical.byContradiction fun hc => hc (this.2.2.2 hl hn r ?_)
        simp only [List.mem_filter, Bool.not_eq_true', decide_eq_false_iff_not]
        exact ⟨hr, hc⟩

/-- C34, deletion, for any client: a stored message disappears in a step only if the client sent a `since` at
or beyond it, or a cancellation with its key came in while it was past the unacknowledged position. -/
theorem C34_deleted (s : State) (op : Op) (r : Row) (h : r ∈ s.rows) (hn : r ∉ (step s op).rows) :
    (∃ p l, op = .request (some p) l ∧ r.pos ≤ p) ∨
    (∃ k ms, op = .insert k ms ∧ s.unack < r.pos ∧ ∃ c ∈ ms, isCancel c = true ∧ key c = key r.msg ∧ key c ≠ none) := by
  cases op with
  | known b => exact absurd h hn
  | request p l =>
    have := mt (request_rows s p l r).2 hn
    refine Or.inl ?_
    have h' : s.known = true ∧ ∃ q, p = some q ∧ r.pos ≤ q := Classical.byContradiction fun hc => this ⟨h, hc⟩
    obtain ⟨_, q, rfl, hq⟩ := h'
    exact ⟨q, l, rfl, hq⟩
  | insert k ms =>
    refine Or.inr ⟨k, ms, rfl, ?_⟩
    have hc : isCancelled s (cancels ms) r = true := by
      refine Classical.byContradiction fun hc => hn (List.mem_append_left _ (List.mem_filter.2 ⟨h, ?_⟩))
      simpa using hc
    unfold isCancelled at hc
    split at hc
    · rename_i kk hkk
      simp only [Bool.and_eq_true, decide_eq_true_eq] at hc
      refine ⟨hc.2, ?_⟩
      obtain ⟨c, hcm, hck⟩ := List.mem_filterMap.1 hc.1
      rw [List.mem_filter] at hcm
      exact ⟨c, hcm.1, hcm.2, by rw [hck, hkk], by rw [hck]; simp⟩
    · cases hc

/-- Invariant of the system with a client. -/
structure Inv (s : Sys) : Prop where
  sorted : Sorted s.srv
  cur : s.cursor.getD 0 ≤ s.srv.seq
  ackedLe : s.acked ≤ s.srv.seq
  /-- what is stored at or before the client's position was received -/
  seen : ∀ r ∈ s.srv.rows, r.pos ≤ s.cursor.getD 0 → r ∈ s.got
  rowsLog : ∀ r ∈ s.srv.rows, r ∈ s.log
  acct : ∀ r ∈ s.log, r ∈ s.gone ∨ r ∈ s.srv.rows ∨ (r ∈ s.got ∧ r.pos ≤ s.acked)

private theorem insert_new (s : State) (hs : Sorted s) (k : Nat) (ms : List Msg) (r : Row) :
    r ∈ (insert s k ms).rows ↔ (r ∈ s.rows ∧ isCancelled s (cancels ms) r = false) ∨
      (r ∈ (insert s k ms).rows ∧ s.seq < r.pos) := by
  constructor
  · intro h
    rcases List.mem_append.1 h with h' | h'
    · left; simpa using List.mem_filter.1 h'
    · right; have := number_mem h'; exact ⟨h, by omega⟩
  · rintro (h | h)
    · exact List.mem_append_left _ (List.mem_filter.2 ⟨h.1, by simp [h.2]⟩)
    · exact h.1

theorem inv_step {s : Sys} (h : Inv s) (e : Ev) : Inv (sysStep s e) := by
  obtain ⟨h1, h2, h2', h3, h4, h5⟩ := h
  cases e with
  | known b => exact ⟨h1, h2, h2', h3, h4, h5⟩
  | forget =>
    refine ⟨h1, Nat.zero_le _, h2', fun r hr hp => ?_, h4, h5⟩
    have := h1.2 r hr
    simp only [sysStep, Option.getD_none] at hp; omega
  | insert k ms =>
    have hseq : s.srv.seq ≤ (insert s.srv k ms).seq := by simp only [insert]; omega
    refine ⟨insert_sorted h1 k ms, ?_, ?_, fun r hr hp => ?_, fun r hr => ?_, fun r hr => ?_⟩
    · simp only [sysStep]; omega
    · simp only [sysStep]; omega
    · rcases (insert_new _ h1 k ms r).1 hr with h' | h'
      · exact h3 r h'.1 hp
      · simp only [sysStep] at hp; omega
    · simp only [sysStep, List.mem_append, List.mem_filter, decide_eq_true_eq]
      rcases (insert_new _ h1 k ms r).1 hr with h' | h'
      · exact Or.inl (h4 r h'.1)
      · exact Or.inr h'
    · simp only [sysStep, List.mem_append, List.mem_filter, decide_eq_true_eq] at hr ⊢
      rcases hr with hr | hr
      · rcases h5 r hr with h' | h' | h'
        · exact Or.inl (Or.inl h')
        · cases hc : isCancelled s.srv (cancels ms) r
          · exact Or.inr (Or.inl ((insert_new _ h1 k ms r).2 (Or.inl ⟨h', hc⟩)))
          · exact Or.inl (Or.inr ⟨h', rfl⟩)
        · exact Or.inr (Or.inr h')
      · exact Or.inr (Or.inl hr.1)
  | poll l rec =>
    have hres : ∀ r ∈ (request s.srv s.cursor l).1.rows, r ∈ s.srv.rows := fun r hr => ((request_rows _ _ _ r).1 hr).1
    have hseq : (request s.srv s.cursor l).1.seq = s.srv.seq := by
      unfold request; cases s.srv.known <;> cases s.cursor <;> rfl
    have hacct : ∀ r ∈ s.log, r ∈ s.gone ∨ r ∈ (request s.srv s.cursor l).1.rows ∨
        (r ∈ s.got ∧ r.pos ≤ max s.acked (s.cursor.getD 0)) := by
      intro r hr
      rcases h5 r hr with h' | h' | h'
      · exact Or.inl h'
      · by_cases hk : s.srv.known = true ∧ ∃ q, s.cursor = some q ∧ r.pos ≤ q
        · obtain ⟨_, q, hq, hle⟩ := hk
          have hle' : r.pos ≤ s.cursor.getD 0 := by rw [hq]; exact hle
          exact Or.inr (Or.inr ⟨h3 r h' hle', by omega⟩)
        · exact Or.inr (Or.inl ((request_rows _ _ _ r).2 ⟨h', hk⟩))
      · exact Or.inr (Or.inr ⟨h'.1, by omega⟩)
    have hack : max s.acked (s.cursor.getD 0) ≤ (request s.srv s.cursor l).1.seq := by rw [hseq]; omega
    have hsort := request_sorted h1 s.cursor l
    cases rec with
    | false =>
      refine ⟨hsort, by simp only [sysStep, Bool.false_eq_true, if_false]; omega, hack, fun r hr hp => ?_, fun r hr => ?_, hacct⟩
      · exact h3 r (hres r hr) hp
      · exact h4 r (hres r hr)
    | true =>
      -- the messages are read from the table left by the request
      have hm : ∃ l' p, (request s.srv s.cursor l).2 = messages (request s.srv s.cursor l).1 p l' ∧
          (∀ r ∈ (request s.srv s.cursor l).1.rows, p < r.pos) ∧ p ≤ s.srv.seq := by
        refine ⟨if l = 0 then 100 else l, if s.srv.known then s.cursor.getD 0 else 0, ?_, ?_, ?_⟩
        · unfold request; cases s.srv.known <;> cases s.cursor <;> rfl
        · intro r hr
          have h0 := h1.2 r (hres r hr)
          have := ((request_rows _ _ _ r).1 hr).2
          split
          · rename_i hk
            cases hc : s.cursor with
            | none => simp only [Option.getD_none]; omega
            | some q =>
              simp only [Option.getD_some]
              refine Nat.lt_of_not_le fun hle => this ⟨hk, q, hc, hle⟩
          · omega
        · split <;> omega
      obtain ⟨l', p, hm, hp, hpseq⟩ := hm
      have spec := messages_spec hsort.1 p l'
      rw [← hm] at spec
      refine ⟨hsort, ?_, hack, fun r hr hle => ?_, fun r hr => h4 r (hres r hr), ?_⟩
      · show (request s.srv s.cursor l).2.2 ≤ _
        simp only [sysStep, if_true, hseq]
        rw [hm]; simp only [messages]
        split
        · rename_i x hx
          have hx' := List.mem_filter.1 (List.mem_of_mem_take (List.mem_of_getLast? hx))
          have := (hsort.2 x hx'.1).2
          omega
        · exact hpseq
      · refine List.mem_append_right _ ?_
        exact (spec.2.1 r).2 ⟨hr, hp r hr, hle⟩
      · intro r hr
        rcases hacct r hr with h' | h' | h'
        · exact Or.inl h'
        · exact Or.inr (Or.inl h')
        · exact Or.inr (Or.inr ⟨List.mem_append_left _ h'.1, h'.2⟩)

theorem inv_run (evs : List Ev) (s : Sys) (h : Inv s) : Inv (sysRun s evs) := by
  induction evs generalizing s with
  | nil => exact h
  | cons e es ih => exact ih _ (inv_step h e)

theorem inv_init : Inv {} := ⟨⟨.nil, by simp⟩, Nat.le_refl _, Nat.le_refl _, by simp, by simp, by simp⟩

/-- C34, at least once: whatever the interleaving of insertions, polls, lost responses, proxy restarts and
client resets, every stored message was received, or was cancelled, or is still stored beyond the client's
position. -/
theorem C34_never_lost (evs : List Ev) (r : Row) :
    let s := sysRun {} evs
    r ∈ s.log → r ∈ s.got ∨ r ∈ s.gone ∨ (r ∈ s.srv.rows ∧ s.cursor.getD 0 < r.pos) := by
  intro s hr
  have h := inv_run evs {} inv_init
  rcases h.acct r hr with h' | h' | h'
  · exact Or.inr (Or.inl h')
  · by_cases hp : r.pos ≤ s.cursor.getD 0
    · exact Or.inl (h.seen r h' hp)
    · exact Or.inr (Or.inr ⟨h', by omega⟩)
  · exact Or.inl h'.1

/-- C34, kept until acknowledged: a message beyond every `since` the client has sent is still stored unless it
was cancelled. -/
theorem C34_kept (evs : List Ev) (r : Row) :
    let s := sysRun {} evs
    r ∈ s.log → s.acked < r.pos → r ∈ s.gone ∨ r ∈ s.srv.rows := by
  intro s hr ha
  rcases (inv_run evs {} inv_init).acct r hr with h' | h' | h'
  · exact Or.inl h'
  · exact Or.inr h'
  · have : r.pos ≤ s.acked := h'.2
    omega

/-- Messages waiting for the client. -/
def waiting (s : Sys) : List Row := s.srv.rows.filter fun r => s.cursor.getD 0 < r.pos

private theorem poll_progress {s : Sys} (h : Inv s) (l : Nat) :
    (s.srv.known = true → (waiting (sysStep s (.poll l true))).length ≤ (waiting s).length - 1) ∧
    (waiting (sysStep s (.poll l true))).length ≤ s.srv.rows.length - 1 ∧
    (sysStep s (.poll l true)).srv.known = true := by
  have hknown : (sysStep s (.poll l true)).srv.known = true := by
    simp only [sysStep, if_true]; unfold request; rfl
  -- rows after, waiting: beyond next_batch
  have hseqp : ∃ p l', 0 < l' ∧ p = (if s.srv.known then s.cursor.getD 0 else 0) ∧
      (request s.srv s.cursor l).2 = messages (request s.srv s.cursor l).1 p l' := by
    refine ⟨_, if l = 0 then 100 else l, by split <;> omega, rfl, ?_⟩
    unfold request; cases s.srv.known <;> cases s.cursor <;> rfl
  obtain ⟨p, l', hl', hp, hm⟩ := hseqp
  have hsort := request_sorted h.sorted s.cursor l
  have spec := messages_spec hsort.1 p l'
  rw [← hm] at spec
  have hw : waiting (sysStep s (.poll l true)) =
      (request s.srv s.cursor l).1.rows.filter fun r => (request s.srv s.cursor l).2.2 < r.pos := by
    simp [waiting, sysStep]
  have hrows : (request s.srv s.cursor l).1.rows.Sublist s.srv.rows := by
    unfold request; cases s.srv.known <;> cases s.cursor <;> first | exact List.Sublist.refl _ | exact List.filter_sublist
  -- rows beyond p before the request
  have hbefore : (request s.srv s.cursor l).1.rows.filter (fun r => decide (p < r.pos)) = s.srv.rows.filter fun r => decide (p < r.pos) := by
    unfold request
    cases hk : s.srv.known
    · rfl
    · cases hc : s.cursor with
      | none => rfl
      | some q =>
        simp only [hk, hc, if_true, Option.getD_some] at hp
        subst hp
        simp only [if_true, List.filter_filter]
        refine List.filter_congr fun r _ => ?_
        by_cases hlt : p < r.pos <;> simp [hlt, Nat.not_le]
  have hle : (waiting (sysStep s (.poll l true))).length ≤ (s.srv.rows.filter fun r => decide (p < r.pos)).length - 1 := by
    rw [hw, ← hbefore]
    by_cases hnil : (request s.srv s.cursor l).2.1 = []
    · have := spec.2.2.2 hl' hnil
      have hz : ((request s.srv s.cursor l).1.rows.filter fun r => decide ((request s.srv s.cursor l).2.2 < r.pos)) = [] := by
        refine List.filter_eq_nil_iff.2 fun r hr => ?_
        have := this r hr
        have := spec.2.2.1
        simp only [decide_eq_true_eq]; omega
      rw [hz]; simp
    · obtain ⟨x, xs, hx⟩ := List.exists_cons_of_ne_nil hnil
      have hxm := (spec.2.1 x).1 (by rw [hx]; simp)
      -- split off x
      have hsub : ((request s.srv s.cursor l).1.rows.filter fun r => decide ((request s.srv s.cursor l).2.2 < r.pos)).Sublist
          (((request s.srv s.cursor l).1.rows.filter fun r => decide (p < r.pos)).filter
            fun r => decide ((request s.srv s.cursor l).2.2 < r.pos)) := by
        rw [List.filter_filter]
        refine (List.filter_congr fun r _ => ?_ : _ = _) ▸ List.Sublist.refl _
        have := spec.2.2.1
        by_cases hlt : (request s.srv s.cursor l).2.2 < r.pos
        · have : p < r.pos := by omega
          simp [hlt, this]
        · simp [hlt]
      refine Nat.le_trans hsub.length_le ?_
      refine Nat.le_sub_one_of_lt (Nat.lt_of_le_of_ne (List.length_filter_le _ _) fun he => ?_)
      have := List.filter_sublist.eq_of_length he
      have hxin : x ∈ (request s.srv s.cursor l).1.rows.filter fun r => decide (p < r.pos) :=
        List.mem_filter.2 ⟨hxm.1, by simpa using hxm.2.1⟩
      rw [← this, List.mem_filter] at hxin
      simp only [decide_eq_true_eq] at hxin
      omega
  refine ⟨fun hk => ?_, ?_, hknown⟩
  · simp only [hk, if_true] at hp
    subst hp; exact hle
  · refine Nat.le_trans hle ?_
    have := List.length_filter_le (fun r => decide (p < r.pos)) s.srv.rows
    omega

private theorem polls_drain (ls : List Nat) : ∀ s : Sys, Inv s → s.srv.known = true → (waiting s).length ≤ ls.length →
    waiting (sysRun s (ls.map fun l => .poll l true)) = [] := by
  induction ls with
  | nil => intro s _ _ hl; exact List.length_eq_zero_iff.1 (Nat.le_zero.1 hl)
  | cons l ls ih =>
    intro s h hk hl
    have hp := poll_progress h l
    refine ih _ (inv_step h _) hp.2.2 ?_
    simp only [List.length_cons] at hl
    exact Nat.le_trans (hp.1 hk) (Nat.sub_le_of_le_add hl)

/-- C34, eventually: after any history, as many received polls as there are stored messages (whatever the
limits) hand the client everything: each message ever stored was then received or cancelled. -/
theorem C34_eventually (evs : List Ev) (ls : List Nat) (hl : (sysRun {} evs).srv.rows.length ≤ ls.length) (r : Row)
    (hr : r ∈ (sysRun {} evs).log) :
    let s := sysRun {} (evs ++ ls.map fun l => .poll l true)
    r ∈ s.got ∨ r ∈ s.gone := by
  intro s
  have hrun : s = sysRun (sysRun {} evs) (ls.map fun l => .poll l true) := by simp [s, sysRun]
  have hinv := inv_run evs {} inv_init
  have hinv' : Inv s := inv_run _ {} inv_init
  have hlog : s.log = (sysRun {} evs).log := by
    rw [hrun]
    generalize sysRun {} evs = t
    clear hl hr hrun hinv hinv' s
    induction ls generalizing t with
    | nil => rfl
    | cons l ls ih =>
      show (sysRun (sysStep t (.poll l true)) _).log = t.log
      rw [ih]; simp [sysStep]
  have hwait : waiting s = [] := by
    cases ls with
    | nil =>
      have hnil : (sysRun {} evs).srv.rows = [] := List.length_eq_zero_iff.1 (by simpa using hl)
      have : s = sysRun {} evs := hrun
      rw [this]; simp [waiting, hnil]
    | cons l ls =>
      rw [hrun]
      have hp := poll_progress hinv l
      refine polls_drain ls _ (inv_step hinv _) hp.2.2 ?_
      simp only [List.length_cons] at hl
      exact Nat.le_trans hp.2.1 (Nat.sub_le_of_le_add hl)
  rcases hinv'.acct r (by rw [hlog]; exact hr) with h' | h' | h'
  · exact Or.inr h'
  · by_cases hp : r.pos ≤ s.cursor.getD 0
    · exact Or.inl (hinv'.seen r h' hp)
    · have : r ∈ waiting s := List.mem_filter.2 ⟨h', by simp only [decide_eq_true_eq]; omega⟩
      rw [hwait] at this; simp at this
  · exact Or.inl h'.1

/-- C34, order: without restarts and resets the client receives the messages in storage order, each once, even
if responses are lost in between. -/
theorem C34_in_order (evs : List Ev) (h : ∀ e ∈ evs, (∃ k ms, e = .insert k ms) ∨ ∃ l b, e = .poll l b) :
    (sysRun {} evs).got.Pairwise fun a b => a.pos < b.pos := by
  have key : ∀ (evs : List Ev) (s : Sys), (∀ e ∈ evs, (∃ k ms, e = .insert k ms) ∨ ∃ l b, e = .poll l b) → Inv s →
      (s.cursor ≠ none → s.srv.known = true) → (∀ r ∈ s.got, r.pos ≤ s.cursor.getD 0) →
      s.got.Pairwise (fun a b => a.pos < b.pos) → (sysRun s evs).got.Pairwise fun a b => a.pos < b.pos := by
    intro evs
    induction evs with
    | nil => exact fun _ _ _ _ _ h => h
    | cons e es ih =>
      intro s hev hi hk hg hp
      refine ih _ (fun x hx => hev x (by simp [hx])) (inv_step hi e) ?_ ?_ ?_
      all_goals
        rcases hev e (by simp) with ⟨k, ms, rfl⟩ | ⟨l, b, rfl⟩
      · exact hk
      · intro _; cases b <;> rfl
      · exact hg
      · cases b with
        | false => exact hg
        | true =>
          have hspec : ∃ p l', p = s.cursor.getD 0 ∧ (request s.srv s.cursor l).2 = messages (request s.srv s.cursor l).1 p l' := by
            refine ⟨_, if l = 0 then 100 else l, rfl, ?_⟩
            unfold request
            cases hc : s.cursor with
            | none => cases s.srv.known <;> rfl
            | some q => rw [hk (by simp [hc])]; rfl
          obtain ⟨p, l', rfl, hm⟩ := hspec
          have spec := messages_spec (request_sorted hi.sorted s.cursor l).1 (s.cursor.getD 0) l'
          rw [← hm] at spec
          intro r hr
          show r.pos ≤ (request s.srv s.cursor l).2.2
          rcases List.mem_append.1 hr with h' | h'
          · exact Nat.le_trans (hg r h') spec.2.2.1
          · exact ((spec.2.1 r).1 h').2.2
      · exact hp
      · cases b with
        | false => exact hp
        | true =>
          have hspec : ∃ p l', p = s.cursor.getD 0 ∧ (request s.srv s.cursor l).2 = messages (request s.srv s.cursor l).1 p l' := by
            refine ⟨_, if l = 0 then 100 else l, rfl, ?_⟩
            unfold request
            cases hc : s.cursor with
            | none => cases s.srv.known <;> rfl
            | some q => rw [hk (by simp [hc])]; rfl
          obtain ⟨p, l', rfl, hm⟩ := hspec
          have spec := messages_spec (request_sorted hi.sorted s.cursor l).1 (s.cursor.getD 0) l'
          rw [← hm] at spec
          refine List.pairwise_append.2 ⟨hp, spec.1, fun a ha b hb => ?_⟩
          have := hg a ha
          have := ((spec.2.1 b).1 hb).2.1
          omega
  exact key evs {} h inv_init (by simp) (by simp) .nil

private def m (b : String) : Msg := { type := "m.room.encrypted", body := b }
private def kreq (i : String) : Msg := { type := "m.room_key_request", sender := "@a", action := "request", reqDevice := "D", reqId := i }
private def kcan (i : String) : Msg := { type := "m.room_key_request", sender := "@a", action := "request_cancellation", reqDevice := "D", reqId := i }

/-- Five messages, one response lost, a restart: everything arrives. -/
example : let s := sysRun {} [.insert 0 [m "1", m "2", m "3"], .poll 2 true, .insert 4 [m "4"], .poll 2 false, .known false,
      .insert 0 [m "5"], .poll 3 true, .poll 0 true]
    (s.got.map (·.msg.body) = ["1", "2", "3", "4", "5"]) ∧ s.srv.rows.length = 0 := by decide +kernel

/-- C34 is violated in its last clause: after a restart the unacknowledged position moves back, and a message
the client has received, but not acknowledged, is deleted by a cancellation that is then never delivered. -/
theorem C34_violated_resend :
    let s := sysRun {} [.insert 0 [m "1", kreq "k"], .poll 2 true, .known false, .poll 1 true, .insert 0 [kcan "k"], .poll 0 true]
    (⟨2, kreq "k"⟩ ∈ s.got ∧ (⟨2, kreq "k"⟩ : Row) ∈ s.gone) ∧ (∀ r ∈ s.got, isCancel r.msg = false) ∧ s.srv.rows = [] := by
  decide +kernel

/-! ## C35 -/

/-- C35, order and others: an insertion removes some rows, and appends some of the batch in its order; messages
that are not key requests are neither removed nor dropped. -/
theorem C35_others (s : State) (k : Nat) (ms : List Msg) :
    let s' := insert s k ms
    ∃ old new, s'.rows = old ++ new ∧ old.Sublist s.rows ∧ (new.map (·.msg)).Sublist ms ∧
      (old.filter fun r => r.msg.type ≠ "m.room_key_request") = (s.rows.filter fun r => r.msg.type ≠ "m.room_key_request") ∧
      ((new.map (·.msg)).filter fun x => x.type ≠ "m.room_key_request") = ms.filter fun x => x.type ≠ "m.room_key_request" := by
  refine ⟨_, _, rfl, List.filter_sublist, ?_, ?_, ?_⟩
  · rw [number_msgs]; split
    · exact List.filter_sublist
    · exact List.Sublist.refl _
  · rw [List.filter_filter]
    refine List.filter_congr fun r _ => ?_
    by_cases h : r.msg.type = "m.room_key_request"
    · simp [h]
    · simp [h, isCancelled, key]
  · rw [number_msgs]; split
    · rw [List.filter_filter]
      refine List.filter_congr fun x _ => ?_
      by_cases h : x.type = "m.room_key_request"
      · simp [h]
      · simp [h, keep, key]
    · rfl

/-- C35: without a cancellation in the batch everything is stored. -/
theorem C35_no_cancel (s : State) (k : Nat) (ms : List Msg) (h : ∀ x ∈ ms, isCancel x = false) :
    ∃ new, (insert s k ms).rows = s.rows ++ new ∧ new.map (·.msg) = ms := by
  have hc : cancels ms = [] := by
    unfold cancels
    have : ms.filter isCancel = [] := List.filter_eq_nil_iff.2 fun x hx => by simp [h x hx]
    rw [this]; rfl
  refine ⟨number (s.seq + k) ms, ?_, number_msgs _ _⟩
  simp only [insert, hc, List.length_nil, Nat.lt_irrefl, if_false, gt_iff_lt]
  congr 1
  refine List.filter_eq_self.2 fun r _ => ?_
  simp only [isCancelled]; split <;> simp

/-- C35: rows at or before the unacknowledged position stay. -/
theorem C35_seen_kept (s : State) (k : Nat) (ms : List Msg) (r : Row) (h : r ∈ s.rows) (hu : r.pos ≤ s.unack) :
    r ∈ (insert s k ms).rows := by
  refine List.mem_append_left _ (List.mem_filter.2 ⟨h, ?_⟩)
  unfold isCancelled
  split
  · have : ¬ r.pos > s.unack := by omega
    simp [this]
  · rfl

/-- C35 (partial: no other key request message with the same key waits unsent or comes in the same batch as a
request): the cancellation is stored, so it will be delivered. -/
theorem C35_delivered_partial (s : State) (k : Nat) (ms : List Msg) (c : Msg) (hc : c ∈ ms) (hcan : isCancel c = true)
    (hdb : ∀ r ∈ s.rows, key r.msg = key c → r.pos ≤ s.unack)
    (hreq : ∀ x ∈ ms, key x = key c → isRequest x = false) :
    ∃ r ∈ (insert s k ms).rows, r.msg = c ∧ s.seq < r.pos := by
  have hpos : (cancels ms).length > 0 := by
    have hk : ∃ kk, key c = some kk := by
      unfold isCancel at hcan; simp only [Bool.and_eq_true, decide_eq_true_eq] at hcan
      exact ⟨_, by rw [key, if_pos hcan.1]⟩
    obtain ⟨kk, hk⟩ := hk
    exact List.length_pos_of_mem (List.mem_filterMap.2 ⟨c, List.mem_filter.2 ⟨hc, hcan⟩, hk⟩)
  have hkeep : keep ((s.rows.filter (isCancelled s (cancels ms))).filterMap fun r => key r.msg) (requests ms) (cancels ms) c = true := by
    unfold keep
    split
    · rfl
    · rename_i kk hk
      have h1 : kk ∉ (s.rows.filter (isCancelled s (cancels ms))).filterMap fun r => key r.msg := by
        intro hm
        obtain ⟨r, hr, hrk⟩ := List.mem_filterMap.1 hm
        rw [List.mem_filter] at hr
        have hle := hdb r hr.1 (by rw [hrk, hk])
        have := hr.2
        simp only [isCancelled, hrk, Bool.and_eq_true, decide_eq_true_eq] at this
        omega
      have h2 : kk ∉ requests ms := by
        intro hm
        obtain ⟨x, hx, hxk⟩ := List.mem_filterMap.1 hm
        rw [List.mem_filter] at hx
        have := hreq x hx.1 (by rw [hxk, hk])
        rw [hx.2] at this; cases this
      simp [h1, h2]
  have hin : c ∈ (number (s.seq + k) (if (cancels ms).length > 0 then ms.filter (keep
      ((s.rows.filter (isCancelled s (cancels ms))).filterMap fun r => key r.msg) (requests ms) (cancels ms)) else ms)).map (·.msg) := by
    rw [number_msgs, if_pos hpos]; exact List.mem_filter.2 ⟨hc, hkeep⟩
  obtain ⟨r, hr, hrm⟩ := List.mem_map.1 hin
  exact ⟨r, List.mem_append_right _ hr, hrm, by have := number_mem hr; omega⟩

/-- A request already sent is cancelled: the cancellation is stored. -/
example : (run [.insert 0 [kreq "k"], .request none 0, .insert 0 [m "x", kcan "k"]]).rows.map (·.msg) = [kreq "k", m "x", kcan "k"] := by
  decide +kernel

/-- C35 is violated: the client has seen the request; its cancellation is repeated by the sender, which deletes
the first cancellation and drops the second.  (The `DELETE` does not look at the action.) -/
theorem C35_violated_twice :
    (run [.insert 0 [kreq "k"], .request none 0, .insert 0 [kcan "k"], .insert 0 [kcan "k"]]).rows = [⟨1, kreq "k"⟩] := by
  decide +kernel

/-- C35 is violated: the client has seen the request; a repeated request and the cancellation come in one batch
and both are dropped. -/
theorem C35_violated_batch :
    (run [.insert 0 [kreq "k"], .request none 0, .insert 0 [kreq "k", kcan "k"]]).rows = [⟨1, kreq "k"⟩] := by decide +kernel

/-- C35 is violated: in a batch a request that comes after the cancellation is dropped. -/
theorem C35_violated_reorder : (run [.insert 0 [kcan "k", kreq "k"]]).rows = [] := by decide +kernel

/-- C35 is violated: the key does not separate its parts, so a user's cancellation removes the request of
another user. -/
theorem C35_violated_ambiguous :
    (run [.insert 0 [{ type := "m.room_key_request", sender := "@a:h", action := "request", reqDevice := "b-c", reqId := "1" }],
      .insert 0 [{ type := "m.room_key_request", sender := "@a:h-b", action := "request_cancellation", reqDevice := "c", reqId := "1" }]]).rows
      = [] := by decide +kernel

/-! ### When the key does separate its parts -/

/-- The request `x` and the cancellation `c` are of the same user, device and request. -/
def Cancels (c x : Msg) : Prop :=
  c.type = "m.room_key_request" ∧ c.action = "request_cancellation" ∧ x.type = "m.room_key_request" ∧
    c.sender = x.sender ∧ c.reqDevice = x.reqDevice ∧ c.reqId = x.reqId

/-- No hyphen in the user and device identifiers. -/
def Plain (x : Msg) : Prop := '-' ∉ x.sender.toList ∧ '-' ∉ x.reqDevice.toList

theorem split_dash {a b x y : List Char} (ha : '-' ∉ a) (hb : '-' ∉ b) (h : a ++ '-' :: x = b ++ '-' :: y) :
    a = b ∧ x = y := by
  induction a generalizing b with
  | nil =>
    cases b with
    | nil => exact ⟨rfl, by simpa using h⟩
    | cons c b =>
      simp only [List.nil_append, List.cons_append, List.cons.injEq] at h
      exact absurd (h.1 ▸ List.mem_cons_self) hb
  | cons d a ih =>
    cases b with
    | nil =>
      simp only [List.nil_append, List.cons_append, List.cons.injEq] at h
      exact absurd (h.1 ▸ List.mem_cons_self) ha
    | cons c b =>
      simp only [List.cons_append, List.cons.injEq] at h
      obtain ⟨h1, h2⟩ := ih (fun hm => ha (List.mem_cons_of_mem _ hm)) (fun hm => hb (List.mem_cons_of_mem _ hm)) h.2
      exact ⟨by rw [h.1, h1], h2⟩

theorem key_plain {c x : Msg} {k : String} (hc : key c = some k) (hx : key x = some k) (pc : Plain c) (px : Plain x) :
    c.sender = x.sender ∧ c.reqDevice = x.reqDevice ∧ c.reqId = x.reqId := by
  unfold key at hc hx
  split at hc
  · split at hx
    · rename_i h1 h2
      have h := Option.some.inj (hc.trans hx.symm)
      rw [h1, h2] at h
      have h := congrArg String.toList h
      simp only [String.toList_append, List.append_assoc] at h
      have h := List.append_cancel_left h
      have d : "-".toList = ['-'] := by decide +kernel
      simp only [d, List.singleton_append, List.cons.injEq, true_and] at h
      obtain ⟨e1, h⟩ := split_dash pc.1 px.1 h
      obtain ⟨e2, h⟩ := split_dash pc.2 px.2 h
      exact ⟨String.toList_inj.1 e1, String.toList_inj.1 e2, String.toList_inj.1 h⟩
    · cases hx
  · cases hc

theorem cancels_of_key {ms : List Msg} {x : Msg} {k : String} (hx : key x = some k) (hk : k ∈ cancels ms) (px : Plain x)
    (hp : ∀ c ∈ ms, Plain c) : ∃ c ∈ ms, Cancels c x := by
  obtain ⟨c, hc, hck⟩ := List.mem_filterMap.1 hk
  obtain ⟨hcm, hcc⟩ := List.mem_filter.1 hc
  simp only [isCancel, Bool.and_eq_true, decide_eq_true_eq] at hcc
  have hxt : x.type = "m.room_key_request" := by
    unfold key at hx; split at hx
    · assumption
    · cases hx
  exact ⟨c, hcm, hcc.1, hcc.2, hxt, key_plain hck hx (hp c hcm) px⟩

/-- C35 (partial: user and device identifiers without a hyphen, see `C35_violated_ambiguous`): a stored message is
removed only by a cancellation in the batch of the same user, device and request, and only if it lies beyond what the
client was sent. -/
theorem C35_removed_partial (s : State) (k : Nat) (ms : List Msg) (r : Row) (h : r ∈ s.rows) (hr : Plain r.msg)
    (hp : ∀ c ∈ ms, Plain c) (hgone : r ∉ (insert s k ms).rows) :
    s.unack < r.pos ∧ ∃ c ∈ ms, Cancels c r.msg := by
  have hc : isCancelled s (cancels ms) r = true := by
    by_cases hc : isCancelled s (cancels ms) r = true
    · exact hc
    · exact absurd (List.mem_append_left _ (List.mem_filter.2 ⟨h, by simp [hc]⟩)) hgone
  unfold isCancelled at hc
  split at hc
  · rename_i kk hk
    simp only [Bool.and_eq_true, decide_eq_true_eq] at hc
    exact ⟨hc.2, cancels_of_key hk hc.1 hr hp⟩
  · cases hc

/-- C35 (partial: user and device identifiers without a hyphen): a message of the batch is left out only if the batch
has a cancellation of the same user, device and request. -/
theorem C35_dropped_partial (s : State) (k : Nat) (ms : List Msg) (x : Msg) (h : x ∈ ms)
    (hp : ∀ c ∈ ms, Plain c) (hgone : ∀ r ∈ (insert s k ms).rows, s.seq < r.pos → r.msg ≠ x) :
    ∃ c ∈ ms, Cancels c x := by
  have hnum : ∀ (n : Nat) (l : List Msg), x ∈ l → ∃ r ∈ number n l, n < r.pos ∧ r.msg = x := by
    intro n l
    induction l generalizing n with
    | nil => intro h; cases h
    | cons a l ih =>
      intro h
      rcases List.mem_cons.1 h with rfl | h
      · exact ⟨_, List.mem_cons_self, Nat.lt_succ_self n, rfl⟩
      · obtain ⟨r, hr, hn, e⟩ := ih (n + 1) h
        exact ⟨r, List.mem_cons_of_mem _ hr, by omega, e⟩
  have hout : ∀ l : List Msg, (insert s k ms).rows = (s.rows.filter fun r => !isCancelled s (cancels ms) r) ++ number (s.seq + k) l → x ∉ l := by
    intro l e hm
    obtain ⟨r, hr, hn, hx⟩ := hnum (s.seq + k) l hm
    exact hgone r (e ▸ List.mem_append_right _ hr) (by omega) hx
  have hno := hout _ rfl
  split at hno
  · have hk : keep ((s.rows.filter (isCancelled s (cancels ms))).filterMap fun r => key r.msg) (requests ms) (cancels ms) x ≠ true :=
      fun hk => hno (List.mem_filter.2 ⟨h, hk⟩)
    unfold keep at hk
    split at hk
    · exact absurd rfl hk
    · rename_i kk hkk
      refine cancels_of_key hkk ?_ (hp x h) hp
      by_cases hcs : kk ∈ cancels ms
      · exact hcs
      · have hin : kk ∈ (s.rows.filter (isCancelled s (cancels ms))).filterMap fun r => key r.msg := by
          by_cases hin : kk ∈ (s.rows.filter (isCancelled s (cancels ms))).filterMap fun r => key r.msg
          · exact hin
          · simp [hin, hcs] at hk
        obtain ⟨r, hr, hrk⟩ := List.mem_filterMap.1 hin
        have := (List.mem_filter.1 hr).2
        simp only [isCancelled, hrk, Bool.and_eq_true, decide_eq_true_eq] at this
        exact this.1
  · exact absurd h hno

/-- The hypotheses of both are met: a waiting request is removed by its cancellation, which is left out. -/
example : Plain (kreq "k") ∧ Plain (kcan "k") ∧ (run [.insert 0 [kreq "k"]]).rows = [⟨1, kreq "k"⟩] ∧
    (insert (run [.insert 0 [kreq "k"]]) 0 [kcan "k"]).rows = [] := by
  refine ⟨⟨?_, ?_⟩, ⟨?_, ?_⟩, ?_, ?_⟩ <;> decide +kernel

end Verif.ToDevice
