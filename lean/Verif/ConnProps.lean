import Verif.Conn
/-! # C15-C18: positions and retries of one connection -/
namespace Verif.Conn

variable {β ρ : Type _} [DecidableEq β]

/-- The positions in the buffer are consecutive. -/
def Consec : Int → List (Resp ρ) → Prop
  | _, [] => True
  | p, r :: rs => r.pos = p ∧ Consec (p + 1) rs

/-- Invariant of reachable connections: buffered positions are consecutive and
end in `lastPos`; the buffer is empty only before the first response; the last
request used an earlier position. -/
structure Inv (s : State β ρ) : Prop where
  nonneg : 0 ≤ s.last.pos
  consec : Consec (s.lastPos - s.buf.length + 1) s.buf
  start : 0 ≤ s.lastPos - s.buf.length
  last : s.last.pos < s.lastPos ∨ (s.lastPos = 0 ∧ s.last.pos = 0)
  ne : s.lastPos ≠ 0 → s.buf ≠ []

theorem consec_pos {p : Int} {l : List (Resp ρ)} (h : Consec p l) :
    ∀ r ∈ l, p ≤ r.pos ∧ r.pos < p + l.length := by
  induction l generalizing p with
  | nil => simp
  | cons x l ih =>
    obtain ⟨h1, h2⟩ := h
    intro r hr
    simp only [List.length_cons]
    rcases List.mem_cons.1 hr with rfl | hr
    · omega
    · have := ih h2 r hr; omega

theorem consec_append {p : Int} {l : List (Resp ρ)} (h : Consec p l) (x : Resp ρ)
    (hx : x.pos = p + l.length) : Consec p (l ++ [x]) := by
  induction l generalizing p with
  | nil => simp [Consec]; simpa using hx
  | cons y l ih =>
    obtain ⟨h1, h2⟩ := h
    refine ⟨h1, ih h2 ?_⟩
    simp only [List.length_cons] at hx
    omega

theorem consec_drop {p : Int} {l : List (Resp ρ)} (h : Consec p l) (n : Nat) :
    Consec (p + n) (l.drop n) := by
  induction n generalizing p l with
  | zero => simpa using h
  | succ n ih =>
    cases l with
    | nil => simp [Consec]
    | cons x l =>
      have := ih h.2
      simp only [List.drop_succ_cons]
      rw [show p + ((n + 1 : Nat) : Int) = p + 1 + n by omega]
      exact this

/-- What the purge loop computes on a consecutive buffer. -/
theorem scan_consec (pos : Int) : ∀ (l : List (Resp ρ)) (i del : Nat) (p : Int), Consec p l → del ≤ i →
    (pos > p → del = i) →
    ∃ d n, scan pos i del l = (d, n) ∧
      (∃ k, d = (if pos > p then i + k else del) ∧ k ≤ l.length ∧ (pos > p → (k : Int) = min (pos - p) l.length)) ∧
      n = l.find? fun r => decide (pos < r.pos) := by
  intro l
  induction l with
  | nil =>
    intro i del p _ _ hd
    refine ⟨del, none, rfl, ⟨0, ?_, by simp, fun h => by simp; omega⟩, rfl⟩
    split
    · exact hd ‹_›
    · rfl
  | cons x l ih =>
    intro i del p hc hdi hd
    obtain ⟨h1, h2⟩ := hc
    simp only [scan]
    by_cases hgt : pos > x.pos
    · rw [if_pos hgt]
      obtain ⟨d, n, e1, ⟨k, e2, e3, e4⟩, e5⟩ := ih (i + 1) (i + 1) (p + 1) h2 (by omega) (by omega)
      refine ⟨d, n, e1, ?_, ?_⟩
      · by_cases hp : pos > p + 1
        · rw [if_pos hp] at e2
          have := e4 hp
          exact ⟨k + 1, by rw [if_pos (by omega)]; omega, by simp; omega, fun _ => by simp only [List.length_cons]; omega⟩
        · rw [if_neg hp] at e2
          exact ⟨1, by rw [if_pos (by omega)]; omega, by simp, fun _ => by simp only [List.length_cons]; omega⟩
      · rw [e5, List.find?_cons]
        have : decide (pos < x.pos) = false := by simp; omega
        rw [this]
    · rw [if_neg hgt]
      by_cases hlt : pos < x.pos
      · rw [if_pos hlt]
        refine ⟨del, some x, rfl, ⟨0, ?_, by simp, fun h => by omega⟩, ?_⟩
        · rw [if_neg (by omega)]
        · rw [List.find?_cons]; simp [hlt]
      · rw [if_neg hlt]
        obtain ⟨d, n, e1, ⟨k, e2, e3, e4⟩, e5⟩ := ih (i + 1) del (p + 1) h2 (by omega) (by omega)
        refine ⟨d, n, e1, ?_, ?_⟩
        · rw [if_neg (by omega)] at e2
          exact ⟨0, by rw [if_neg (by omega)]; exact e2, by simp, fun h => by omega⟩
        · rw [e5, List.find?_cons]
          have : decide (pos < x.pos) = false := by simp; omega
          rw [this]

/-- On an invariant state: which prefix is purged and which response is next. -/
theorem scan_inv {s : State β ρ} (h : Inv s) (pos : Int) (hp : pos ≤ s.lastPos) :
    ∃ d n, scan pos 0 0 s.buf = (d, n) ∧ d ≤ s.buf.length ∧ (d = s.buf.length → s.buf = []) ∧
      s.buf.drop d = s.buf.filter (fun r => decide (pos ≤ r.pos)) ∧
      n = s.buf.find? fun r => decide (pos < r.pos) := by
  obtain ⟨d, n, e1, ⟨k, e2, e3, e4⟩, e5⟩ := scan_consec pos s.buf 0 0 _ h.consec (by omega) (by omega)
  refine ⟨d, n, e1, ?_, ?_, ?_, e5⟩
  · split at e2 <;> omega
  · intro hd
    split at e2
    · rename_i hgt
      have := e4 hgt
      apply List.length_eq_zero_iff.1
      omega
    · apply List.length_eq_zero_iff.1; omega
  · -- the purged prefix are the older responses
    have hd : ∀ (l : List (Resp ρ)) (p : Int) (d : Nat), Consec p l → ((d : Int) = min (pos - p) l.length ∨ (pos ≤ p ∧ d = 0)) →
        l.drop d = l.filter (fun r => decide (pos ≤ r.pos)) := by
      intro l
      induction l with
      | nil => intros; simp
      | cons x l ih =>
        intro p d hc hd
        obtain ⟨h1, h2⟩ := hc
        by_cases hx : pos ≤ x.pos
        · have : d = 0 := by omega
          subst this
          rw [List.filter_cons, if_pos (by simpa using hx)]
          have := ih (p + 1) 0 h2 (Or.inr (by omega))
          simp only [List.drop_zero] at this ⊢
          rw [← this]
        · rw [List.filter_cons, if_neg (by simpa using hx)]
          simp only [List.length_cons] at hd
          obtain ⟨e, rfl⟩ : ∃ e, d = e + 1 := ⟨d - 1, by omega⟩
          rw [List.drop_succ_cons]
          exact ih (p + 1) e h2 (by omega)
    apply hd _ _ _ h.consec
    split at e2
    · rename_i hgt
      have := e4 hgt
      left; omega
    · right; omega

theorem pos_le_of_ok {s : State β ρ} (h : Inv s) {req : Req β}
    (hok : ¬ ((!decide (req.pos = 0) && !(!decide (req.pos = 0) && decide (s.last.pos = req.pos)) &&
      !isOutstanding s.buf req.pos) = true)) : 0 ≤ req.pos ∧ req.pos ≤ s.lastPos := by
  have h1 := h.start
  have h2 := h.last
  have h3 := h.nonneg
  simp only [Bool.and_eq_true, Bool.not_eq_true', decide_eq_false_iff_not, not_and, Bool.not_eq_false,
    Bool.and_eq_false_iff, Bool.not_eq_false', decide_eq_true_eq] at hok
  by_cases h0 : req.pos = 0
  · omega
  by_cases h4 : s.last.pos = req.pos
  · omega
  · have := hok ⟨h0, Or.inr h4⟩
    unfold isOutstanding at this
    rw [List.any_eq_true] at this
    obtain ⟨r, hr, e⟩ := this
    have hc := consec_pos h.consec r hr
    simp only [decide_eq_true_eq] at e
    omega

/-- Every case of a step on an invariant state. -/
theorem step_cases {s : State β ρ} (h : Inv s) (req : Req β) (handler : Option ρ) :
    (step s req handler = (s, .expired) ∧ req.pos ≠ 0 ∧ s.last.pos ≠ req.pos ∧ ∀ r ∈ s.buf, r.pos ≠ req.pos) ∨
    ((req.pos = 0 ∨ s.last.pos = req.pos ∨ ∃ r ∈ s.buf, r.pos = req.pos) ∧
      0 ≤ req.pos ∧ req.pos ≤ s.lastPos ∧
      ∃ d, d ≤ s.buf.length ∧ (d = s.buf.length → s.buf = []) ∧
      s.buf.drop d = s.buf.filter (fun r => decide (req.pos ≤ r.pos)) ∧
      ((∃ r, req.pos ≠ 0 ∧ s.last.body = req.body ∧ s.buf.find? (fun r => decide (req.pos < r.pos)) = some r ∧
          step s req handler = ({ s with buf := s.buf.drop d }, .cached r)) ∨
       ((req.pos = 0 ∨ s.last.body ≠ req.body ∨
          (s.last.pos ≠ req.pos ∧ s.buf.find? (fun r => decide (req.pos < r.pos)) = none)) ∧
        (handler = none ∧ step s req handler = ({ s with buf := s.buf.drop d }, .failed) ∨
         ∃ dta, handler = some dta ∧
          step s req handler = (⟨req, s.buf.drop d ++ [⟨s.lastPos + 1, dta⟩], s.lastPos + 1⟩,
            .fresh ((s.buf.find? (fun r => decide (req.pos < r.pos))).getD ⟨s.lastPos + 1, dta⟩)))))) := by
  unfold step
  by_cases hexp : (!decide (req.pos = 0) && !(!decide (req.pos = 0) && decide (s.last.pos = req.pos)) &&
      !isOutstanding s.buf req.pos) = true
  · left
    simp only [hexp, if_true, true_and]
    simp only [Bool.and_eq_true, Bool.not_eq_true', decide_eq_false_iff_not, Bool.and_eq_false_iff,
      Bool.not_eq_false', decide_eq_true_eq] at hexp
    obtain ⟨⟨h1, h2⟩, h3⟩ := hexp
    refine ⟨h1, by omega, ?_⟩
    intro r hr he
    have : isOutstanding s.buf req.pos = true := by
      unfold isOutstanding; rw [List.any_eq_true]; exact ⟨r, hr, by simpa using he⟩
    rw [this] at h3; cases h3
  · right
    have hle := pos_le_of_ok h hexp
    refine ⟨?_, hle.1, hle.2, ?_⟩
    · simp only [Bool.and_eq_true, Bool.not_eq_true', decide_eq_false_iff_not, not_and, Bool.not_eq_false,
        Bool.and_eq_false_iff, Bool.not_eq_false', decide_eq_true_eq] at hexp
      by_cases h0 : req.pos = 0
      · exact Or.inl h0
      by_cases h4 : s.last.pos = req.pos
      · exact Or.inr (Or.inl h4)
      · have := hexp ⟨h0, Or.inr h4⟩
        unfold isOutstanding at this
        rw [List.any_eq_true] at this
        obtain ⟨r, hr, e⟩ := this
        exact Or.inr (Or.inr ⟨r, hr, by simpa using e⟩)
    · obtain ⟨d, n, e1, e2, e3, e4, e5⟩ := scan_inv h req.pos hle.2
      refine ⟨d, e2, e3, e4, ?_⟩
      rw [if_neg hexp, e1, ← e5]
      simp only
      by_cases h0 : req.pos = 0
      · right
        refine ⟨Or.inl h0, ?_⟩
        cases handler <;> cases n <;> simp [h0]
      · by_cases hb : s.last.body = req.body
        · cases n with
          | some r =>
            left
            refine ⟨r, h0, hb, rfl, ?_⟩
            simp [h0, hb]
          | none =>
            by_cases hrt : s.last.pos = req.pos
            · -- impossible: a response newer than the last request exists
              exfalso
              have hl := h.last
              have hbuf := h.ne (by omega)
              have hlast := h.consec
              have hst := h.start
              have := e5.symm
              rw [List.find?_eq_none] at this
              have hmem := List.getLast_mem hbuf
              have hpos : (s.buf.getLast hbuf).pos = s.lastPos := by
                have key : ∀ (l : List (Resp ρ)) (p : Int) (hne : l ≠ []), Consec p l →
                    (l.getLast hne).pos = p + l.length - 1 := by
                  intro l
                  induction l with
                  | nil => intro _ hne; exact absurd rfl hne
                  | cons x l ih =>
                    intro p hne hc
                    cases l with
                    | nil => simp [hc.1]
                    | cons y l =>
                      rw [List.getLast_cons (by simp)]
                      rw [ih (p + 1) (by simp) hc.2]
                      simp only [List.length_cons]
                      omega
                rw [key _ _ hbuf hlast]; omega
              have := this _ hmem
              simp only [decide_eq_true_eq] at this
              omega
            · right
              refine ⟨Or.inr (Or.inr ⟨hrt, rfl⟩), ?_⟩
              cases handler <;> simp [hrt]
        · right
          refine ⟨Or.inr (Or.inl hb), ?_⟩
          cases handler <;> cases n <;> simp [hb]

theorem inv_init (zero : β) : Inv (init zero : State β ρ) :=
  ⟨by simp [init], by simp [init, Consec], by simp [init], by simp [init], by simp [init]⟩

theorem inv_purge {s : State β ρ} (h : Inv s) {d : Nat} (hd : d ≤ s.buf.length)
    (hd2 : d = s.buf.length → s.buf = []) : Inv { s with buf := s.buf.drop d } := by
  obtain ⟨h1, h2, h3, h4, h5⟩ := h
  have hlen : ((s.buf.drop d).length : Int) = s.buf.length - d := by simp; omega
  refine ⟨h1, ?_, by simp only; omega, h4, ?_⟩
  · have := consec_drop h2 d
    simp only [hlen]
    rw [show s.lastPos - ((s.buf.length : Int) - d) + 1 = s.lastPos - s.buf.length + 1 + d by omega]
    exact this
  · intro hne hnil
    simp only [List.drop_eq_nil_iff] at hnil
    exact h5 hne (hd2 (by omega))

theorem inv_step {s : State β ρ} (h : Inv s) (req : Req β) (handler : Option ρ) :
    Inv (step s req handler).1 := by
  rcases step_cases h req handler with ⟨e, _⟩ | ⟨_, h0, hl, d, d1, d2, d3, hc⟩
  · rw [e]; exact h
  · rcases hc with ⟨r, _, _, _, e⟩ | ⟨_, ⟨_, e⟩ | ⟨dta, _, e⟩⟩
    · rw [e]; exact inv_purge h d1 d2
    · rw [e]; exact inv_purge h d1 d2
    · rw [e]
      have hp := inv_purge h d1 d2
      have hst := hp.start
      have hcs := hp.consec
      simp only at hst hcs
      refine ⟨h0, ?_, ?_, Or.inl (by simp only; omega), by simp⟩
      · simp only
        have : s.lastPos + 1 - (((s.buf.drop d) ++ [(⟨s.lastPos + 1, dta⟩ : Resp ρ)]).length : Nat) + 1 =
            s.lastPos - ((s.buf.drop d).length : Nat) + 1 := by
          rw [List.length_append]; simp only [List.length_singleton]; omega
        rw [this]
        apply consec_append hcs
        simp only; omega
      · simp only [List.length_append, List.length_singleton]
        omega

theorem inv_run (zero : β) (ts : List (Req β × Option ρ)) : Inv (run zero ts) := by
  unfold run
  suffices ∀ s : State β ρ, Inv s → Inv (ts.foldl (fun s t => (step s t.1 t.2).1) s) from
    this _ (inv_init zero)
  induction ts with
  | nil => intro s h; exact h
  | cons t ts ih => intro s h; exact ih _ (inv_step h t.1 t.2)

/-- The response contained in an output, if any. -/
def Out.resp? : Out ρ → Option (Resp ρ)
  | .cached r => some r
  | .fresh r => some r
  | _ => none

/-! ## C15 -/

/-- C15. In every reachable state, if a request with a position got a response,
then sending it again (whatever the handler would answer) returns that same
response from the cache, without running the handler, and leaves the
connection unchanged. -/
theorem C15_retry_idempotent (zero : β) (ts : List (Req β × Option ρ)) (req : Req β)
    (hpos : req.pos ≠ 0) (h1 h2 : Option ρ) (s' : State β ρ) (o : Out ρ) (r : Resp ρ)
    (hs : step (run zero ts) req h1 = (s', o)) (ho : o.resp? = some r) :
    step s' req h2 = (s', .cached r) := by
  have h := inv_run zero ts
  generalize run zero ts = s at h hs
  have h' : Inv s' := by have := inv_step h req h1; rw [hs] at this; exact this
  rcases step_cases h req h1 with ⟨e, _⟩ | ⟨hacc, h0, hl, d, d1, d2, d3, hc⟩
  · rw [e] at hs; cases hs; cases ho
  · have hfind : ∀ l : List (Resp ρ), (l.filter (fun r => decide (req.pos ≤ r.pos))).find? (fun r => decide (req.pos < r.pos)) =
        l.find? (fun r => decide (req.pos < r.pos)) := by
      intro l
      rw [List.find?_filter]
      congr 1
      funext a
      rw [Bool.eq_iff_iff]
      simp
      omega
    have hff : ∀ l : List (Resp ρ), (l.filter (fun r => decide (req.pos ≤ r.pos))).filter (fun r => decide (req.pos ≤ r.pos)) =
        l.filter (fun r => decide (req.pos ≤ r.pos)) := by
      intro l; rw [List.filter_filter]; simp
    -- in both successful cases the new state answers from the cache
    have key : s'.last.body = req.body → s'.buf.filter (fun r => decide (req.pos ≤ r.pos)) = s'.buf →
        s'.buf.find? (fun r => decide (req.pos < r.pos)) = some r →
        (s'.last.pos = req.pos ∨ ∃ q ∈ s'.buf, q.pos = req.pos) →
        step s' req h2 = (s', .cached r) := by
      intro k1 k2 k3 k4
      rcases step_cases h' req h2 with ⟨_, _, e1, e2⟩ | ⟨_, _, _, d', _, _, d3', hc'⟩
      · rcases k4 with k | ⟨q, hq, k⟩
        · exact absurd k e1
        · exact absurd k (e2 q hq)
      · rw [k2] at d3'
        rcases hc' with ⟨r', _, _, f, e⟩ | ⟨hc', _⟩
        · rw [e, d3']
          rw [k3] at f; cases f
          rfl
        · rcases hc' with hc' | hc' | ⟨_, hc'⟩
          · exact absurd hc' hpos
          · exact absurd k1 hc'
          · rw [k3] at hc'; cases hc'
    rcases hc with ⟨r', _, hb, f, e⟩ | ⟨_, ⟨_, e⟩ | ⟨dta, _, e⟩⟩
    · rw [e] at hs
      cases hs
      cases ho
      apply key hb
      · simp only [d3, hff]
      · simp only [d3, hfind]; exact f
      · rcases hacc with k | k | ⟨q, hq, k⟩
        · exact absurd k hpos
        · exact Or.inl k
        · right
          refine ⟨q, ?_, k⟩
          simp only [d3, List.mem_filter, decide_eq_true_eq]
          exact ⟨hq, by omega⟩
    · rw [e] at hs; cases hs; cases ho
    · rw [e] at hs
      cases hs
      simp only [Out.resp?, Option.some.injEq] at ho
      apply key rfl
      · simp only [d3, List.filter_append, hff]
        have : decide (req.pos ≤ s.lastPos + 1) = true := by simp; omega
        simp [this]
      · simp only [d3, List.find?_append, hfind]
        rw [← ho]
        cases s.buf.find? (fun r => decide (req.pos < r.pos)) with
        | some x => rfl
        | none =>
          have : decide (req.pos < s.lastPos + 1) = true := by simp; omega
          simp [this]
      · exact Or.inl rfl

/-- The caller never gets the `(nil, nil)` answer. -/
theorem C15_never_nil (zero : β) (ts : List (Req β × Option ρ)) (req : Req β) (hd : Option ρ) :
    (step (run zero ts) req hd).2 ≠ .nilResp := by
  have h := inv_run zero ts
  rcases step_cases h req hd with ⟨e, _⟩ | ⟨_, _, _, d, _, _, _, hc⟩
  · rw [e]; simp
  · rcases hc with ⟨r, _, _, _, e⟩ | ⟨_, ⟨_, e⟩ | ⟨dta, _, e⟩⟩ <;> rw [e] <;> simp

example : let s := run (ρ := String) 0 [(⟨0, 7⟩, some "a"), (⟨1, 8⟩, some "b")]
    (step s ⟨2, 9⟩ (some "c")).2 = .fresh ⟨3, "c"⟩ ∧
    step (step s ⟨2, 9⟩ (some "c")).1 ⟨2, 9⟩ (some "d") = ((step s ⟨2, 9⟩ (some "c")).1, .cached ⟨3, "c"⟩) := by
  decide

/-! ## C16 -/

/-- C16. Each handled request gets the next position; the buffer holds
consecutive positions ending in the last one; unknown positions are rejected
without any effect. -/
theorem C16_positions (zero : β) (ts : List (Req β × Option ρ)) :
    (run zero ts).buf.map (·.pos) =
      (List.range (run zero ts).buf.length).map
        (fun (i : Nat) => (run zero ts).lastPos - (run zero ts).buf.length + 1 + i) ∧
    ((run zero ts).lastPos ≠ 0 → (run zero ts).buf ≠ []) ∧
    (∀ req hd s' o, step (run zero ts) req hd = (s', o) →
      (s'.lastPos = (run zero ts).lastPos ∨
        (s'.lastPos = (run zero ts).lastPos + 1 ∧ ∃ dta, hd = some dta ∧ (⟨s'.lastPos, dta⟩ : Resp ρ) ∈ s'.buf)) ∧
      (req.pos ≠ 0 → req.pos ≠ (run zero ts).last.pos → (∀ r ∈ (run zero ts).buf, r.pos ≠ req.pos) →
        s' = run zero ts ∧ o = .expired) ∧
      (o = .expired → req.pos ≠ 0 ∧ req.pos ≠ (run zero ts).last.pos ∧ ∀ r ∈ (run zero ts).buf, r.pos ≠ req.pos)) := by
  have h := inv_run zero ts
  generalize run zero ts = s at h
  refine ⟨?_, h.ne, ?_⟩
  · have key : ∀ (l : List (Resp ρ)) (p : Int), Consec p l →
        l.map (·.pos) = (List.range l.length).map (fun (i : Nat) => p + i) := by
      intro l
      induction l with
      | nil => simp
      | cons x l ih =>
        intro p hc
        rw [List.length_cons, List.range_succ_eq_map, List.map_cons, List.map_cons, ih _ hc.2, List.map_map]
        congr 1
        · simpa using hc.1
        · apply List.map_congr_left
          intro i _
          simp only [Function.comp]
          push_cast
          omega
    exact key _ _ h.consec
  · intro req hd s' o hs
    rcases step_cases h req hd with ⟨e, e1, e2, e3⟩ | ⟨hacc, h0, hl, d, d1, d2, d3, hc⟩
    · rw [e] at hs
      cases hs
      exact ⟨Or.inl rfl, fun _ _ _ => ⟨rfl, rfl⟩, fun _ => ⟨e1, fun k => e2 k.symm, e3⟩⟩
    · have hno : req.pos ≠ 0 → req.pos ≠ s.last.pos → (∀ r ∈ s.buf, r.pos ≠ req.pos) → False := by
        intro k1 k2 k3
        rcases hacc with k | k | ⟨q, hq, k⟩
        · exact k1 k
        · exact k2 k.symm
        · exact k3 q hq k
      rcases hc with ⟨r', _, hb, f, e⟩ | ⟨_, ⟨_, e⟩ | ⟨dta, hdt, e⟩⟩
      · rw [e] at hs; cases hs
        exact ⟨Or.inl rfl, fun k1 k2 k3 => (hno k1 k2 k3).elim, fun k => by cases k⟩
      · rw [e] at hs; cases hs
        exact ⟨Or.inl rfl, fun k1 k2 k3 => (hno k1 k2 k3).elim, fun k => by cases k⟩
      · rw [e] at hs; cases hs
        exact ⟨Or.inr ⟨rfl, dta, hdt, by simp⟩, fun k1 k2 k3 => (hno k1 k2 k3).elim, fun k => by cases k⟩

example : let s := run (ρ := String) 0 [(⟨0, 7⟩, some "a"), (⟨1, 8⟩, some "b"), (⟨1, 9⟩, some "c")]
    s.buf.map (·.pos) = [1, 2, 3] ∧ (step s ⟨4, 9⟩ (some "d")).2 = .expired := by decide

/-! ## C17 -/

/-- C17 (a). Whatever is returned is the response with the least position
greater than the request's, among all buffered and newly produced ones; in
particular a client that passes back the position it last received never skips
one: the answer has exactly the next position. -/
theorem C17_least_newer (zero : β) (ts : List (Req β × Option ρ)) (req : Req β) (hd : Option ρ)
    (s' : State β ρ) (o : Out ρ) (r : Resp ρ)
    (hs : step (run zero ts) req hd = (s', o)) (ho : o.resp? = some r) :
    req.pos < r.pos ∧ r ∈ s'.buf ∧ (∀ q ∈ s'.buf, req.pos < q.pos → r.pos ≤ q.pos) ∧
    (∀ q ∈ (run zero ts).buf, req.pos < q.pos → q ∈ s'.buf) ∧
    ((∃ q ∈ (run zero ts).buf, q.pos = req.pos) → r.pos = req.pos + 1) := by
  have h := inv_run zero ts
  generalize run zero ts = s at h hs
  have h' : Inv s' := by have := inv_step h req hd; rw [hs] at this; exact this
  rcases step_cases h req hd with ⟨e, _⟩ | ⟨_, h0, hl, d, d1, d2, d3, hc⟩
  · rw [e] at hs; cases hs; cases ho
  · have main : s'.buf.find? (fun q => decide (req.pos < q.pos)) = some r ∧
        (∀ q ∈ s.buf, req.pos ≤ q.pos → q ∈ s'.buf) := by
      have hfind : (s.buf.filter (fun r => decide (req.pos ≤ r.pos))).find? (fun r => decide (req.pos < r.pos)) =
          s.buf.find? (fun r => decide (req.pos < r.pos)) := by
        rw [List.find?_filter]
        congr 1
        funext a
        rw [Bool.eq_iff_iff]
        simp
        omega
      rcases hc with ⟨r', _, hb, f, e⟩ | ⟨_, ⟨_, e⟩ | ⟨dta, hdt, e⟩⟩
      · rw [e] at hs; cases hs; cases ho
        simp only [d3]
        exact ⟨hfind.trans f, fun q hq k => by simp [hq, k]⟩
      · rw [e] at hs; cases hs; cases ho
      · rw [e] at hs; cases hs
        simp only [Out.resp?, Option.some.injEq] at ho
        simp only [d3, List.find?_append, hfind]
        refine ⟨?_, fun q hq k => by simp [hq, k]⟩
        rw [← ho]
        cases s.buf.find? (fun r => decide (req.pos < r.pos)) with
        | some x => rfl
        | none =>
          have : decide (req.pos < s.lastPos + 1) = true := by simp; omega
          simp [this]
    obtain ⟨m1, m2⟩ := main
    have hlt := List.find?_some m1
    simp only [decide_eq_true_eq] at hlt
    have key : ∀ (l : List (Resp ρ)) (p : Int), Consec p l →
        l.find? (fun q => decide (req.pos < q.pos)) = some r →
        (∀ q ∈ l, req.pos < q.pos → r.pos ≤ q.pos) ∧ (p ≤ req.pos → r.pos = req.pos + 1) := by
      intro l
      induction l with
      | nil => simp
      | cons x l ih =>
        intro p hcs hf
        obtain ⟨c1, c2⟩ := hcs
        rw [List.find?_cons] at hf
        by_cases hx : req.pos < x.pos
        · simp only [hx, decide_true, Option.some.injEq] at hf
          subst hf
          refine ⟨?_, by omega⟩
          intro q hq _
          rcases List.mem_cons.1 hq with rfl | hq
          · omega
          · have := consec_pos c2 q hq; omega
        · simp only [hx, decide_false] at hf
          obtain ⟨i1, i2⟩ := ih _ c2 hf
          refine ⟨?_, ?_⟩
          · intro q hq hlt
            rcases List.mem_cons.1 hq with rfl | hq
            · exact absurd hlt hx
            · exact i1 q hq hlt
          · intro hp
            by_cases hp1 : p + 1 ≤ req.pos
            · exact i2 hp1
            · cases l with
              | nil => simp at hf
              | cons y l =>
                have := c2.1
                rw [List.find?_cons] at hf
                have hy : req.pos < y.pos := by omega
                simp only [hy, decide_true, Option.some.injEq] at hf
                subst hf
                omega
    obtain ⟨k1, k2⟩ := key _ _ h'.consec m1
    refine ⟨hlt, List.mem_of_find?_eq_some m1, k1, fun q hq k => m2 q hq (by omega), ?_⟩
    rintro ⟨q, hq, hqp⟩
    apply k2
    have := consec_pos h'.consec q (m2 q hq (by omega))
    omega

/-- The log of produced responses: every handler result that was accepted. -/
def produced (zero : β) (ts : List (Req β × Option ρ)) : List (Resp ρ) :=
  (ts.foldl (fun (p : State β ρ × List (Resp ρ)) t =>
      let s' := (step p.1 t.1 t.2).1
      (s', if s'.lastPos = p.1.lastPos then p.2 else p.2 ++ (s'.buf.filter fun r => decide (r.pos = s'.lastPos))))
      (init zero, [])).2

/-- C17 (b). A produced response leaves the buffer only after the client has
sent a request with a larger position. -/
theorem C17_not_dropped (zero : β) (ts : List (Req β × Option ρ)) (r : Resp ρ)
    (hr : r ∈ produced zero ts) (hn : r ∉ (run zero ts).buf) : ∃ t ∈ ts, r.pos < t.1.pos := by
  unfold produced at hr
  unfold run at hn
  have key : ∀ (ts : List (Req β × Option ρ)) (s : State β ρ) (log : List (Resp ρ)), Inv s →
      r ∈ (ts.foldl (fun (p : State β ρ × List (Resp ρ)) t =>
        let s' := (step p.1 t.1 t.2).1
        (s', if s'.lastPos = p.1.lastPos then p.2 else p.2 ++ (s'.buf.filter fun r => decide (r.pos = s'.lastPos))))
        (s, log)).2 → (r ∈ log → r ∈ s.buf) →
      r ∉ (ts.foldl (fun s t => (step s t.1 t.2).1) s).buf → ∃ t ∈ ts, r.pos < t.1.pos := by
    intro ts
    induction ts with
    | nil => intro s log _ h1 h2 h3; exact absurd (h2 h1) h3
    | cons t ts ih =>
      intro s log hi h1 h2 h3
      by_cases hlt : r.pos < t.1.pos
      · exact ⟨t, by simp, hlt⟩
      · have hstay : r ∈ s.buf → r ∈ (step s t.1 t.2).1.buf := by
          intro hm
          rcases step_cases hi t.1 t.2 with ⟨e, _⟩ | ⟨_, _, _, d, _, _, d3, hc⟩
          · rw [e]; exact hm
          · have hm' : r ∈ s.buf.drop d := by rw [d3]; simp [hm]; omega
            rcases hc with ⟨r', _, _, _, e⟩ | ⟨_, ⟨_, e⟩ | ⟨dta, _, e⟩⟩ <;> rw [e]
            · exact hm'
            · exact hm'
            · exact List.mem_append_left _ hm'
        rw [List.foldl_cons] at h1 h3
        obtain ⟨u, hu, h⟩ := ih _ _ (inv_step hi t.1 t.2) h1 (by
          intro hm
          split at hm
          · exact hstay (h2 hm)
          · rcases List.mem_append.1 hm with hm | hm
            · exact hstay (h2 hm)
            · exact (List.mem_filter.1 hm).1) h3
        exact ⟨u, by simp [hu], h⟩
  exact key ts _ _ (inv_init zero) hr (by simp) hn

example : let ts : List (Req Nat × Option String) := [(⟨0, 7⟩, some "a"), (⟨1, 8⟩, some "b"), (⟨2, 9⟩, some "c")]
    produced 0 ts = [⟨1, "a"⟩, ⟨2, "b"⟩, ⟨3, "c"⟩] ∧ (run 0 ts).buf = [⟨2, "b"⟩, ⟨3, "c"⟩] := by decide

/-! ## C18 -/

/-- C18. If the handler fails, the position and the last request stay, no
response is added, nothing newer than the request is lost, and the same request
runs the handler again. -/
theorem C18_failure_not_committed (zero : β) (ts : List (Req β × Option ρ)) (req : Req β) (hd : Option ρ)
    (s' : State β ρ) (hs : step (run zero ts) req hd = (s', .failed)) :
    hd = none ∧ s'.lastPos = (run zero ts).lastPos ∧ s'.last = (run zero ts).last ∧
    (∀ r, r ∈ s'.buf ↔ r ∈ (run zero ts).buf ∧ req.pos ≤ r.pos) ∧
    (∀ d, ∃ s'' r, step s' req (some d) = (s'', .fresh r) ∧ s''.lastPos = s'.lastPos + 1) ∧
    step s' req none = (s', .failed) := by
  have h := inv_run zero ts
  generalize run zero ts = s at h hs
  have h' : Inv s' := by have := inv_step h req hd; rw [hs] at this; exact this
  rcases step_cases h req hd with ⟨e, _⟩ | ⟨hacc, h0, hl, d, d1, d2, d3, hc⟩
  · rw [e] at hs; cases hs
  · rcases hc with ⟨r', _, hb, f, e⟩ | ⟨hno, ⟨hd0, e⟩ | ⟨dta, hdt, e⟩⟩
    · rw [e] at hs; cases hs
    · rw [e] at hs; cases hs
      have hfind : (s.buf.drop d).find? (fun r => decide (req.pos < r.pos)) =
          s.buf.find? (fun r => decide (req.pos < r.pos)) := by
        rw [d3, List.find?_filter]
        congr 1
        funext a
        rw [Bool.eq_iff_iff]
        simp
        omega
      have hacc' : ∀ hd', (step { s with buf := s.buf.drop d } req hd').2 ≠ .expired ∧
          ∀ r, (step { s with buf := s.buf.drop d } req hd').2 ≠ .cached r := by
        intro hd'
        rcases step_cases h' req hd' with ⟨_, k1, k2, k3⟩ | ⟨_, _, _, d', _, _, d3', hc'⟩
        · exfalso
          rcases hacc with k | k | ⟨q, hq, k⟩
          · exact k1 k
          · exact k2 k
          · refine k3 q ?_ k
            simp only [d3, List.mem_filter, decide_eq_true_eq]
            exact ⟨hq, by omega⟩
        · rcases hc' with ⟨r', k1, k2, k3, e'⟩ | ⟨_, ⟨_, e'⟩ | ⟨dta, _, e'⟩⟩
          · exfalso
            simp only [hfind] at k3 k2
            rcases hno with k | k | ⟨_, k⟩
            · exact k1 k
            · exact k k2
            · rw [k] at k3; cases k3
          · rw [e']; exact ⟨by simp, by simp⟩
          · rw [e']; exact ⟨by simp, by simp⟩
      refine ⟨hd0, rfl, rfl, ?_, ?_, ?_⟩
      · intro r; simp only [d3]; simp
      · intro dta
        have ha := hacc' (some dta)
        rcases step_cases h' req (some dta) with ⟨e', _⟩ | ⟨_, _, _, d', _, _, d3', hc'⟩
        · exact absurd (by rw [e']) ha.1
        · rcases hc' with ⟨r', _, _, _, e'⟩ | ⟨_, ⟨k, _⟩ | ⟨dta', k, e'⟩⟩
          · exact absurd (by rw [e']) (ha.2 r')
          · cases k
          · exact ⟨_, _, e', rfl⟩
      · have ha := hacc' none
        rcases step_cases h' req none with ⟨e', _⟩ | ⟨_, _, _, d', _, _, d3', hc'⟩
        · exact absurd (by rw [e']) ha.1
        · rcases hc' with ⟨r', _, _, _, e'⟩ | ⟨_, ⟨_, e'⟩ | ⟨_, k, _⟩⟩
          · exact absurd (by rw [e']) (ha.2 r')
          · rw [e', d3']
            simp only [d3, List.filter_filter, Bool.and_self]
          · cases k
    · rw [e] at hs; cases hs

example : let s := run (ρ := String) 0 [(⟨0, 7⟩, some "a"), (⟨1, 8⟩, some "b")]
    (step s ⟨2, 9⟩ none).2 = .failed ∧ (step (step s ⟨2, 9⟩ none).1 ⟨2, 9⟩ (some "c")).2 = .fresh ⟨3, "c"⟩ := by decide

end Verif.Conn
