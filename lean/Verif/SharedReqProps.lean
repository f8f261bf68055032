import Verif.SharedReq
import Verif.ConnProps
import Verif.ExtensionsProps
/-! # C91: a retried request is recognised, and sharing request objects does no harm -/
namespace Verif.SharedReq

open Verif.Extensions (Core interpretAsInitial coreDelta)

variable {β ρ : Type} [DecidableEq β]

/-! ## Specification -/

/-- The extensions of the requests whose handler got to apply them, oldest first. -/
def applied (zero : β) : List (Req β × Res ρ) → Fin 5 → List (Option Core)
  | ts, i => (ts.foldl (fun (p : State β ρ × List (Option Core)) t =>
      ((step p.1 t.1 t.2).1, if ran (step p.1 t.1 t.2).2 t.2 then p.2 ++ [t.1.exts i] else p.2)) (init zero, [])).2

/-- The request is changed by being handled: it names an extension for the first time, without lists or without rooms. -/
def Unstable (s : State β ρ) (req : Req β) : Prop :=
  ∃ i c, req.exts i = some c ∧ s.mux i = none ∧ (c.lists = none ∨ c.rooms = none)

/-! ## Invariant -/

structure Inv (s : State β ρ) : Prop where
  conn : Conn.Inv s.conn
  owner : s.owner < s.next
  mux : ∀ i m, s.mux i = some m → m < s.next ∧ ∃ c, s.heap m i = some c

theorem connInv_body {s : Conn.State (β × Exts) ρ} (h : Conn.Inv s) (b : β × Exts) :
    Conn.Inv ({ s with last := { s.last with body := b } } : Conn.State (β × Exts) ρ) :=
  ⟨h.nonneg, h.consec, h.start, h.last, h.ne⟩

theorem alloc_conn {s : State β ρ} (h : s.owner < s.next) (req : Req β) : (alloc s req).conn = s.conn := by
  simp only [State.conn, alloc]
  rw [if_neg (by omega)]

theorem inv_init (zero : β) : Inv (init zero : State β ρ) :=
  ⟨⟨by simp [init, State.conn], by simp [init, State.conn, Conn.Consec], by simp [init, State.conn], by simp [init, State.conn],
    by simp [init, State.conn]⟩, by simp [init], fun i m h => by simp [init] at h⟩

/-- The last request after a step of the connection. -/
theorem conn_last {s : Conn.State (β × Exts) ρ} (h : Conn.Inv s) (req : Conn.Req (β × Exts)) (hd : Option ρ) :
    (∃ r, (Conn.step s req hd).2 = .fresh r ∧ (Conn.step s req hd).1.last = req) ∨
      ((∀ r, (Conn.step s req hd).2 ≠ .fresh r) ∧ (Conn.step s req hd).1.last = s.last) := by
  rcases Conn.step_cases h req hd with ⟨e, _⟩ | ⟨_, _, _, d, _, _, _, hc⟩
  · rw [e]; exact .inr ⟨by simp, rfl⟩
  · rcases hc with ⟨r, _, _, _, e⟩ | ⟨_, ⟨_, e⟩ | ⟨dta, _, e⟩⟩ <;> rw [e]
    · exact .inr ⟨by simp, rfl⟩
    · exact .inr ⟨by simp, rfl⟩
    · exact .inl ⟨_, rfl, rfl⟩

theorem step_next (s : State β ρ) (req : Req β) (h : Res ρ) : (step s req h).1.next = s.next + 1 := by
  simp only [step]
  split <;> split <;> rfl

theorem step_out (s : State β ρ) (req : Req β) (h : Res ρ) : (step s req h).2 = (answer s req h).2 := by
  simp only [step]
  split <;> simp_all

theorem step_buf (s : State β ρ) (req : Req β) (h : Res ρ) :
    (step s req h).1.buf = (answer s req h).1.buf ∧ (step s req h).1.lastPos = (answer s req h).1.lastPos := by
  simp only [step]
  split <;> split <;> exact ⟨rfl, rfl⟩

theorem step_mux (s : State β ρ) (req : Req β) (h : Res ρ) :
    (step s req h).1.mux = if ran (answer s req h).2 h then deltaMux (alloc s req).heap s.mux s.next else s.mux := by
  simp only [step]
  split <;> split <;> rfl

theorem step_heap (s : State β ρ) (req : Req β) (h : Res ρ) :
    (step s req h).1.heap = if ran (answer s req h).2 h then deltaHeap (alloc s req).heap s.mux s.next else (alloc s req).heap := by
  simp only [step]
  split <;> split <;> rfl

theorem step_owner (s : State β ρ) (req : Req β) (h : Res ρ) :
    (∃ r, (answer s req h).2 = .fresh r ∧ (step s req h).1.owner = s.next ∧ (step s req h).1.lastRest = req.rest ∧
        (step s req h).1.lastReq = req.pos) ∨
      ((∀ r, (answer s req h).2 ≠ .fresh r) ∧ (step s req h).1.owner = s.owner ∧ (step s req h).1.lastRest = s.lastRest ∧
        (step s req h).1.lastReq = s.lastReq) := by
  simp only [step]
  cases ho : (answer s req h).2 with
  | fresh r => exact .inl ⟨r, rfl, rfl, rfl, rfl⟩
  | expired => right; refine ⟨by simp, ?_⟩; simp only; split <;> exact ⟨rfl, rfl, rfl⟩
  | cached r => right; refine ⟨by simp, ?_⟩; simp only; split <;> exact ⟨rfl, rfl, rfl⟩
  | failed => right; refine ⟨by simp, ?_⟩; simp only; split <;> exact ⟨rfl, rfl, rfl⟩
  | nilResp => right; refine ⟨by simp, ?_⟩; simp only; split <;> exact ⟨rfl, rfl, rfl⟩

theorem alloc_heap_lt {s : State β ρ} (req : Req β) {k : Nat} (h : k < s.next) : (alloc s req).heap k = s.heap k := by
  simp only [alloc]
  rw [if_neg (by omega)]

theorem alloc_heap_next (s : State β ρ) (req : Req β) : (alloc s req).heap s.next = req.exts := by
  simp [alloc]

/-- What a handled request does to the settings. -/
theorem delta_setting {s : State β ρ} (h : Inv s) (req : Req β) (i : Fin 5) :
    ((deltaMux (alloc s req).heap s.mux s.next i).bind fun m => deltaHeap (alloc s req).heap s.mux s.next m i) =
      Extensions.applyDelta (s.setting i) (req.exts i) := by
  unfold deltaMux deltaHeap State.setting Extensions.applyDelta
  rw [alloc_heap_next]
  cases hr : req.exts i with
  | none =>
    simp only
    cases hm : s.mux i with
    | none => rfl
    | some m => simp only [Option.bind_some]; rw [alloc_heap_lt req (h.mux i m hm).1]
  | some c =>
    cases hm : s.mux i with
    | none => simp
    | some m =>
      obtain ⟨hlt, d, hd⟩ := h.mux i m hm
      simp only [Option.getD_some, Option.bind_some, if_true]
      rw [alloc_heap_lt req hlt, hd]
      rfl

theorem inv_step {s : State β ρ} (h : Inv s) (req : Req β) (hd : Res ρ) : Inv (step s req hd).1 := by
  have hans : Conn.Inv (answer s req hd).1 := by
    unfold answer
    rw [alloc_conn h.owner]
    exact Conn.inv_step h.conn _ _
  have hlast : (step s req hd).1.lastReq = (answer s req hd).1.last.pos := by
    have hc := conn_last h.conn ⟨req.pos, (req.rest, req.exts)⟩ hd.toOption
    have hans' : answer s req hd = Conn.step s.conn ⟨req.pos, (req.rest, req.exts)⟩ hd.toOption := by
      unfold answer; rw [alloc_conn h.owner]
    rw [← hans'] at hc
    rcases step_owner s req hd with ⟨r, e1, _, _, e2⟩ | ⟨e1, _, _, e2⟩
    · rcases hc with ⟨_, _, c2⟩ | ⟨c1, _⟩
      · rw [e2, c2]
      · exact absurd e1 (c1 r)
    · rcases hc with ⟨r, c1, _⟩ | ⟨_, c2⟩
      · exact absurd c1 (e1 r)
      · rw [e2, c2]; rfl
  refine ⟨?_, ?_, ?_⟩
  · have hb := step_buf s req hd
    have hq : (step s req hd).1.conn = ⟨⟨(answer s req hd).1.last.pos, ((step s req hd).1.lastRest, (step s req hd).1.heap (step s req hd).1.owner)⟩,
        (answer s req hd).1.buf, (answer s req hd).1.lastPos⟩ := by
      unfold State.conn
      rw [hlast, hb.1, hb.2]
    rw [hq]
    exact connInv_body hans _
  · rw [step_next]
    rcases step_owner s req hd with ⟨_, _, e, _⟩ | ⟨_, e, _⟩
    · omega
    · have := h.owner; omega
  · intro i m hm
    rw [step_next]
    rw [step_mux] at hm
    rw [step_heap]
    split at hm
    · rename_i hr
      rw [if_pos hr]
      unfold deltaMux at hm
      unfold deltaHeap
      rw [alloc_heap_next] at hm ⊢
      cases hq : req.exts i with
      | none =>
        rw [hq] at hm
        obtain ⟨h1, c, h2⟩ := h.mux i m hm
        exact ⟨by omega, c, by simp only; rw [alloc_heap_lt req h1]; exact h2⟩
      | some c =>
        rw [hq] at hm
        simp only [Option.some.injEq] at hm
        cases hx : s.mux i with
        | none =>
          rw [hx] at hm
          simp only [Option.getD_none] at hm
          subst hm
          exact ⟨by omega, interpretAsInitial c, by simp⟩
        | some m' =>
          rw [hx] at hm
          simp only [Option.getD_some] at hm
          subst hm
          obtain ⟨h1, d, h2⟩ := h.mux i m' hx
          exact ⟨by omega, coreDelta d c, by simp only [if_true]; rw [alloc_heap_lt req h1, h2]; rfl⟩
    · rename_i hr
      rw [if_neg hr]
      obtain ⟨h1, c, h2⟩ := h.mux i m hm
      exact ⟨by omega, c, by rw [alloc_heap_lt req h1]; exact h2⟩

theorem inv_run (zero : β) (ts : List (Req β × Res ρ)) : Inv (run zero ts) := by
  unfold run
  suffices ∀ s : State β ρ, Inv s → Inv (ts.foldl (fun s t => (step s t.1 t.2).1) s) from this _ (inv_init zero)
  induction ts with
  | nil => intro s h; exact h
  | cons t ts ih => intro s h; exact ih _ (inv_step h t.1 t.2)

/-! ## C91: settings -/

/-- C91: whatever objects are shared, the settings of every extension are those of C32: each request that reached the handler,
failed ones included, is applied on top of the ones before. -/
theorem C91_settings (zero : β) (ts : List (Req β × Res ρ)) (i : Fin 5) :
    (run zero ts).setting i = Extensions.settings (applied zero ts i) := by
  unfold run applied Extensions.settings
  suffices H : ∀ (s : State β ρ) (l : List (Option Core)), Inv s → s.setting i = l.foldl Extensions.applyDelta none →
      (ts.foldl (fun s t => (step s t.1 t.2).1) s).setting i =
        (ts.foldl (fun (p : State β ρ × List (Option Core)) t =>
          ((step p.1 t.1 t.2).1, if ran (step p.1 t.1 t.2).2 t.2 then p.2 ++ [t.1.exts i] else p.2)) (s, l)).2.foldl
            Extensions.applyDelta none from H _ _ (inv_init zero) rfl
  induction ts with
  | nil => intro s l _ h; exact h
  | cons t ts ih =>
    intro s l hs hl
    rw [List.foldl_cons, List.foldl_cons]
    apply ih _ _ (inv_step hs _ _)
    rw [State.setting, step_mux, step_heap, step_out]
    split
    · rw [List.foldl_append, ← hl]
      exact delta_setting hs t.1 i
    · rw [← hl]
      unfold State.setting
      cases hm : s.mux i with
      | none => rfl
      | some m => simp only [Option.bind_some]; rw [alloc_heap_lt _ (hs.mux i m hm).1]

/-! ## C91: retries -/

/-- The answer to a retry, if the last request is remembered with the body `b`. -/
theorem retry_body {s : Conn.State (β × Exts) ρ} (h : Conn.Inv s) (req : Conn.Req (β × Exts)) (hpos : req.pos ≠ 0) (h1 h2 : Option ρ)
    (s' : Conn.State (β × Exts) ρ) (r : Conn.Resp ρ) (hs : Conn.step s req h1 = (s', .fresh r)) (b : β × Exts) :
    Conn.step { s' with last := { s'.last with body := b } } req h2 =
      if b = req.body then ({ s' with last := { s'.last with body := b } }, .cached r)
      else match h2 with
        | none => ({ s' with last := { s'.last with body := b } }, .failed)
        | some d => (⟨req, s'.buf ++ [⟨s'.lastPos + 1, d⟩], s'.lastPos + 1⟩, .fresh r) := by
  have h' : Conn.Inv s' := by have := Conn.inv_step h req h1; rw [hs] at this; exact this
  have hb := connInv_body h' b
  -- what the first step left
  have hfirst : s'.last = req ∧ s'.buf.filter (fun q => decide (req.pos ≤ q.pos)) = s'.buf ∧
      s'.buf.find? (fun q => decide (req.pos < q.pos)) = some r := by
    rcases Conn.step_cases h req h1 with ⟨e, _⟩ | ⟨hacc, h0, hl, d, d1, d2, d3, hc⟩
    · rw [e] at hs; cases hs
    · rcases hc with ⟨r', _, _, f, e⟩ | ⟨_, ⟨_, e⟩ | ⟨dta, _, e⟩⟩
      · rw [e] at hs; cases hs
      · rw [e] at hs; cases hs
      · rw [e] at hs
        simp only [Prod.mk.injEq, Conn.Out.fresh.injEq] at hs
        obtain ⟨hs1, hr⟩ := hs
        have hfind : ∀ l : List (Conn.Resp ρ), (l.filter (fun r => decide (req.pos ≤ r.pos))).find? (fun r => decide (req.pos < r.pos)) =
            l.find? (fun r => decide (req.pos < r.pos)) := by
          intro l
          rw [List.find?_filter]
          congr 1
          funext a
          rw [Bool.eq_iff_iff]
          simp
          omega
        rw [← hs1]
        refine ⟨rfl, ?_, ?_⟩
        · simp only [d3, List.filter_append, List.filter_filter, Bool.and_self]
          have : decide (req.pos ≤ s.lastPos + 1) = true := by simp; omega
          simp [this]
        · simp only [d3, List.find?_append, hfind]
          rw [← hr]
          cases s.buf.find? (fun r => decide (req.pos < r.pos)) with
          | some x => rfl
          | none =>
            have : decide (req.pos < s.lastPos + 1) = true := by simp; omega
            simp [this]
  obtain ⟨f1, f2, f3⟩ := hfirst
  rcases Conn.step_cases hb req h2 with ⟨_, _, e1, _⟩ | ⟨_, _, _, d, _, _, d3, hc⟩
  · exact absurd (by rw [f1]) e1
  · simp only at d3 hc
    rw [f2] at d3
    rw [f3, d3] at hc
    rcases hc with ⟨r', _, hbody, f, e⟩ | ⟨hc, hh⟩
    · rw [e, if_pos hbody]
      cases f
      rfl
    · have hne : b ≠ req.body := by
        rcases hc with hc | hc | ⟨_, hc⟩
        · exact absurd hc hpos
        · exact hc
        · cases hc
      rw [if_neg hne]
      rcases hh with ⟨rfl, e⟩ | ⟨dta, rfl, e⟩ <;> rw [e]
      rfl

theorem answer_eq {s : State β ρ} (h : Inv s) (req : Req β) (hd : Res ρ) :
    answer s req hd = Conn.step s.conn ⟨req.pos, (req.rest, req.exts)⟩ hd.toOption := by
  unfold answer; rw [alloc_conn h.owner]

theorem interpret_eq (c : Core) : interpretAsInitial c = c ↔ ¬ (c.lists = none ∨ c.rooms = none) := by
  obtain ⟨e, l, r⟩ := c
  cases l <;> cases r <;> simp [interpretAsInitial]

/-- The remembered request after a handled one. -/
theorem remembered {s : State β ρ} (h : Inv s) (req : Req β) (hd : Res ρ) (r : Conn.Resp ρ) (ho : (step s req hd).2 = .fresh r) :
    (step s req hd).1.heap (step s req hd).1.owner = req.exts ↔ ¬ Unstable s req := by
  rw [step_out] at ho
  have hran : ran (answer s req hd).2 hd = true := by rw [ho]; rfl
  have hown : (step s req hd).1.owner = s.next := by
    rcases step_owner s req hd with ⟨_, _, e, _⟩ | ⟨e, _⟩
    · exact e
    · exact absurd ho (e r)
  rw [hown, step_heap, if_pos hran]
  have hcell : ∀ i, deltaHeap (alloc s req).heap s.mux s.next s.next i =
      match req.exts i, s.mux i with
      | some c, none => some (interpretAsInitial c)
      | x, _ => x := by
    intro i
    unfold deltaHeap
    rw [alloc_heap_next]
    cases hq : req.exts i with
    | none => rfl
    | some c =>
      cases hm : s.mux i with
      | none => simp
      | some m =>
        have := (h.mux i m hm).1
        simp only
        rw [if_neg (by omega)]
  constructor
  · rintro e ⟨i, c, h1, h2, h3⟩
    have := congrFun e i
    rw [hcell, h1, h2] at this
    simp only [Option.some.injEq] at this
    exact (interpret_eq c).1 this h3
  · intro hu
    funext i
    rw [hcell]
    cases hq : req.exts i with
    | none => rfl
    | some c =>
      cases hm : s.mux i with
      | none =>
        simp only [Option.some.injEq]
        exact (interpret_eq c).2 fun hc => hu ⟨i, c, hq, hm, hc⟩
      | some m => rfl

/-- C91: a request that got a new response and is sent again gets the same response. It is recognised, so that the handler does
not run and nothing changes, exactly if the request does not name an extension for the first time without lists or without
rooms; otherwise the handler runs again, and a failure of it is passed on. -/
theorem C91_retry (zero : β) (ts : List (Req β × Res ρ)) (req : Req β) (hpos : req.pos ≠ 0) (h1 h2 : Res ρ) (r : Conn.Resp ρ)
    (ho : (step (run zero ts) req h1).2 = .fresh r) :
    let s' := (step (run zero ts) req h1).1
    (¬ Unstable (run zero ts) req → (step s' req h2).2 = .cached r ∧ (step s' req h2).1.conn = s'.conn ∧
      (step s' req h2).1.mux = s'.mux ∧ ∀ i, (step s' req h2).1.setting i = s'.setting i) ∧
    (Unstable (run zero ts) req → (step s' req h2).2 = match h2 with | .ok _ => .fresh r | _ => .failed) := by
  have h := inv_run zero ts
  generalize run zero ts = s at h ho
  intro s'
  have h' : Inv s' := inv_step h req h1
  have hrem := remembered h req h1 r ho
  rw [step_out, answer_eq h] at ho
  -- the connection the retry sees
  have hconn : s'.conn = { (answer s req h1).1 with
      last := { (answer s req h1).1.last with body := (req.rest, s'.heap s'.owner) } } := by
    have hl := conn_last h.conn ⟨req.pos, (req.rest, req.exts)⟩ h1.toOption
    rw [← answer_eq h] at hl ho
    have hb := step_buf s req h1
    rcases step_owner s req h1 with ⟨_, _, _, e1, e2⟩ | ⟨e, _⟩
    · rcases hl with ⟨_, _, hl⟩ | ⟨hl, _⟩
      · rw [hl]
        show (⟨⟨s'.lastReq, (s'.lastRest, s'.heap s'.owner)⟩, s'.buf, s'.lastPos⟩ : Conn.State (β × Exts) ρ) = _
        rw [show s'.lastReq = req.pos from e2, show s'.lastRest = req.rest from e1, show s'.buf = _ from hb.1,
          show s'.lastPos = _ from hb.2]
      · exact absurd ho (hl r)
    · exact absurd ho (e r)
  have hretry := retry_body h.conn ⟨req.pos, (req.rest, req.exts)⟩ hpos h1.toOption h2.toOption (answer s req h1).1 r
    (by rw [answer_eq h]; exact Prod.ext rfl ho) (req.rest, s'.heap s'.owner)
  rw [← hconn, ← answer_eq h'] at hretry
  refine ⟨fun hu => ?_, fun hu => ?_⟩
  · have he : s'.heap s'.owner = req.exts := hrem.2 hu
    rw [if_pos (by rw [he])] at hretry
    have hout : (answer s' req h2).2 = .cached r := by rw [hretry]
    have hran : ran (answer s' req h2).2 h2 = false := by rw [hout]; rfl
    have hb := step_buf s' req h2
    refine ⟨by rw [step_out, hout], ?_, by rw [step_mux, hran]; rfl, fun i => ?_⟩
    · rcases step_owner s' req h2 with ⟨q, e, _⟩ | ⟨_, e1, e2, e3⟩
      · rw [hout] at e; cases e
      · show (⟨⟨(step s' req h2).1.lastReq, ((step s' req h2).1.lastRest, (step s' req h2).1.heap (step s' req h2).1.owner)⟩,
          (step s' req h2).1.buf, (step s' req h2).1.lastPos⟩ : Conn.State (β × Exts) ρ) = _
        rw [e1, e2, e3, hb.1, hb.2, hretry, step_heap, hran]
        simp only [Bool.false_eq_true, if_false]
        rw [alloc_heap_lt req h'.owner]
        rfl
    · unfold State.setting
      rw [step_mux, step_heap, hran]
      simp only [Bool.false_eq_true, if_false]
      cases hm : s'.mux i with
      | none => rfl
      | some m => simp only [Option.bind_some]; rw [alloc_heap_lt req (h'.mux i m hm).1]
  · have hne : s'.heap s'.owner ≠ req.exts := fun e => hrem.1 e hu
    rw [if_neg (by simpa using hne)] at hretry
    rw [step_out, hretry]
    cases h2 <;> rfl

/-- A handled request does not change when it is handled a second time. -/
theorem stable_second (s : State β ρ) (req : Req β) (hd : Res ρ) (r : Conn.Resp ρ)
    (ho : (step s req hd).2 = .fresh r) : ¬ Unstable (step s req hd).1 req := by
  rintro ⟨i, c, h1, h2, _⟩
  rw [step_out] at ho
  have hran : ran (answer s req hd).2 hd = true := by rw [ho]; rfl
  rw [step_mux, hran] at h2
  simp only [if_true, deltaMux] at h2
  rw [alloc_heap_next, h1] at h2
  cases h2

/-- C91: if the first retry does not fail, every further one is recognised and gets the same response. -/
theorem C91_second (zero : β) (ts : List (Req β × Res ρ)) (req : Req β) (hpos : req.pos ≠ 0) (h1 h3 : Res ρ) (d : ρ) (r : Conn.Resp ρ)
    (ho : (step (run zero ts) req h1).2 = .fresh r) :
    (step (step (step (run zero ts) req h1).1 req (.ok d)).1 req h3).2 = .cached r := by
  by_cases hu : Unstable (run zero ts) req
  · have h2 := (C91_retry zero ts req hpos h1 (.ok d) r ho).2 hu
    have hrun : run zero (ts ++ [(req, h1)]) = (step (run zero ts) req h1).1 := by
      unfold run; rw [List.foldl_append]; rfl
    rw [← hrun] at h2 ⊢
    refine ((C91_retry zero (ts ++ [(req, h1)]) req hpos (.ok d) h3 r h2).1 ?_).1
    rw [hrun]
    exact stable_second _ _ _ r ho
  · have h2 := (C91_retry zero ts req hpos h1 (.ok d) r ho).1 hu
    have h3' := ((C91_retry zero ts req hpos h1 h3 r ho).1 hu).1
    have i1 := inv_step (inv_run zero ts) req h1
    rw [step_out, answer_eq (inv_step i1 req (.ok d)), h2.2.1, ← answer_eq i1, ← step_out]
    exact h3'

/-! ### Violations -/

def typing (c : Core) : Exts := fun i => if i = 3 then some c else none

/-- C91 (and C15) is violated by a request that enables an extension and leaves lists and rooms to their defaults: handling it
fills the defaults into the remembered request, so that the same request sent again is taken for a different one and handled
again. -/
theorem C91_violated_retry :
    let q : Req Nat := ⟨1, 7, typing { enabled := some true }⟩
    let s := run (ρ := String) 0 [(⟨0, 7, fun _ => none⟩, .ok "a")]
    let s' := (step s q (.ok "b")).1
    (step s q (.ok "b")).2 = .fresh ⟨2, "b"⟩ ∧ (step s' q (.ok "c")).2 = .fresh ⟨2, "b"⟩ ∧
      (step s' q (.ok "c")).1.buf = [⟨1, "a"⟩, ⟨2, "b"⟩, ⟨3, "c"⟩] ∧ (step s' q .late).2 = .failed := by decide +kernel

/-- C91 (and C18) is violated by a request that fails late: its extension settings stay, and as they are written into the
remembered request, the request sent again can be taken for that one, and is answered from the buffer without being handled. -/
theorem C91_violated_failed :
    let b : Req Nat := ⟨1, 7, typing { enabled := some true, lists := some ["l"], rooms := some [] }⟩
    let c : Req Nat := ⟨1, 7, typing { enabled := some true, lists := some ["m"], rooms := some [] }⟩
    let s := run (ρ := String) 0 [(⟨0, 7, fun _ => none⟩, .ok "a"), (b, .ok "b")]
    let s' := (step s c .late).1
    (step s c .late).2 = .failed ∧ s'.setting 3 = some { enabled := some true, lists := some ["m"], rooms := some [] } ∧
      (step s' c (.ok "c")).2 = .cached ⟨2, "b"⟩ := by decide +kernel

/-- A request that is recognised, and one that is not. -/
example : ¬ Unstable (run (ρ := String) 0 [(⟨0, 7, typing { enabled := some true }⟩, .ok "a")]) (⟨1, 7, typing { enabled := some false }⟩ : Req Nat) := by
  rintro ⟨i, c, h1, h2, _⟩
  have h1 : (if i = 3 then some _ else none) = some c := h1
  split at h1
  · rename_i hi; subst hi; revert h2; decide +kernel
  · cases h1

example : Unstable (run (ρ := String) 0 [(⟨0, 7, fun _ => none⟩, .ok "a")]) (⟨1, 7, typing { enabled := some true }⟩ : Req Nat) :=
  ⟨3, { enabled := some true }, rfl, by decide +kernel, .inl rfl⟩

example : applied (ρ := String) 0 [(⟨0, 7, typing { enabled := some true }⟩, .ok "a"), (⟨1, 7, typing { lists := some [] }⟩, Res.late),
    ((⟨1, 7, typing { lists := some ["x"] }⟩ : Req Nat), .early)] 3 = [some { enabled := some true }, some { lists := some [] }] := by
  decide +kernel

end Verif.SharedReq
