import Verif.ConnFlow
import Verif.ConnProps
/-! What a client will have once the responses on their way have arrived; for C121 and others. -/
namespace Verif.ConnFlow
open Verif

variable {ρ ν : Type} {put : ν → ρ → ν}

/-! ### Specification -/

/-- What is in the responses the client has not had. -/
def unacked (pos : Int) (buf : List (Conn.Resp ρ)) : List ρ := (buf.filter fun r => decide (pos < r.pos)).map (·.data)

/-- What is in the request in progress. -/
def Client.doing (c : Client ρ ν) : List ρ :=
  match c.busy with
  | some b => [b.out]
  | none => []

/-- What the client will have when everything on its way has arrived. -/
def Client.view (put : ν → ρ → ν) (c : Client ρ ν) (k : Conn.State Nat ρ) : ν :=
  (unacked c.pos k.buf ++ c.doing).foldl put c.has

/-- The client has to connect again. -/
def Client.Away (c : Client ρ ν) : Prop := c.busy = none ∧ (c.pos = 0 ∨ c.conn = none)

/-- What a connection always satisfies. -/
structure CI (c : Client ρ ν) : Prop where
  conn : ∀ k, c.conn = some k → Conn.Inv k
  nonneg : 0 ≤ c.pos
  busy : ∀ b, c.busy = some b → ∃ k, c.conn = some k ∧ (Conn.step k ⟨c.pos, b.body⟩ none).2 = .failed

/-- Everything that is in a response satisfies this. -/
def Client.All (P : ρ → Prop) (c : Client ρ ν) : Prop :=
  (∀ k, c.conn = some k → ∀ r ∈ k.buf, P r.data) ∧ ∀ b, c.busy = some b → P b.out

theorem Client.All.mono {P Q : ρ → Prop} {c : Client ρ ν} (h : c.All P) (hpq : ∀ d, P d → Q d) : c.All Q :=
  ⟨fun k hk r hr => hpq _ (h.1 k hk r hr), fun b hb => hpq _ (h.2 b hb)⟩

/-! ### The buffer -/

theorem head_next {p : Int} {l : List (Conn.Resp ρ)} (hc : Conn.Consec p l) (pos : Int) (r : Conn.Resp ρ)
    (h : l.find? (fun r => decide (pos < r.pos)) = some r) :
    l.filter (fun r => decide (pos < r.pos)) = r :: l.filter (fun x => decide (r.pos < x.pos)) := by
  induction l generalizing p with
  | nil => cases h
  | cons x l ih =>
    obtain ⟨hx, hl⟩ := hc
    have hall := Conn.consec_pos hl
    by_cases hp : pos < x.pos
    · rw [List.find?_cons_of_pos (by simpa using hp)] at h
      cases h
      rw [List.filter_cons_of_pos (by simpa using hp), List.filter_cons_of_neg (by simp)]
      congr 1
      apply List.filter_congr
      intro y hy
      have := hall y hy
      rw [decide_eq_true (show pos < y.pos by omega), decide_eq_true (show r.pos < y.pos by omega)]
    · rw [List.find?_cons_of_neg (by simpa using hp)] at h
      have hr := List.find?_some h
      simp only [decide_eq_true_eq] at hr
      rw [List.filter_cons_of_neg (by simpa using hp), List.filter_cons_of_neg (by simp; omega)]
      exact ih hl h

theorem unacked_next {p : Int} {l : List (Conn.Resp ρ)} (hc : Conn.Consec p l) (pos : Int) (r : Conn.Resp ρ)
    (h : l.find? (fun r => decide (pos < r.pos)) = some r) : unacked pos l = r.data :: unacked r.pos l := by
  unfold unacked
  rw [head_next hc pos r h, List.map_cons]

theorem below (a b : Int) : decide (decide (a ≤ b) = true ∧ decide (a < b) = true) = decide (a < b) := by
  by_cases h : a < b
  · simp [h, Int.le_of_lt h]
  · simp [h]

theorem unacked_purge (pos : Int) (l : List (Conn.Resp ρ)) :
    unacked pos (l.filter fun r => decide (pos ≤ r.pos)) = unacked pos l := by
  unfold unacked
  rw [List.filter_filter]
  congr 1
  apply List.filter_congr
  intro r _
  by_cases h : pos < r.pos
  · simp [h, Int.le_of_lt h]
  · simp [h]

theorem unacked_nil {pos : Int} {l : List (Conn.Resp ρ)} (h : ∀ r ∈ l, r.pos ≤ pos) : unacked pos l = [] := by
  unfold unacked
  rw [List.filter_eq_nil_iff.2, List.map_nil]
  intro r hr
  have := h r hr
  simp; omega

theorem unacked_last {k : Conn.State Nat ρ} (h : Conn.Inv k) {pos : Int} (hp : k.lastPos ≤ pos) : unacked pos k.buf = [] := by
  apply unacked_nil
  intro r hr
  have := Conn.consec_pos h.consec r hr
  omega

theorem find_purge (pos : Int) (l : List (Conn.Resp ρ)) :
    (l.filter fun r => decide (pos ≤ r.pos)).find? (fun r => decide (pos < r.pos)) = l.find? (fun r => decide (pos < r.pos)) := by
  rw [List.find?_filter]
  congr 1
  funext x
  exact below _ _

/-! ### The steps -/

theorem start_ci (v : ν) : CI ({ has := v } : Client ρ ν) := ⟨by simp, Int.le_refl 0, by simp⟩

theorem start_all (P : ρ → Prop) (v : ν) : ({ has := v } : Client ρ ν).All P := ⟨by simp, by simp⟩

theorem lose_ci {c : Client ρ ν} (h : CI c) : CI c.lose := ⟨by simp [Client.lose], h.nonneg, by simp [Client.lose]⟩

theorem lose_all {P : ρ → Prop} (c : Client ρ ν) : c.lose.All P := ⟨by simp [Client.lose], by simp [Client.lose]⟩

theorem lose_away (c : Client ρ ν) : c.lose.Away := ⟨rfl, Or.inr rfl⟩

theorem calls_iff {c : Client ρ ν} {body : Nat} :
    c.calls body = true ↔ ∃ k, c.target = some k ∧ (Conn.step k ⟨c.pos, body⟩ none).2 = .failed := by
  unfold Client.calls
  cases ht : c.target with
  | none => simp
  | some k =>
    simp only [Option.some.injEq, exists_eq_left']
    cases (Conn.step k ⟨c.pos, body⟩ none).2 <;> simp

theorem target_zero {c : Client ρ ν} (h : c.pos = 0) : c.target = some (Conn.init 0) := if_pos h

theorem target_pos {c : Client ρ ν} (h : c.pos ≠ 0) : c.target = c.conn := if_neg h

theorem calls_zero {c : Client ρ ν} (h : c.pos = 0) (body : Nat) : c.calls body = true := by
  rw [calls_iff]
  refine ⟨_, target_zero h, ?_⟩
  rw [h]
  simp [Conn.step, Conn.init, Conn.scan]

theorem serve_ci {c : Client ρ ν} (h : CI c) {b : Busy ρ} (hc : c.calls b.body = true) : CI (c.serve b) := by
  obtain ⟨k, hk, hs⟩ := calls_iff.1 hc
  refine ⟨?_, h.nonneg, ?_⟩
  · intro k' hk'
    by_cases h0 : c.pos = 0
    · rw [show (c.serve b).conn = c.target from rfl, target_zero h0] at hk'
      cases hk'; exact Conn.inv_init 0
    · rw [show (c.serve b).conn = c.target from rfl, target_pos h0] at hk'
      exact h.conn k' hk'
  · intro b' hb'
    cases hb'
    exact ⟨k, hk, hs⟩

theorem serve_all {P : ρ → Prop} {c : Client ρ ν} (h : c.All P) {b : Busy ρ} (hb : P b.out) : (c.serve b).All P := by
  refine ⟨?_, fun b' hb' => by cases hb'; exact hb⟩
  intro k hk
  by_cases h0 : c.pos = 0
  · rw [show (c.serve b).conn = c.target from rfl, target_zero h0] at hk
    cases hk; simp [Conn.init]
  · rw [show (c.serve b).conn = c.target from rfl, target_pos h0] at hk
    exact h.1 k hk

/-- The first request of a connection: the client will have what is in it. -/
theorem serve_first {c : Client ρ ν} (h0 : c.pos = 0) (b : Busy ρ) :
    ∃ k, (c.serve b).conn = some k ∧ (c.serve b).view put k = put c.has b.out :=
  ⟨_, target_zero h0, by simp [Client.view, Client.serve, Client.doing, unacked, Conn.init]⟩

/-- A later one: what is in it comes last. -/
theorem serve_later {c : Client ρ ν} {b : Busy ρ} (hc : c.calls b.body = true) (h0 : c.pos ≠ 0) (hb : c.busy = none) :
    ∃ k, c.conn = some k ∧ (c.serve b).conn = some k ∧ (c.serve b).view put k = put (c.view put k) b.out := by
  obtain ⟨k, hk, _⟩ := calls_iff.1 hc
  refine ⟨k, (target_pos h0).symm.trans hk, hk, ?_⟩
  unfold Client.view Client.serve Client.doing
  simp only [hb, List.append_nil, List.foldl_append, List.foldl_cons, List.foldl_nil]

/-- More is put in the response, in place of what was there. -/
theorem swap_ci {c : Client ρ ν} (h : CI c) {b : Busy ρ} (hb : c.busy = some b) (o : ρ) :
    CI { c with busy := some { b with out := o } } := by
  refine ⟨h.conn, h.nonneg, ?_⟩
  intro b' hb'
  cases hb'
  exact h.busy b hb

/-- The cases of a request that does not reach the handler. -/
theorem repeated_cases {c : Client ρ ν} (h : CI c) (hb : c.busy = none) {body : Nat} (hc : c.calls body = false) (arrives : Bool) :
    (c.repeated put body arrives).busy = none ∧
    ((c.repeated put body arrives).has = c.has ∧ ((c.repeated put body arrives).pos = 0 ∨ (c.repeated put body arrives) = c) ∧
      ((c.repeated put body arrives).conn = c.conn) ∨
     ∃ k d r, c.conn = some k ∧ c.pos ≠ 0 ∧ (c.repeated put body arrives).conn = some { k with buf := k.buf.drop d } ∧
      k.buf.drop d = k.buf.filter (fun r => decide (c.pos ≤ r.pos)) ∧ Conn.Inv { k with buf := k.buf.drop d } ∧
      k.buf.find? (fun r => decide (c.pos < r.pos)) = some r ∧
      ((arrives = true ∧ (c.repeated put body arrives).pos = r.pos ∧ (c.repeated put body arrives).has = put c.has r.data) ∨
       (arrives = false ∧ (c.repeated put body arrives).pos = c.pos ∧ (c.repeated put body arrives).has = c.has))) := by
  have h0 : c.pos ≠ 0 := fun h0 => by rw [calls_zero h0] at hc; cases hc
  unfold Client.repeated
  rcases Option.eq_none_or_eq_some c.conn with hn | ⟨k, hk⟩
  · rw [hn]
    cases arrives with
    | true => exact ⟨hb, Or.inl ⟨rfl, Or.inl rfl, rfl⟩⟩
    | false => exact ⟨hb, Or.inl ⟨rfl, Or.inr rfl, hn⟩⟩
  · rw [hk]
    simp only
    have hi := h.conn k hk
    have hnf : (Conn.step k ⟨c.pos, body⟩ none).2 ≠ .failed := by
      intro hf
      rw [calls_iff.2 ⟨k, (target_pos h0).trans hk, hf⟩] at hc
      cases hc
    rcases Conn.step_cases hi ⟨c.pos, body⟩ none with ⟨e, _⟩ | ⟨_, _, _, d, d1, d2, d3, hcase⟩
    · rw [e]
      simp only
      cases arrives with
      | true => exact ⟨hb, Or.inl ⟨rfl, Or.inl rfl, rfl⟩⟩
      | false =>
        simp only [Bool.false_eq_true, if_false]
        refine ⟨hb, Or.inl ⟨trivial, Or.inr ?_, trivial⟩⟩
        rw [← hk]
    · rcases hcase with ⟨r, _, _, h6, e⟩ | ⟨_, ⟨_, e⟩ | ⟨_, h5, _⟩⟩
      · rw [e]
        simp only
        cases arrives with
        | true =>
          exact ⟨hb, Or.inr ⟨k, d, r, rfl, h0, rfl, d3, Conn.inv_purge hi d1 d2, h6, Or.inl ⟨rfl, rfl, rfl⟩⟩⟩
        | false =>
          exact ⟨hb, Or.inr ⟨k, d, r, rfl, h0, rfl, d3, Conn.inv_purge hi d1 d2, h6, Or.inr ⟨rfl, rfl, rfl⟩⟩⟩
      · rw [e] at hnf; exact absurd rfl hnf
      · cases h5

theorem repeated_ci {c : Client ρ ν} (h : CI c) (hb : c.busy = none) {body : Nat} (hc : c.calls body = false) (arrives : Bool) :
    CI (c.repeated put body arrives) := by
  obtain ⟨h1, ⟨_, h3, h4⟩ | ⟨k, d, r, _, _, h4, _, h6, h7, h8⟩⟩ := repeated_cases (put := put) h hb hc arrives
  · refine ⟨by rw [h4]; exact h.conn, ?_, by rw [h1]; simp⟩
    rcases h3 with h3 | h3
    · rw [h3]; exact Int.le_refl 0
    · rw [h3]; exact h.nonneg
  · refine ⟨(by rw [h4]; intro k' hk'; cases hk'; exact h6), ?_, by rw [h1]; simp⟩
    have := List.find?_some h7
    simp only [decide_eq_true_eq] at this
    have := h.nonneg
    rcases h8 with ⟨_, h8, _⟩ | ⟨_, h8, _⟩ <;> rw [h8] <;> omega

theorem repeated_all {P : ρ → Prop} {c : Client ρ ν} (h : CI c) (hb : c.busy = none) {body : Nat} (hc : c.calls body = false)
    (arrives : Bool) (ha : c.All P) : (c.repeated put body arrives).All P ∧
      ((c.repeated put body arrives).has = c.has ∨ ∃ d, P d ∧ (c.repeated put body arrives).has = put c.has d) := by
  obtain ⟨h1, ⟨h2, _, h4⟩ | ⟨k, d, r, hk, _, h4, _, _, h7, h8⟩⟩ := repeated_cases (put := put) h hb hc arrives
  · exact ⟨⟨by rw [h4]; exact ha.1, by rw [h1]; simp⟩, Or.inl h2⟩
  · refine ⟨⟨(by rw [h4]; intro k' hk'; cases hk'; exact fun r hr => ha.1 k hk r (List.mem_of_mem_drop hr)), by rw [h1]; simp⟩, ?_⟩
    rcases h8 with ⟨_, _, h8⟩ | ⟨_, _, h8⟩
    · exact Or.inr ⟨r.data, ha.1 k hk r (List.mem_of_find?_eq_some h7), h8⟩
    · exact Or.inl h8

/-- Nothing is lost, or the client has to connect again. -/
theorem repeated_view {c : Client ρ ν} (h : CI c) (hb : c.busy = none) {body : Nat} (hc : c.calls body = false) (arrives : Bool) :
    (c.repeated put body arrives).Away ∨
    ∃ k k', c.conn = some k ∧ (c.repeated put body arrives).conn = some k' ∧ (c.repeated put body arrives).view put k' = c.view put k := by
  obtain ⟨h1, ⟨_, h3, h4⟩ | ⟨k, d, r, hk, _, h4, h5, h6, h7, h8⟩⟩ := repeated_cases (put := put) h hb hc arrives
  · rcases Option.eq_none_or_eq_some c.conn with hn | ⟨k, hk⟩
    · exact Or.inl ⟨h1, Or.inr (h4.trans hn)⟩
    · rcases h3 with h3 | h3
      · exact Or.inl ⟨h1, Or.inl h3⟩
      · exact Or.inr ⟨k, k, hk, h4.trans hk, by rw [h3]⟩
  · refine Or.inr ⟨k, _, hk, h4, ?_⟩
    have hu : unacked c.pos (k.buf.drop d) = unacked c.pos k.buf := by rw [h5]; exact unacked_purge _ _
    unfold Client.view Client.doing
    rw [h1, hb]
    simp only [List.append_nil]
    rcases h8 with ⟨_, h8, h9⟩ | ⟨_, h8, h9⟩
    · rw [h8, h9, ← hu]
      have hf : (k.buf.drop d).find? (fun x => decide (c.pos < x.pos)) = some r := by rw [h5, find_purge]; exact h7
      rw [unacked_next h6.consec c.pos r hf]
      rfl
    · rw [h8, h9, hu]

/-- How a request ends. -/
theorem finish_cases {c : Client ρ ν} (h : CI c) {b : Busy ρ} (hb : c.busy = some b) (fails arrives : Bool) :
    ∃ k k', c.conn = some k ∧ (c.finish put b fails arrives).conn = some k' ∧ (c.finish put b fails arrives).busy = none ∧
      Conn.Inv k' ∧ c.pos ≤ k.lastPos ∧
      (fails = true ∧ unacked c.pos k'.buf = unacked c.pos k.buf ∧ (∀ r ∈ k'.buf, r ∈ k.buf) ∧
          (c.finish put b fails arrives).pos = c.pos ∧ (c.finish put b fails arrives).has = c.has ∨
       fails = false ∧ unacked c.pos k'.buf = unacked c.pos k.buf ++ [b.out] ∧ (∀ r ∈ k'.buf, r ∈ k.buf ∨ r.data = b.out) ∧
        k'.lastPos = k.lastPos + 1 ∧
        ∃ r, k'.buf.find? (fun x => decide (c.pos < x.pos)) = some r ∧ (k.lastPos = c.pos → r.pos = k'.lastPos) ∧
          ((arrives = true ∧ (c.finish put b fails arrives).pos = r.pos ∧ (c.finish put b fails arrives).has = put c.has r.data) ∨
           (arrives = false ∧ (c.finish put b fails arrives).pos = c.pos ∧ (c.finish put b fails arrives).has = c.has))) := by
  obtain ⟨k, hc, hst⟩ := h.busy b hb
  have hi := h.conn k hc
  refine ⟨k, ?_⟩
  unfold Client.finish
  rw [hc]
  simp only
  have hinv := Conn.inv_step hi ⟨c.pos, b.body⟩ (if fails then none else some b.out)
  have hnone := Conn.step_cases hi ⟨c.pos, b.body⟩ none
  rcases hnone with ⟨e, _⟩ | ⟨g1, _, hle, d', _, _, _, gcase⟩
  · rw [e] at hst; cases hst
  rcases gcase with ⟨r', _, _, _, e⟩ | ⟨g4, _⟩
  · rw [e] at hst; cases hst
  rcases Conn.step_cases hi ⟨c.pos, b.body⟩ (if fails then none else some b.out) with ⟨_, h1, h2, h3⟩ | ⟨_, _, _, d, _, _, hd3, hcase⟩
  · exfalso
    rcases g1 with g1 | g1 | ⟨r, hr, g1⟩
    · exact h1 g1
    · exact h2 g1
    · exact h3 r hr g1
  have hu : unacked c.pos (k.buf.drop d) = unacked c.pos k.buf := by rw [hd3]; exact unacked_purge _ _
  rcases hcase with ⟨r, h4, h5, h6, _⟩ | ⟨_, ⟨h5, e⟩ | ⟨dta, h5, e⟩⟩
  · exfalso
    rcases g4 with g4 | g4 | g4
    · exact h4 g4
    · exact g4 h5
    · rw [g4.2] at h6; cases h6
  · cases fails with
    | false => cases h5
    | true =>
      rw [e] at hinv ⊢
      exact ⟨_, trivial, rfl, rfl, hinv, hle, Or.inl ⟨rfl, hu, fun r hr => List.mem_of_mem_drop hr, rfl, rfl⟩⟩
  · cases fails with
    | true => cases h5
    | false =>
      cases h5
      rw [e] at hinv ⊢
      simp only at hle
      have hlt : c.pos < k.lastPos + 1 := by omega
      have hf : (k.buf.drop d ++ [(⟨k.lastPos + 1, b.out⟩ : Conn.Resp ρ)]).find? (fun x => decide (c.pos < x.pos)) =
          some ((k.buf.find? (fun x => decide (c.pos < x.pos))).getD ⟨k.lastPos + 1, b.out⟩) := by
        rw [List.find?_append, hd3, find_purge]
        cases k.buf.find? (fun x => decide (c.pos < x.pos)) with
        | some r => rfl
        | none =>
          rw [Option.getD_none, Option.none_or, List.find?_cons_of_pos (by simpa using hlt)]
      have hua : unacked c.pos (k.buf.drop d ++ [(⟨k.lastPos + 1, b.out⟩ : Conn.Resp ρ)]) = unacked c.pos k.buf ++ [b.out] := by
        rw [← hu]
        unfold unacked
        rw [List.filter_append, List.map_append]
        simp [hlt]
      have hm : ∀ r ∈ k.buf.drop d ++ [(⟨k.lastPos + 1, b.out⟩ : Conn.Resp ρ)], r ∈ k.buf ∨ r.data = b.out := by
        intro r hr
        rcases List.mem_append.1 hr with hr | hr
        · exact Or.inl (List.mem_of_mem_drop hr)
        · rw [List.mem_singleton] at hr; subst hr; exact Or.inr rfl
      have hlast : k.lastPos = c.pos →
          ((k.buf.find? (fun x => decide (c.pos < x.pos))).getD ⟨k.lastPos + 1, b.out⟩).pos = k.lastPos + 1 := by
        intro hl
        have : k.buf.find? (fun x => decide (c.pos < x.pos)) = none := by
          rw [List.find?_eq_none]
          intro r hr
          have := Conn.consec_pos hi.consec r hr
          simp only [decide_eq_true_eq]; omega
        rw [this]; rfl
      cases arrives with
      | true =>
        exact ⟨_, trivial, rfl, rfl, hinv, hle, Or.inr ⟨rfl, hua, hm, rfl, _, hf, hlast, Or.inl ⟨rfl, rfl, rfl⟩⟩⟩
      | false =>
        exact ⟨_, trivial, rfl, rfl, hinv, hle, Or.inr ⟨rfl, hua, hm, rfl, _, hf, hlast, Or.inr ⟨rfl, rfl, rfl⟩⟩⟩

theorem finish_busy {c : Client ρ ν} (h : CI c) {b : Busy ρ} (hb : c.busy = some b) (fails arrives : Bool) :
    (c.finish put b fails arrives).busy = none := by
  obtain ⟨_, _, _, _, h3, _⟩ := finish_cases (put := put) h hb fails arrives
  exact h3

theorem finish_ci {c : Client ρ ν} (h : CI c) {b : Busy ρ} (hb : c.busy = some b) (fails arrives : Bool) :
    CI (c.finish put b fails arrives) := by
  obtain ⟨k, k', h1, h2, h3, h4, h5, h6⟩ := finish_cases (put := put) h hb fails arrives
  refine ⟨(by rw [h2]; intro k hk; cases hk; exact h4), ?_, by rw [h3]; simp⟩
  have h0 := h.nonneg
  rcases h6 with ⟨_, _, _, h6, _⟩ | ⟨_, _, _, _, r, hr, _, ⟨_, h6, _⟩ | ⟨_, h6, _⟩⟩
  · rw [h6]; exact h0
  · have := List.find?_some hr
    simp only [decide_eq_true_eq] at this
    rw [h6]; omega
  · rw [h6]; exact h0

theorem finish_all {P : ρ → Prop} {c : Client ρ ν} (h : CI c) {b : Busy ρ} (hb : c.busy = some b) (fails arrives : Bool)
    (ha : c.All P) : (c.finish put b fails arrives).All P ∧
      ((c.finish put b fails arrives).has = c.has ∨ ∃ d, P d ∧ (c.finish put b fails arrives).has = put c.has d) := by
  obtain ⟨k, k', h1, h2, h3, h4, h5, h6⟩ := finish_cases (put := put) h hb fails arrives
  have hk' : ∀ r ∈ k'.buf, P r.data := by
    intro r hr
    rcases h6 with ⟨_, _, h6, _⟩ | ⟨_, _, h6, _⟩
    · exact ha.1 k h1 r (h6 r hr)
    · rcases h6 r hr with h | h
      · exact ha.1 k h1 r h
      · rw [h]; exact ha.2 b hb
  refine ⟨⟨(by rw [h2]; intro k hk; cases hk; exact hk'), by rw [h3]; simp⟩, ?_⟩
  rcases h6 with ⟨_, _, _, _, h6⟩ | ⟨_, _, _, _, r, hr, _, ⟨_, _, h6⟩ | ⟨_, _, h6⟩⟩
  · exact Or.inl h6
  · exact Or.inr ⟨r.data, hk' r (List.mem_of_find?_eq_some hr), h6⟩
  · exact Or.inl h6

/-- A request that does not fail: nothing is lost. -/
theorem finish_view {c : Client ρ ν} (h : CI c) {b : Busy ρ} (hb : c.busy = some b) (arrives : Bool) :
    ∃ k k', c.conn = some k ∧ (c.finish put b false arrives).conn = some k' ∧ (c.finish put b false arrives).view put k' = c.view put k := by
  obtain ⟨k, k', h1, h2, h3, h4, h5, h6⟩ := finish_cases (put := put) h hb false arrives
  refine ⟨k, k', h1, h2, ?_⟩
  unfold Client.view Client.doing
  rw [h3, hb]
  simp only [List.append_nil]
  rcases h6 with ⟨hh, _⟩ | ⟨_, hu, _, _, r, hr, _, ⟨_, h6, h7⟩ | ⟨_, h6, h7⟩⟩
  · cases hh
  · rw [← hu, h6, h7, unacked_next h4.consec c.pos r hr]; rfl
  · rw [← hu, h6, h7]

/-- A request that fails: what was in it is gone. -/
theorem finish_failed {c : Client ρ ν} (h : CI c) {b : Busy ρ} (hb : c.busy = some b) (arrives : Bool) :
    ∃ k k', c.conn = some k ∧ (c.finish put b true arrives).conn = some k' ∧ (c.finish put b true arrives).pos = c.pos ∧
      (c.finish put b true arrives).view put k' = (unacked c.pos k.buf).foldl put c.has := by
  obtain ⟨k, k', h1, h2, h3, h4, h5, h6⟩ := finish_cases (put := put) h hb true arrives
  refine ⟨k, k', h1, h2, ?_⟩
  unfold Client.view Client.doing
  rw [h3]
  simp only [List.append_nil]
  rcases h6 with ⟨_, hu, _, h6, h7⟩ | ⟨hh, _⟩
  · rw [h6, h7, hu]; exact ⟨rfl, rfl⟩
  · cases hh

/-- A client that had every response and gets this one has every response. -/
theorem finish_arrived {c : Client ρ ν} (h : CI c) {b : Busy ρ} (hb : c.busy = some b) {k : Conn.State Nat ρ} (hk : c.conn = some k)
    (hl : k.lastPos = c.pos) : ∃ k', (c.finish put b false true).conn = some k' ∧ k'.lastPos = (c.finish put b false true).pos ∧
      (c.finish put b false true).pos ≠ 0 := by
  obtain ⟨k0, k', h1, h2, h3, h4, h5, h6⟩ := finish_cases (put := put) h hb false true
  rw [hk] at h1; cases h1
  rcases h6 with ⟨hh, _⟩ | ⟨_, hu, _, hlp, r, hr, hrl, ⟨_, h6, h7⟩ | ⟨hh, _⟩⟩
  · cases hh
  · have h0 := h.nonneg
    refine ⟨k', h2, ?_, ?_⟩
    · rw [h6, hrl hl]
    · rw [h6, hrl hl, hlp]; omega
  · cases hh

end Verif.ConnFlow
