import Verif.AccountFlow
import Verif.ConnProps
import Verif.AccountDataProps
import Verif.DedupAccountProps
/-! C120: global account data from the pollers to the client. -/
namespace Verif.AccountFlow
open Verif

/-! ### Specification -/

/-- Nothing is on its way: no payload for the user's global account data, no update, no request, no response the client has not
had, and the client has a connection. -/
def CaughtUp (user : String) (s : State) : Prop :=
  (∀ p ∈ s.bus, ¬ (p.1 = user ∧ p.2.1 = "")) ∧ s.c.queue = [] ∧ s.c.busy = none ∧ s.c.pos ≠ 0 ∧
    ∃ k, s.c.conn = some k ∧ ∀ r ∈ k.buf, r.pos ≤ s.c.pos

/-- C120 as stated: a client that has caught up has the global account data of the table. -/
def Arrives (hash : String → Nat) (user : String) (ok : Mode) : Prop :=
  ∀ s, Run hash user ok s → CaughtUp user s → ∀ t d, ⟨user, "", t, d⟩ ∈ s.ded.db → s.c.has t = some d

/-- The table can be read, no request panics, and the extension is on in every request. -/
def Mode.good : Mode := ⟨False, False, False, False⟩

/-- A poller delivered this as global account data of the user. -/
def Delivered (user : String) (tr : List (DedupAccount.Op × Bool)) (t d : String) : Prop :=
  ∃ es f ok, (DedupAccount.Op.deliver user "" es f, ok) ∈ tr ∧ (t, d) ∈ es

/-! ### The last entry of a type -/

def view (d : Data) (t : String) : Option String := ((d.filter fun e => decide (e.1 = t)).getLast?).map (·.2)

theorem view_append (a b : Data) (t : String) : view (a ++ b) t = (view b t).or (view a t) := by
  unfold view
  rw [List.filter_append, List.getLast?_append]
  cases (b.filter fun e => decide (e.1 = t)).getLast? <;> rfl

theorem view_nil (t : String) : view [] t = none := rfl

theorem put_view (has : String → Option String) (d : Data) (t : String) : put has d t = (view d t).or (has t) := by
  induction d using Verif.Util.snocRec with
  | nil => rfl
  | append_singleton d e ih =>
    unfold put at ih ⊢
    rw [List.foldl_append, view_append]
    simp only [List.foldl_cons, List.foldl_nil, ih]
    by_cases h : t = e.1
    · subst h; simp [view]
    · rw [if_neg h]
      have : view [e] t = none := by
        unfold view; simp [List.filter_cons, Ne.symm h]
      rw [this]; rfl

theorem put_append (has : String → Option String) (a b : Data) : put has (a ++ b) = put (put has a) b := by
  unfold put; rw [List.foldl_append]

theorem put_some {has : String → Option String} {d : Data} {t v : String} (h : put has d t = some v) :
    (t, v) ∈ d ∨ has t = some v := by
  rw [put_view] at h
  cases hv : view d t with
  | none => rw [hv] at h; exact Or.inr h
  | some w =>
    rw [hv] at h
    cases h
    unfold view at hv
    obtain ⟨e, he, hw⟩ := Option.map_eq_some_iff.1 hv
    have := List.mem_filter.1 (List.mem_of_getLast? he)
    simp only [decide_eq_true_eq] at this
    left
    rw [← this.2, ← hw]
    exact this.1

/-- The rows of the table, as entries. -/
theorem view_rows (l : List AccountData.Row) (user : String) (t : String) (hu : ∀ r ∈ l, r.user = user ∧ r.room = "") :
    view (l.map fun r => (r.type, r.data)) t = AccountData.last l (user, "", t) := by
  unfold view AccountData.last
  rw [List.filter_map, List.getLast?_map, Option.map_map]
  congr 1
  congr 1
  apply List.filter_congr
  intro r hr
  obtain ⟨h1, h2⟩ := hu r hr
  simp [AccountData.Row.triple, h1, h2]

theorem last_filter (l : List AccountData.Row) (p : AccountData.Row → Bool) (k : String × String × String)
    (hp : ∀ r ∈ l, r.triple = k → p r = true) : AccountData.last (l.filter p) k = AccountData.last l k := by
  unfold AccountData.last
  rw [List.filter_filter]
  congr 2
  apply List.filter_congr
  intro r hr
  by_cases h : r.triple = k
  · simp [h, hp r hr h]
  · simp [h]

theorem view_all (db : List AccountData.Row) (user t : String) :
    view (allRows db user) t = AccountData.last db (user, "", t) := by
  unfold allRows AccountData.selectMany
  simp only [List.length_nil, if_true]
  rw [view_rows _ user]
  · apply last_filter
    intro r _ h
    simp only [AccountData.Row.triple, Prod.mk.injEq] at h
    simp [h.1, h.2.1]
  · intro r hr
    have := (List.mem_filter.1 hr).2
    simpa using this

theorem view_for (db : List AccountData.Row) (user t : String) (types : List String) :
    view (rowsFor db user types) t = if t ∈ types then AccountData.last db (user, "", t) else none := by
  unfold rowsFor AccountData.select
  rw [view_rows _ user]
  · split
    · rename_i ht
      apply last_filter
      intro r _ h
      simp only [AccountData.Row.triple, Prod.mk.injEq] at h
      simp [h.1, h.2.1, h.2.2, ht]
    · rename_i ht
      unfold AccountData.last
      have : List.filter (fun r : AccountData.Row => decide (r.triple = (user, "", t)))
          (List.filter (fun r => decide (r.user = user) && types.contains r.type && decide (r.room = "")) db) = [] := by
        rw [List.filter_eq_nil_iff]
        intro r hr h
        have hr := (List.mem_filter.1 hr).2
        simp only [AccountData.Row.triple, Prod.mk.injEq, decide_eq_true_eq] at h
        simp only [Bool.and_eq_true, List.contains_iff_mem] at hr
        exact ht (h.2.2 ▸ hr.1.2)
      rw [this]; rfl
  · intro r hr
    have := (List.mem_filter.1 hr).2
    simp only [Bool.and_eq_true, decide_eq_true_eq] at this
    exact ⟨this.1.1, this.2⟩

/-! ### What is on its way from the connection to the client -/

def outOf (c : Client) : Data :=
  match c.busy with
  | some b => b.out
  | none => []

def unacked (pos : Int) (buf : List (Conn.Resp Data)) : Data := (buf.filter fun r => decide (pos < r.pos)).flatMap (·.data)

def pend (c : Client) (k : Conn.State Nat Data) : Data := unacked c.pos k.buf ++ (outOf c ++ c.queue.flatten)

theorem head_next {p : Int} {l : List (Conn.Resp Data)} (hc : Conn.Consec p l) (pos : Int) (r : Conn.Resp Data)
    (h : l.find? (fun r => decide (pos < r.pos)) = some r) :
    l.filter (fun r => decide (pos < r.pos)) = r :: l.filter (fun x => decide (r.pos < x.pos)) := by
  induction l generalizing p with
  | nil => cases h
  | cons x l ih =>
    obtain ⟨hx, hl⟩ := hc
    have hall := Conn.consec_pos hl
    by_cases hp : pos < x.pos
    · rw [List.find?_cons_of_pos (by simpa using hp)] at h
      cases h
      rw [List.filter_cons_of_pos (by simpa using hp), List.filter_cons_of_neg (by simp)]
      congr 1
      apply List.filter_congr
      intro y hy
      have := hall y hy
      rw [decide_eq_true (show pos < y.pos by omega), decide_eq_true (show r.pos < y.pos by omega)]
    · rw [List.find?_cons_of_neg (by simpa using hp)] at h
      have hr := List.find?_some h
      simp only [decide_eq_true_eq] at hr
      rw [List.filter_cons_of_neg (by simpa using hp), List.filter_cons_of_neg (by simp; omega)]
      exact ih hl h

theorem unacked_next {p : Int} {l : List (Conn.Resp Data)} (hc : Conn.Consec p l) (pos : Int) (r : Conn.Resp Data)
    (h : l.find? (fun r => decide (pos < r.pos)) = some r) : unacked pos l = r.data ++ unacked r.pos l := by
  unfold unacked
  rw [head_next hc pos r h, List.flatMap_cons]

theorem below (a b : Int) : decide (decide (a ≤ b) = true ∧ decide (a < b) = true) = decide (a < b) := by
  by_cases h : a < b
  · simp [h, Int.le_of_lt h]
  · simp [h]

theorem unacked_purge (pos : Int) (l : List (Conn.Resp Data)) :
    unacked pos (l.filter fun r => decide (pos ≤ r.pos)) = unacked pos l := by
  unfold unacked
  rw [List.filter_filter]
  congr 1
  apply List.filter_congr
  intro r _
  by_cases h : pos < r.pos
  · simp [h, Int.le_of_lt h]
  · simp [h]

/-- What a connection always satisfies. -/
structure CI (c : Client) : Prop where
  conn : ∀ k, c.conn = some k → Conn.Inv k
  nonneg : 0 ≤ c.pos
  busy : ∀ b, c.busy = some b → ∃ k, c.conn = some k ∧ (Conn.step k ⟨c.pos, b.body⟩ none).2 = .failed ∧
    (b.loaded = false → c.pos = 0)

/-- What the client will have when everything on its way has arrived. -/
def Due (c : Client) (t v : String) : Prop :=
  c.conn = none ∨ (c.pos = 0 ∧ c.busy = none) ∨
  (∃ b, c.busy = some b ∧ b.loaded = false ∧ (view c.queue.flatten t = none ∨ view c.queue.flatten t = some v)) ∨
  ∃ k, c.conn = some k ∧ (∀ b, c.busy = some b → b.loaded = true) ∧ put c.has (pend c k) t = some v

theorem fresh_init (body : Nat) : (Conn.step (Conn.init 0 : Conn.State Nat Data) ⟨0, body⟩ none).2 = .failed := by
  simp [Conn.step, Conn.init, Conn.scan]

theorem begin_ci {c : Client} (h : CI c) (body : Nat) (on arrives : Bool) (hb : c.busy = none) :
    CI (begin c body on arrives) := by
  unfold begin
  split
  · rename_i h0
    refine ⟨(by intro k hk; cases hk; exact Conn.inv_init 0), h.nonneg, ?_⟩
    intro b hb
    cases hb
    exact ⟨_, rfl, (by simp only [h0]; exact fresh_init body), fun _ => h0⟩
  · split
    · rename_i hc
      split
      · exact ⟨h.conn, Int.le_refl 0, by simp [hb]⟩
      · exact h
    · rename_i k hc
      have hi := h.conn k hc
      have hs := Conn.inv_step hi ⟨c.pos, body⟩ none
      split
      · rename_i k' hst
        refine ⟨h.conn, h.nonneg, ?_⟩
        intro b hb
        cases hb
        exact ⟨k, hc, by rw [hst], by simp⟩
      · rename_i k' r hst
        rw [hst] at hs
        have hr0 : 0 ≤ r.pos := by
          rcases Conn.step_cases hi ⟨c.pos, body⟩ none with ⟨e, _⟩ | ⟨_, h2, _, d, _, _, _, hcase⟩
          · rw [e] at hst; cases hst
          · rcases hcase with ⟨r', _, _, h6, e⟩ | ⟨_, ⟨_, e⟩ | ⟨_, h5, _⟩⟩
            · rw [e] at hst
              cases hst
              have := List.find?_some h6
              simp only [decide_eq_true_eq] at this
              have := h.nonneg
              omega
            · rw [e] at hst; cases hst
            · cases h5
        split
        · exact ⟨(by intro k hk; cases hk; exact hs), hr0, by simp [Client.get, hb]⟩
        · exact ⟨(by intro k hk; cases hk; exact hs), h.nonneg, by simp [hb]⟩
      · rename_i k' o _ _ hst
        rw [hst] at hs
        split
        · exact ⟨(by intro k hk; cases hk; exact hs), Int.le_refl 0, by simp [hb]⟩
        · exact ⟨(by intro k hk; cases hk; exact hs), h.nonneg, by simp [hb]⟩

theorem begin_due {c : Client} (h : CI c) (body : Nat) (on arrives : Bool) (hb : c.busy = none) {t v : String} (hd : Due c t v) :
    Due (begin c body on arrives) t v := by
  unfold begin
  split
  · exact Or.inr (Or.inr (Or.inl ⟨_, rfl, rfl, Or.inl rfl⟩))
  · rename_i h0
    split
    · rename_i hc
      split
      · exact Or.inl hc
      · exact hd
    · rename_i k hc
      have hi := h.conn k hc
      have hp : put c.has (pend c k) t = some v := by
        rcases hd with hd | hd | ⟨b, hd, _⟩ | ⟨k', hk, _, hd⟩
        · rw [hc] at hd; cases hd
        · exact absurd hd.1 h0
        · rw [hb] at hd; cases hd
        · rw [hc] at hk; cases hk; exact hd
      have ho : outOf c = [] := by unfold outOf; rw [hb]
      unfold pend at hp
      rw [ho, List.nil_append] at hp
      rcases Conn.step_cases hi ⟨c.pos, body⟩ none with ⟨e, _⟩ | ⟨_, _, _, d, _, _, hd3, hcase⟩
      · rw [e]
        simp only
        split
        · exact Or.inr (Or.inl ⟨rfl, hb⟩)
        · refine Or.inr (Or.inr (Or.inr ⟨k, rfl, by simp [hb], ?_⟩))
          unfold pend outOf
          simp only [hb, List.nil_append]
          exact hp
      · rcases hcase with ⟨r, _, _, h6, e⟩ | ⟨_, ⟨_, e⟩ | ⟨_, h5, _⟩⟩
        · rw [e]
          simp only
          have hu : unacked c.pos (k.buf.drop d) = unacked c.pos k.buf := by rw [hd3]; exact unacked_purge _ _
          split
          · refine Or.inr (Or.inr (Or.inr ⟨_, rfl, by simp [Client.get, hb], ?_⟩))
            unfold pend outOf Client.get
            simp only [hb, List.nil_append]
            rw [← put_append, ← List.append_assoc]
            have hf : (k.buf.drop d).find? (fun x => decide (c.pos < x.pos)) = some r := by
              rw [hd3, List.find?_filter, ← h6]
              congr 1
              funext x
              exact below _ _
            rw [← unacked_next (Conn.consec_drop hi.consec d) c.pos r hf, hu]
            exact hp
          · refine Or.inr (Or.inr (Or.inr ⟨_, rfl, by simp [hb], ?_⟩))
            unfold pend outOf
            simp only [hb, List.nil_append, hu]
            exact hp
        · rw [e]
          simp only
          refine Or.inr (Or.inr (Or.inr ⟨k, hc, (by intro b hb; cases hb; rfl), ?_⟩))
          unfold pend outOf
          simp only [List.nil_append]
          exact hp
        · cases h5

/-- How a request that does not panic ends: the response is put at the end of the buffer and the client gets the next one. -/
theorem finish_step {c : Client} (h : CI c) {b : Busy} (hb : c.busy = some b) (o : Data) :
    ∃ k k' r, c.conn = some k ∧ Conn.step k ⟨c.pos, b.body⟩ (some o) = (k', .fresh r) ∧ Conn.Inv k' ∧
      k'.buf.find? (fun x => decide (c.pos < x.pos)) = some r ∧ unacked c.pos k'.buf = unacked c.pos k.buf ++ o := by
  obtain ⟨k, hc, hst, _⟩ := h.busy b hb
  have hi := h.conn k hc
  refine ⟨k, ?_⟩
  have hinv := Conn.inv_step hi ⟨c.pos, b.body⟩ (some o)
  have hfail : ¬ (Conn.step k ⟨c.pos, b.body⟩ none).2 ≠ .failed := fun hh => hh hst
  rcases Conn.step_cases hi ⟨c.pos, b.body⟩ (some o) with ⟨_, h1, h2, h3⟩ | ⟨_, _, hle, d, _, _, hd3, hcase⟩
  · exfalso
    rcases Conn.step_cases hi ⟨c.pos, b.body⟩ none with ⟨e, _⟩ | ⟨g1, _⟩
    · rw [e] at hst; cases hst
    · rcases g1 with g1 | g1 | ⟨r, hr, g1⟩
      · exact h1 g1
      · exact h2 g1
      · exact h3 r hr g1
  · rcases hcase with ⟨r, h4, h5, h6, _⟩ | ⟨_, ⟨h5, _⟩ | ⟨dta, h5, e⟩⟩
    · exfalso
      rcases Conn.step_cases hi ⟨c.pos, b.body⟩ none with ⟨e, _⟩ | ⟨_, _, _, d', _, _, _, hcase⟩
      · rw [e] at hst; cases hst
      · rcases hcase with ⟨r', _, _, _, e⟩ | ⟨g4, _⟩
        · rw [e] at hst; cases hst
        · rcases g4 with g4 | g4 | g4
          · exact h4 g4
          · exact g4 h5
          · rw [g4.2] at h6; cases h6
    · cases h5
    · cases h5
      rw [e] at hinv
      simp only at hle
      refine ⟨_, _, hc, e, hinv, ?_, ?_⟩
      · simp only [List.find?_append]
        have : (k.buf.drop d).find? (fun x => decide (c.pos < x.pos)) = k.buf.find? (fun x => decide (c.pos < x.pos)) := by
          rw [hd3, List.find?_filter]
          congr 1
          funext x
          exact below _ _
        rw [this]
        cases k.buf.find? (fun x => decide (c.pos < x.pos)) with
        | some r => rfl
        | none => simp; omega
      · simp only
        unfold unacked
        rw [List.filter_append, List.flatMap_append]
        have h1 := unacked_purge c.pos k.buf
        rw [← hd3] at h1
        unfold unacked at h1
        rw [h1]
        congr 1
        rw [List.filter_cons_of_pos (by simp; omega)]
        simp

theorem finish_ci {c : Client} (h : CI c) {b : Busy} (hb : c.busy = some b) (fails arrives : Bool) :
    CI (finish c b fails arrives) := by
  obtain ⟨k, k', r, hc, hst, hi', hr, _⟩ := finish_step h hb b.out
  have hr := List.find?_some hr
  simp only [decide_eq_true_eq] at hr
  have h0 := h.nonneg
  unfold finish
  rw [hc]
  simp only
  cases fails with
  | false =>
    simp only [Bool.false_eq_true, if_false, hst]
    split
    · exact ⟨(by intro k hk; cases hk; exact hi'), (by simp only [Client.get]; omega), by simp [Client.get]⟩
    · exact ⟨(by intro k hk; cases hk; exact hi'), h0, by simp⟩
  | true =>
    simp only [if_true]
    have hi'' := Conn.inv_step (h.conn k hc) ⟨c.pos, b.body⟩ none
    split
    · rename_i k'' r' e
      obtain ⟨k2, hk2, hs2, _⟩ := h.busy b hb
      rw [hc] at hk2; cases hk2
      rw [e] at hs2; cases hs2
    · rename_i k'' o _ e
      rw [e] at hi''
      exact ⟨(by intro k hk; cases hk; exact hi''), h0, by simp⟩

theorem finish_due {c : Client} (h : CI c) {b : Busy} (hb : c.busy = some b) (hl : b.loaded = true) (arrives : Bool) {t v : String}
    (hd : Due c t v) : Due (finish c b false arrives) t v := by
  obtain ⟨k, k', r, hc, hst, hi', hr, hu⟩ := finish_step h hb b.out
  have hp : put c.has (pend c k) t = some v := by
    rcases hd with hd | hd | ⟨b', hd, hl', _⟩ | ⟨k', hk, _, hd⟩
    · rw [hc] at hd; cases hd
    · rw [hb] at hd; cases hd.2
    · rw [hb] at hd; cases hd; rw [hl] at hl'; cases hl'
    · rw [hc] at hk; cases hk; exact hd
  unfold pend outOf at hp
  rw [hb] at hp
  simp only at hp
  rw [← List.append_assoc, ← hu] at hp
  unfold finish
  rw [hc]
  simp only [Bool.false_eq_true, if_false, hst]
  split
  · refine Or.inr (Or.inr (Or.inr ⟨_, rfl, by simp [Client.get], ?_⟩))
    unfold pend outOf Client.get
    simp only [List.nil_append]
    rw [← put_append, ← List.append_assoc, ← unacked_next hi'.consec c.pos r hr]
    exact hp
  · refine Or.inr (Or.inr (Or.inr ⟨_, rfl, by simp, ?_⟩))
    unfold pend outOf
    simp only [List.nil_append]
    exact hp

/-! ### The whole -/

def InBus (user : String) (bus : List (String × String × List String)) (t : String) : Prop :=
  ∃ p ∈ bus, p.1 = user ∧ p.2.1 = "" ∧ t ∈ p.2.2

structure Base (s : State) : Prop where
  ci : CI s.c
  keys : (s.ded.db.map AccountData.Row.triple).Nodup

structure Ok (user : String) (s : State) : Prop where
  base : Base s
  on : ∀ b, s.c.busy = some b → b.on = true
  due : ∀ t v, AccountData.last s.ded.db (user, "", t) = some v → InBus user s.bus t ∨ Due s.c t v

theorem last_mem {l : List AccountData.Row} {k : String × String × String} {v : String} (h : AccountData.last l k = some v) :
    ∃ r ∈ l, r.triple = k ∧ r.data = v := by
  unfold AccountData.last at h
  obtain ⟨r, hr, hv⟩ := Option.map_eq_some_iff.1 h
  have := List.mem_filter.1 (List.mem_of_getLast? hr)
  exact ⟨r, this.1, of_decide_eq_true this.2, hv⟩

theorem quiet_db {hash : String → Nat} {s d : DedupAccount.State} {u r : String} {es : List (String × String)} {f res : Bool}
    (h : DedupAccount.Step hash s (.deliver u r es f) d res)
    (hn : (es.foldl (DedupAccount.keep hash u r) (s.mem, [])).2 = [] ∨ f = true) : d.db = s.db := by
  cases h with
  | nothing => rfl
  | failed => rfl
  | stored h1 _ =>
    rcases hn with hn | hn
    · exact absurd hn h1
    · cases hn

theorem handle_ci {db : List AccountData.Row} {user : String} {c : Client} (h : CI c) (p : String × String × List String) (ok : Bool) :
    CI (handle db user c p ok) := by
  unfold handle
  split
  · exact h
  · split
    · exact ⟨h.conn, h.nonneg, h.busy⟩
    · exact h

theorem due_queue {c : Client} {t v : String} (hd : Due c t v) (x : Data) (hx : view x t = none ∨ view x t = some v) :
    Due { c with queue := c.queue ++ [x] } t v := by
  have hq : (c.queue ++ [x]).flatten = c.queue.flatten ++ x := by simp
  rcases hd with hd | hd | ⟨b, hb, hl, hv⟩ | ⟨k, hk, hl, hv⟩
  · exact Or.inl hd
  · exact Or.inr (Or.inl hd)
  · refine Or.inr (Or.inr (Or.inl ⟨b, hb, hl, ?_⟩))
    simp only [hq, view_append]
    rcases hx with hx | hx
    · rw [hx]; exact hv
    · rw [hx]; exact Or.inr rfl
  · refine Or.inr (Or.inr (Or.inr ⟨k, hk, hl, ?_⟩))
    have : pend { c with queue := c.queue ++ [x] } k = pend c k ++ x := by
      unfold pend outOf; simp only [hq, List.append_assoc]
    rw [this, put_append, put_view]
    rcases hx with hx | hx
    · rw [hx]; exact hv
    · rw [hx]; rfl

theorem due_new {c : Client} (hci : CI c) {t v : String} (x : Data) (hx : view x t = some v) :
    Due { c with queue := c.queue ++ [x] } t v := by
  have hq : (c.queue ++ [x]).flatten = c.queue.flatten ++ x := by simp
  have key : ∀ k, c.conn = some k → (∀ b, c.busy = some b → b.loaded = true) → Due { c with queue := c.queue ++ [x] } t v := by
    intro k hk hl
    refine Or.inr (Or.inr (Or.inr ⟨k, hk, hl, ?_⟩))
    have : pend { c with queue := c.queue ++ [x] } k = pend c k ++ x := by
      unfold pend outOf; simp only [hq, List.append_assoc]
    rw [this, put_append, put_view, hx]; rfl
  rcases Option.eq_none_or_eq_some c.busy with hb | ⟨b, hb⟩
  · rcases Option.eq_none_or_eq_some c.conn with hc | ⟨k, hc⟩
    · exact Or.inl hc
    · exact key k hc (by simp [hb])
  · obtain ⟨k, hk, _⟩ := hci.busy b hb
    cases hl : b.loaded with
    | true => exact key k hk (by intro b' hb'; rw [hb] at hb'; cases hb'; exact hl)
    | false =>
      refine Or.inr (Or.inr (Or.inl ⟨b, hb, hl, Or.inr ?_⟩))
      simp only [hq, view_append, hx]; rfl

theorem base_step {hash : String → Nat} {user : String} {ok : Mode} {s s' : State} (h : Base s) (hs : Step hash user ok s s') :
    Base s' := by
  obtain ⟨hci, hk⟩ := h
  cases hs with
  | quiet h1 h2 => exact ⟨hci, by simp only [quiet_db h1 h2]; exact hk⟩
  | @stored u r es db' out hn hi =>
    obtain ⟨d, o, e, h1, _⟩ := AccountData.insert_spec hk (AccountData.single_scope_inj u r _) hi
    cases e
    exact ⟨hci, h1⟩
  | handle readOk hb hr => exact ⟨handle_ci hci _ _, hk⟩
  | ask body on arrives hb ho => exact ⟨begin_ci hci body on arrives hb, hk⟩
  | @load b readOk hb hl hr =>
    refine ⟨⟨hci.conn, hci.nonneg, ?_⟩, hk⟩
    intro b' hb'
    cases hb'
    obtain ⟨k, h1, h2, _⟩ := hci.busy b hb
    exact ⟨k, h1, h2, by simp⟩
  | @take b x q hb hl hq =>
    refine ⟨⟨hci.conn, hci.nonneg, ?_⟩, hk⟩
    intro b' hb'
    cases hb'
    obtain ⟨k, h1, h2, h3⟩ := hci.busy b hb
    exact ⟨k, h1, h2, h3⟩
  | done fails arrives hb hl hf => exact ⟨finish_ci hci hb fails arrives, hk⟩
  | expire => exact ⟨⟨by simp, hci.nonneg, by simp⟩, hk⟩
  | restart => exact ⟨⟨by simp, hci.nonneg, by simp⟩, hk⟩

theorem base_start : Base {} := ⟨⟨by simp, Int.le_refl 0, by simp⟩, by simp⟩

theorem base_run {hash : String → Nat} {user : String} {ok : Mode} {s : State} (h : Run hash user ok s) : Base s := by
  induction h with
  | refl => exact base_start
  | snoc _ hs ih => exact base_step ih hs

theorem begin_on {c : Client} {body : Nat} {arrives : Bool} (hb : c.busy = none) :
    ∀ b, (begin c body true arrives).busy = some b → b.on = true := by
  intro b h
  unfold begin at h
  split at h
  · cases h; rfl
  · split at h
    · split at h <;> simp [hb] at h
    · split at h
      · cases h; rfl
      · split at h <;> simp [Client.get, hb] at h
      · split at h <;> simp [hb] at h

theorem finish_busy (c : Client) (b : Busy) (fails arrives : Bool) : (finish c b fails arrives).busy = none := by
  unfold finish
  split
  · rfl
  · split
    · split <;> rfl
    · rfl

theorem ok_step {hash : String → Nat} {user : String} {s s' : State} (h : Ok user s) (hs : Step hash user Mode.good s s') :
    Ok user s' := by
  have hbase := base_step h.base hs
  obtain ⟨⟨hci, hk⟩, hon, hdue⟩ := h
  cases hs with
  | quiet h1 h2 => exact ⟨hbase, hon, by simp only [quiet_db h1 h2]; exact hdue⟩
  | @stored u r es db' out hn hi =>
    refine ⟨hbase, hon, ?_⟩
    intro t v hv
    obtain ⟨d, o, e, h1, h2, _, h4⟩ := AccountData.insert_spec hk (AccountData.single_scope_inj u r _) hi
    cases e
    simp only [h2] at hv
    cases hl : AccountData.last (((es.foldl (DedupAccount.keep hash u r) (s.ded.mem, [])).2).map fun e => (⟨u, r, e.1, e.2⟩ : AccountData.Row)) (user, "", t) with
    | none =>
      rw [hl] at hv
      rcases hdue t v hv with ⟨p, hp, h⟩ | h
      · exact Or.inl ⟨p, List.mem_append_left _ hp, h⟩
      · exact Or.inr h
    | some w =>
      left
      obtain ⟨x, hx, hxt, _⟩ := last_mem hl
      obtain ⟨y, hy, hyt, _⟩ := last_mem ((h4 _).trans hl)
      obtain ⟨e, _, rfl⟩ := List.mem_map.1 hx
      simp only [AccountData.Row.triple, Prod.mk.injEq] at hxt hyt
      exact ⟨_, List.mem_append_right _ (List.mem_singleton.2 rfl), hxt.1, hxt.2.1, List.mem_map.2 ⟨y, hy, hyt.2.2⟩⟩
  | @handle p bus readOk hb hr =>
    have hr := hr (fun h => h)
    subst hr
    refine ⟨hbase, ?_, ?_⟩
    · intro b hb'
      refine hon b ?_
      unfold handle at hb'
      split at hb'
      · exact hb'
      · split at hb' <;> exact hb'
    · intro t v hv
      simp only at hv ⊢
      unfold handle
      split
      · rename_i hc
        exact Or.inr (Or.inl hc)
      · by_cases hm : p.1 = user ∧ p.2.1 = ""
        · rw [if_pos ⟨hm.1, hm.2, rfl⟩]
          have hx := view_for s.ded.db user t p.2.2
          by_cases ht : t ∈ p.2.2
          · rw [if_pos ht] at hx
            exact Or.inr (due_new hci _ (hx.trans hv))
          · rw [if_neg ht] at hx
            rcases hdue t v hv with ⟨p', hp, h⟩ | h
            · rw [hb] at hp
              rcases List.mem_cons.1 hp with rfl | hp
              · exact absurd h.2.2 ht
              · exact Or.inl ⟨p', hp, h⟩
            · exact Or.inr (due_queue h _ (Or.inl hx))
        · rw [if_neg (fun h => hm ⟨h.1, h.2.1⟩)]
          rcases hdue t v hv with ⟨p', hp, h⟩ | h
          · rw [hb] at hp
            rcases List.mem_cons.1 hp with rfl | hp
            · exact absurd ⟨h.1, h.2.1⟩ hm
            · exact Or.inl ⟨p', hp, h⟩
          · exact Or.inr h
  | ask body on arrives hb ho =>
    have ho := ho (fun h => h)
    subst ho
    refine ⟨hbase, begin_on hb, ?_⟩
    intro t v hv
    rcases hdue t v hv with h | h
    · exact Or.inl h
    · exact Or.inr (begin_due hci body true arrives hb h)
  | @load b readOk hb hl hr =>
    have hr := hr (fun h => h)
    subst hr
    refine ⟨hbase, (by intro b' hb'; cases hb'; exact hon b hb), ?_⟩
    intro t v hv
    rcases hdue t v hv with h | h
    · exact Or.inl h
    · right
      obtain ⟨k, hk', _⟩ := hci.busy b hb
      have hq : view s.c.queue.flatten t = none ∨ view s.c.queue.flatten t = some v := by
        rcases h with h | h | ⟨b', hb', _, h⟩ | ⟨_, _, h, _⟩
        · rw [hk'] at h; cases h
        · rw [hb] at h; cases h.2
        · exact h
        · rw [h b hb] at hl; cases hl
      refine Or.inr (Or.inr (Or.inr ⟨k, hk', (by intro b' hb'; cases hb'; rfl), ?_⟩))
      unfold pend outOf
      simp only [hon b hb, Bool.and_self, if_true]
      rw [put_append, put_append, put_view, put_view, view_all]
      simp only at hv
      rw [hv]
      rcases hq with hq | hq <;> rw [hq] <;> rfl
  | @take b x q hb hl hq =>
    refine ⟨hbase, (by intro b' hb'; cases hb'; exact hon b hb), ?_⟩
    intro t v hv
    rcases hdue t v hv with h | h
    · exact Or.inl h
    · right
      rcases h with h | h | ⟨b', hb', hl', _⟩ | ⟨k, hk', _, h⟩
      · exact Or.inl h
      · rw [hb] at h; cases h.2
      · rw [hb] at hb'; cases hb'; rw [hl] at hl'; cases hl'
      · refine Or.inr (Or.inr (Or.inr ⟨k, hk', (by intro b' hb'; cases hb'; exact hl), ?_⟩))
        rw [← h]
        unfold pend outOf
        simp only [hb, hon b hb, if_true, hq, List.flatten_cons, List.append_assoc]
  | @done b fails arrives hb hl hf =>
    have hf := hf (fun h => h)
    subst hf
    refine ⟨hbase, (by intro b' hb'; rw [finish_busy] at hb'; cases hb'), ?_⟩
    intro t v hv
    rcases hdue t v hv with h | h
    · exact Or.inl h
    · exact Or.inr (finish_due hci hb hl arrives h)
  | expire => exact ⟨hbase, by simp, fun t v _ => Or.inr (Or.inl rfl)⟩
  | restart => exact ⟨hbase, by simp, fun t v _ => Or.inr (Or.inl rfl)⟩

theorem ok_run {hash : String → Nat} {user : String} {s : State} (h : Run hash user Mode.good s) : Ok user s := by
  induction h with
  | refl => exact ⟨base_start, by simp, fun t v hv => by simp [AccountData.last] at hv⟩
  | snoc _ hs ih => exact ok_step ih hs

/-- C120 (partial: the table can be read, no request panics, and the extension is on in every request of the client). Whatever is
lost on the way to the client, repeated or changed by the client, however deliveries, requests, reconnections and restarts
interleave, a client that has caught up has the global account data of the table. Missing: the four cases of the violations below. -/
theorem C120_partial (hash : String → Nat) (user : String) : Arrives hash user Mode.good := by
  intro s h ⟨hbus, hq, hb, h0, k, hk, hbuf⟩ t d hrow
  have hok := ok_run h
  have hl : AccountData.last s.ded.db (user, "", t) = some d := (AccountData.last_iff hok.base.keys _ _).2 ⟨_, hrow, rfl, rfl⟩
  rcases hok.due t d hl with ⟨p, hp, h1, h2, _⟩ | h | h | ⟨b, h, _⟩ | ⟨k', hk', _, h⟩
  · exact absurd ⟨h1, h2⟩ (hbus p hp)
  · rw [hk] at h; cases h
  · exact absurd h.1 h0
  · rw [hb] at h; cases h
  · rw [hk] at hk'
    cases hk'
    have hu : unacked s.c.pos k.buf = [] := by
      unfold unacked
      have : k.buf.filter (fun r => decide (s.c.pos < r.pos)) = [] := by
        rw [List.filter_eq_nil_iff]
        intro r hr
        have := hbuf r hr
        simp only [decide_eq_true_eq]; omega
      rw [this]; rfl
    have hp : pend s.c k = [] := by
      unfold pend outOf
      rw [hu, hb, hq]; rfl
    rw [hp] at h
    exact h

theorem ded_run {hash : String → Nat} {user : String} {ok : Mode} {s : State} (h : Run hash user ok s) :
    DedupAccount.Run hash s.tr s.ded := by
  induction h with
  | refl => exact .nil
  | snoc _ hs ih =>
    cases hs with
    | quiet h1 _ => exact ih.snoc h1
    | stored hn hi => exact ih.snoc (.stored hn hi)
    | restart => exact ih.snoc .restart
    | _ => exact ih

/-- C120 (partial, as above, and as C52 is): with what the pollers delivered. A client that has caught up has the value delivered last by a
call that reported success. -/
theorem C120_delivered_partial (hash : String → Nat) (user : String) (s : State) (h : Run hash user Mode.good s) (hc : CaughtUp user s)
    (t d : String) (hr : DedupAccount.Restarts user "" t s.tr) (hk : DedupAccount.OwnKey user "" t s.tr)
    (hn : DedupAccount.NoCollision hash user "" t s.tr) (hl : AccountData.LastWritten (DedupAccount.acked s.tr) user "" t d) :
    s.c.has t = some d :=
  C120_partial hash user s h hc t d ((DedupAccount.C52_stored_partial (ded_run h) user "" t hr hk hn d).2 hl)

/-! ### Nothing else -/

structure Auth (user : String) (s : State) : Prop where
  db : ∀ t d, ⟨user, "", t, d⟩ ∈ s.ded.db → Delivered user s.tr t d
  queue : ∀ x ∈ s.c.queue, ∀ e ∈ x, Delivered user s.tr e.1 e.2
  out : ∀ b, s.c.busy = some b → ∀ e ∈ b.out, Delivered user s.tr e.1 e.2
  buf : ∀ k, s.c.conn = some k → ∀ r ∈ k.buf, ∀ e ∈ r.data, Delivered user s.tr e.1 e.2
  has : ∀ t d, s.c.has t = some d → Delivered user s.tr t d

theorem Delivered.more {user : String} {tr : List (DedupAccount.Op × Bool)} {t d : String} (h : Delivered user tr t d)
    (o : DedupAccount.Op × Bool) : Delivered user (tr ++ [o]) t d := by
  obtain ⟨es, f, ok, h, he⟩ := h
  exact ⟨es, f, ok, List.mem_append_left _ h, he⟩

theorem Auth.more {user : String} {s : State} (h : Auth user s) (o : DedupAccount.Op × Bool) (mem : List (String × Nat))
    (bus : List (String × String × List String)) :
    Auth user { s with tr := s.tr ++ [o], ded := { s.ded with mem := mem }, bus := bus } :=
  ⟨fun t d hh => (h.db t d hh).more o, fun x hx e he => (h.queue x hx e he).more o, fun b hb e he => (h.out b hb e he).more o,
    fun k hk r hr e he => (h.buf k hk r hr e he).more o, fun t d hh => (h.has t d hh).more o⟩

theorem rowsFor_mem {db : List AccountData.Row} {user : String} {types : List String} {e : String × String}
    (h : e ∈ rowsFor db user types) : ⟨user, "", e.1, e.2⟩ ∈ db := by
  unfold rowsFor AccountData.select at h
  obtain ⟨r, hr, rfl⟩ := List.mem_map.1 h
  obtain ⟨h1, h2⟩ := List.mem_filter.1 hr
  simp only [Bool.and_eq_true, decide_eq_true_eq] at h2
  obtain ⟨u, rm, t, d⟩ := r
  obtain ⟨⟨rfl, _⟩, rfl⟩ := h2
  exact h1

theorem allRows_mem {db : List AccountData.Row} {user : String} {e : String × String}
    (h : e ∈ allRows db user) : ⟨user, "", e.1, e.2⟩ ∈ db := by
  unfold allRows AccountData.selectMany at h
  simp only [List.length_nil, if_true] at h
  obtain ⟨r, hr, rfl⟩ := List.mem_map.1 h
  obtain ⟨h1, h2⟩ := List.mem_filter.1 hr
  simp only [Bool.and_eq_true, decide_eq_true_eq] at h2
  obtain ⟨u, rm, t, d⟩ := r
  obtain ⟨rfl, rfl⟩ := h2
  exact h1

/-- The responses of a connection after a request are those before and the new one; so is the one handed over. -/
theorem step_buf {k : Conn.State Nat Data} (hi : Conn.Inv k) (req : Conn.Req Nat) (o : Option Data) (P : Data → Prop)
    (hP : ∀ r ∈ k.buf, P r.data) (ho : ∀ d, o = some d → P d) :
    (∀ r ∈ (Conn.step k req o).1.buf, P r.data) ∧ ∀ r, (Conn.step k req o).2.resp? = some r → P r.data := by
  rcases Conn.step_cases hi req o with ⟨e, _⟩ | ⟨_, _, _, d, _, _, _, hcase⟩
  · rw [e]; exact ⟨hP, by simp [Conn.Out.resp?]⟩
  · rcases hcase with ⟨r, _, _, h6, e⟩ | ⟨_, ⟨_, e⟩ | ⟨dta, h5, e⟩⟩
    · rw [e]
      refine ⟨fun r hr => hP r (List.mem_of_mem_drop hr), ?_⟩
      intro r' hr'
      cases hr'
      exact hP _ (List.mem_of_find?_eq_some h6)
    · rw [e]
      exact ⟨fun r hr => hP r (List.mem_of_mem_drop hr), by simp [Conn.Out.resp?]⟩
    · rw [e]
      refine ⟨?_, ?_⟩
      · intro r hr
        rcases List.mem_append.1 hr with hr | hr
        · exact hP r (List.mem_of_mem_drop hr)
        · cases List.mem_singleton.1 hr
          exact ho _ h5
      · intro r hr
        cases hr
        cases hf : k.buf.find? (fun r => decide (req.pos < r.pos)) with
        | none => exact ho _ h5
        | some r => exact hP _ (List.mem_of_find?_eq_some hf)

theorem auth_step {hash : String → Nat} {user : String} {ok : Mode} {s s' : State} (hb0 : Base s) (h : Auth user s)
    (hs : Step hash user ok s s') : Auth user s' := by
  cases hs with
  | @quiet u r es f res d h1 h2 =>
    have e : d = { s.ded with mem := d.mem } := by
      have := quiet_db h1 h2
      cases d; simp only at this; rw [this]
    rw [e]
    exact h.more _ _ _
  | @stored u r es db' out hn hi =>
    have hm := h.more (.deliver u r es false, true) (es.foldl (DedupAccount.keep hash u r) (s.ded.mem, [])).1 (s.bus ++ [(u, r, out.map (·.type))])
    refine ⟨?_, hm.queue, hm.out, hm.buf, hm.has⟩
    intro t d hd
    obtain ⟨d', o, e, h1, h2, _⟩ := AccountData.insert_spec hb0.keys (AccountData.single_scope_inj u r _) hi
    cases e
    have hl : AccountData.last db' (user, "", t) = some d := (AccountData.last_iff h1 _ _).2 ⟨_, hd, rfl, rfl⟩
    rw [h2] at hl
    rcases Option.or_eq_some_iff.1 hl with hl | ⟨_, hl⟩
    · obtain ⟨x, hx, hxt, hxd⟩ := last_mem hl
      obtain ⟨e, he, rfl⟩ := List.mem_map.1 hx
      simp only [AccountData.Row.triple, Prod.mk.injEq] at hxt hxd
      obtain ⟨rfl, rfl, rfl⟩ := hxt
      subst hxd
      exact ⟨es, false, true, List.mem_append_right _ (List.mem_singleton.2 rfl), DedupAccount.mem_foldl_keep hash _ _ es _ e he⟩
    · obtain ⟨⟨u', r', t', d''⟩, hx, hxt, hxd⟩ := last_mem hl
      simp only [AccountData.Row.triple, Prod.mk.injEq] at hxt hxd
      obtain ⟨rfl, rfl, rfl⟩ := hxt
      subst hxd
      exact hm.db _ _ hx
  | @handle p bus readOk hb hr =>
    unfold handle
    split
    · exact ⟨h.db, h.queue, h.out, h.buf, h.has⟩
    · split
      · refine ⟨h.db, ?_, h.out, h.buf, h.has⟩
        intro x hx
        rcases List.mem_append.1 hx with hx | hx
        · exact h.queue x hx
        · cases List.mem_singleton.1 hx
          exact fun e he => h.db _ _ (rowsFor_mem he)
      · exact ⟨h.db, h.queue, h.out, h.buf, h.has⟩
  | ask body on arrives hb ho =>
    unfold begin
    split
    · refine ⟨h.db, (by intro x hx; cases hx), ?_, ?_, h.has⟩
      · intro b hb e he; cases hb; cases he
      · intro k hk r hr; cases hk; cases hr
    · split
      · split
        · exact ⟨h.db, h.queue, h.out, h.buf, h.has⟩
        · exact h
      · rename_i k hc
        obtain ⟨g1, g2⟩ := step_buf (hb0.ci.conn k hc) ⟨s.c.pos, body⟩ none (fun d => ∀ e ∈ d, Delivered user s.tr e.1 e.2) (h.buf k hc) (by simp)
        split
        · refine ⟨h.db, h.queue, ?_, h.buf, h.has⟩
          intro b hb e he; cases hb; cases he
        · rename_i k' r hst
          rw [hst] at g1 g2
          have g2 := g2 r rfl
          split
          · refine ⟨h.db, h.queue, h.out, (by intro k hk; cases hk; exact g1), ?_⟩
            intro t d hd
            rcases put_some hd with hd | hd
            · exact g2 _ hd
            · exact h.has t d hd
          · exact ⟨h.db, h.queue, h.out, (by intro k hk; cases hk; exact g1), h.has⟩
        · rename_i k' o _ _ hst
          rw [hst] at g1
          split
          · exact ⟨h.db, h.queue, h.out, (by intro k hk; cases hk; exact g1), h.has⟩
          · exact ⟨h.db, h.queue, h.out, (by intro k hk; cases hk; exact g1), h.has⟩
  | @load b readOk hb hl hr =>
    refine ⟨h.db, h.queue, ?_, h.buf, h.has⟩
    intro b' hb' e he
    cases hb'
    simp only at he
    split at he
    · exact h.db _ _ (allRows_mem he)
    · cases he
  | @take b x q hb hl hq =>
    refine ⟨h.db, fun y hy => h.queue y (by rw [hq]; exact List.mem_cons_of_mem _ hy), ?_, h.buf, h.has⟩
    intro b' hb' e he
    cases hb'
    simp only at he
    split at he
    · rcases List.mem_append.1 he with he | he
      · exact h.out b hb e he
      · exact h.queue x (by rw [hq]; exact List.mem_cons_self) e he
    · exact h.out b hb e he
  | @done b fails arrives hb hl hf =>
    obtain ⟨k, hc, _⟩ := hb0.ci.busy b hb
    obtain ⟨g1, g2⟩ := step_buf (hb0.ci.conn k hc) ⟨s.c.pos, b.body⟩ (if fails then none else some b.out)
      (fun d => ∀ e ∈ d, Delivered user s.tr e.1 e.2) (h.buf k hc) (by
        intro d hd
        cases fails with
        | true => cases hd
        | false => cases hd; exact h.out b hb)
    unfold finish
    rw [hc]
    simp only
    split
    · rename_i k' r hst
      rw [hst] at g1 g2
      have g2 := g2 r rfl
      split
      · refine ⟨h.db, h.queue, (by intro b hb; cases hb), (by intro k hk; cases hk; exact g1), ?_⟩
        intro t d hd
        rcases put_some hd with hd | hd
        · exact g2 _ hd
        · exact h.has t d hd
      · exact ⟨h.db, h.queue, (by intro b hb; cases hb), (by intro k hk; cases hk; exact g1), h.has⟩
    · rename_i k' o _ hst
      rw [hst] at g1
      exact ⟨h.db, h.queue, (by intro b hb; cases hb), (by intro k hk; cases hk; exact g1), h.has⟩
  | expire => exact ⟨h.db, (by intro x hx; cases hx), (by intro b hb; cases hb), (by intro k hk; cases hk), h.has⟩
  | restart =>
    have hm := h.more (.restart, true) [] []
    exact ⟨hm.db, (by intro x hx; cases hx), (by intro b hb; cases hb), (by intro k hk; cases hk), hm.has⟩

/-- C120: whatever fails, the client has only what a poller delivered as this user's global account data. -/
theorem C120_authentic (hash : String → Nat) (user : String) (ok : Mode) (s : State) (h : Run hash user ok s) (t d : String)
    (hh : s.c.has t = some d) : Delivered user s.tr t d := by
  have : Auth user s := by
    clear hh
    induction h with
    | refl => exact ⟨by simp, by simp, by simp, by simp, by simp⟩
    | snoc h' hs ih => exact auth_step (base_run h') ih hs
  exact this.has t d hh

end Verif.AccountFlow
