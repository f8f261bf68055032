import Verif.UnreadFlow
import Verif.ConnFlowProps
/-!
# C123: a caught-up client has the unread counts of its rooms
-/
namespace Verif.UnreadFlow
open Verif ConnFlow

/-! ## Specification -/

/-- The client has got every response, and there is nothing left for the connection to do. -/
def CaughtUp (s : State) : Prop :=
  s.c.busy = none ∧ s.queue = [] ∧ s.held = [] ∧ s.c.pos ≠ 0 ∧ ∃ k, s.c.conn = some k ∧ s.c.pos = k.lastPos

/-! ## The invariant -/

/-- The update is never skipped. -/
def Sure : Entry → Prop
  | .event _ ends _ => ends = true
  | .other _ => True

/-- There is an update that will be processed and has other counts. -/
def Differs (l : List Entry) (x : Counts) : Prop := ∃ e ∈ l, Sure e ∧ e.counts ≠ x

theorem Differs.mono {l l' : List Entry} {x : Counts} (h : Differs l x) (hl : ∀ e ∈ l, e ∈ l') : Differs l' x := by
  obtain ⟨e, he, h⟩ := h
  exact ⟨e, hl e he, h⟩

/-- Every update has the current counts, or is followed by one with others. -/
def Behind (cur : Counts) (held : List Entry) : List Entry → Prop
  | [] => True
  | e :: q => (e.counts = cur ∨ Differs (q ++ held) e.counts) ∧ Behind cur held q

structure Inv (s : State) : Prop where
  ci : CI s.c
  none : s.c.conn = none → s.queue = [] ∧ s.held = [] ∧ s.existing = none
  queue : Behind s.cur s.held s.queue
  lists : ∀ x, s.existing = some x → x = s.cur ∨ Differs (s.queue ++ s.held) x
  known : s.sent = true → ∃ x, s.existing = some x
  client : s.sent = true → s.c.Away ∨ ∃ k x, s.c.conn = some k ∧ s.existing = some x ∧
    (s.c.view put k = some x ∨ Differs (s.queue ++ s.held) x)

theorem behind_push {cur cur' : Counts} {held q : List Entry} {e : Entry} (h : Behind cur held q) (he : e.counts = cur')
    (hc : cur' = cur ∨ Sure e) : Behind cur' held (q ++ [e]) := by
  induction q with
  | nil => exact ⟨Or.inl he, trivial⟩
  | cons a q ih =>
    refine ⟨?_, ih h.2⟩
    by_cases ha : a.counts = cur'
    · exact Or.inl ha
    · right
      rcases hc with hc | hc
      · rcases h.1 with h1 | h1
        · exact absurd (h1.trans hc.symm) ha
        · exact h1.mono fun x hx => by simp at hx ⊢; rcases hx with hx | hx <;> simp [hx]
      · exact ⟨e, by simp, hc, fun h => ha (h.symm.trans he)⟩

theorem behind_hold {cur cur' : Counts} {held q : List Entry} {e : Entry} (h : Behind cur held q) (he : e.counts = cur')
    (hc : cur' = cur ∨ Sure e) : Behind cur' (held ++ [e]) q := by
  induction q with
  | nil => exact trivial
  | cons a q ih =>
    refine ⟨?_, ih h.2⟩
    by_cases ha : a.counts = cur'
    · exact Or.inl ha
    · right
      rcases hc with hc | hc
      · rcases h.1 with h1 | h1
        · exact absurd (h1.trans hc.symm) ha
        · exact h1.mono fun x hx => by simp at hx ⊢; rcases hx with hx | hx <;> simp [hx]
      · exact ⟨e, by simp, hc, fun h => ha (h.symm.trans he)⟩

theorem behind_release {cur : Counts} {held q : List Entry} {e : Entry} (h : Behind cur (e :: held) q) (he : e.counts = cur) :
    Behind cur held (q ++ [e]) := by
  induction q with
  | nil => exact ⟨Or.inl he, trivial⟩
  | cons a q ih =>
    exact ⟨h.1.imp_right fun h1 => h1.mono fun x hx => by simpa using hx, ih h.2⟩

/-- An update is made, and put at the end of the channel or of what is held back. -/
theorem emit_inv {s s' : State} (h : Inv s) (e : Entry) (hsome : s.c.conn ≠ none) (hc : s'.c = s.c) (hx : s'.existing = s.existing)
    (hsent : s'.sent = s.sent) (he : e.counts = s'.cur) (hcur : s'.cur = s.cur ∨ Sure e)
    (hq : s'.queue = s.queue ++ [e] ∧ s'.held = s.held ∨ s'.queue = s.queue ∧ s'.held = s.held ++ [e]) : Inv s' := by
  have hsub : ∀ x ∈ s.queue ++ s.held, x ∈ s'.queue ++ s'.held := by
    rcases hq with ⟨h1, h2⟩ | ⟨h1, h2⟩ <;> rw [h1, h2] <;> intro x hx <;> simp at hx ⊢ <;> rcases hx with hx | hx <;> simp [hx]
  have hin : e ∈ s'.queue ++ s'.held := by
    rcases hq with ⟨h1, h2⟩ | ⟨h1, h2⟩ <;> rw [h1, h2] <;> simp
  refine ⟨hc ▸ h.ci, fun hn => absurd (hc ▸ hn) hsome, ?_, ?_, ?_, ?_⟩
  · rcases hq with ⟨h1, h2⟩ | ⟨h1, h2⟩ <;> rw [h1, h2]
    · exact behind_push h.queue he hcur
    · exact behind_hold h.queue he hcur
  · intro x hx'
    rw [hx] at hx'
    by_cases hxc : x = s'.cur
    · exact Or.inl hxc
    · right
      rcases hcur with hcur | hcur
      · rcases h.lists x hx' with h1 | h1
        · exact absurd (h1.trans hcur.symm) hxc
        · exact h1.mono hsub
      · exact ⟨e, hin, hcur, fun h => hxc (h.symm.trans he)⟩
  · rw [hsent, hx]; exact h.known
  · rw [hsent, hc, hx]
    intro hs
    rcases h.client hs with h1 | ⟨k, x, h1, h2, h3⟩
    · exact Or.inl h1
    · exact Or.inr ⟨k, x, h1, h2, h3.imp_right fun h => h.mono hsub⟩

/-- Nobody is told. -/
theorem quiet_inv {s : State} (h : Inv s) (hn : s.c.conn = none) (cur : Counts) : Inv { s with cur := cur } := by
  obtain ⟨h1, h2, h3⟩ := h.none hn
  refine ⟨h.ci, h.none, ?_, ?_, h.known, h.client⟩
  · show Behind _ _ s.queue
    rw [h1]; trivial
  · intro x hx
    rw [show ({ s with cur := cur } : State).existing = s.existing from rfl, h3] at hx
    cases hx

theorem push_inv {s : State} (h : Inv s) (cur : Counts) (e : Entry) (he : e.counts = cur) (hc : cur = s.cur ∨ Sure e) :
    Inv ({ s with cur := cur }.emit e) := by
  unfold State.emit
  cases hn : s.c.conn with
  | none =>
    simp only [Option.isSome_none, Bool.false_eq_true, if_false]
    exact quiet_inv h hn cur
  | some k =>
    simp only [Option.isSome_some, if_true]
    exact emit_inv h e (by rw [hn]; simp) rfl rfl rfl he hc (Or.inl ⟨rfl, rfl⟩)

theorem event_inv {s : State} (h : Inv s) (nid : Nat) (own ends : Bool) (hs : nid = 0 → ends = false) : Inv (event s nid own ends) := by
  unfold event
  have hcur : ∀ s' : State, s' = (if ends then { s with cur := { s.cur with high := 0 } } else s) →
      s' = { s with cur := s'.cur } ∧ (s'.cur = s.cur ∨ ends = true) := by
    intro s' e
    subst e
    cases ends
    · exact ⟨rfl, Or.inl rfl⟩
    · exact ⟨rfl, Or.inr rfl⟩
  generalize hs' : (if ends then { s with cur := { s.cur with high := 0 } } else s) = s'
  obtain ⟨h1, h2⟩ := hcur s' hs'.symm
  dsimp only
  by_cases h0 : nid = 0
  · rw [if_pos h0]
    rw [hs h0] at hs'
    simp only [Bool.false_eq_true, if_false] at hs'
    rw [← hs']; exact h
  · rw [if_neg h0]
    generalize hv : s'.cur = v at h1 h2 ⊢
    subst h1
    split
    · rename_i hn
      exact quiet_inv h (by simpa using hn) v
    · rename_i hn
      have hn' : s.c.conn ≠ none := by intro e; apply hn; show s.c.conn.isNone = true; rw [e]; rfl
      split
      · exact emit_inv h (.event nid ends v) hn' rfl rfl rfl rfl h2 (Or.inr ⟨rfl, rfl⟩)
      · exact push_inv h v (.event nid ends v) rfl h2

theorem release_inv {s : State} (h : Inv s) {e : Entry} {l : List Entry} (hh : s.held = e :: l) (he : e.counts = s.cur) :
    Inv ({ s with held := l }.emit e) := by
  have hn : s.c.conn ≠ none := by
    intro hn
    have := (h.none hn).2.1
    rw [hh] at this; cases this
  have hsome : s.c.conn.isSome = true := by
    cases hc : s.c.conn with
    | none => exact absurd hc hn
    | some k => rfl
  have hsub : ∀ x ∈ s.queue ++ s.held, x ∈ (s.queue ++ [e]) ++ l := by
    rw [hh]; intro x hx; simpa using hx
  unfold State.emit
  rw [if_pos hsome]
  refine ⟨h.ci, fun hn' => absurd hn' hn, ?_, ?_, h.known, ?_⟩
  · have := h.queue
    rw [hh] at this
    exact behind_release this he
  · intro x hx
    exact (h.lists x hx).imp_right fun h => h.mono hsub
  · intro hs
    rcases h.client hs with h1 | ⟨k, x, h1, h2, h3⟩
    · exact Or.inl h1
    · exact Or.inr ⟨k, x, h1, h2, h3.imp_right fun h => h.mono hsub⟩

/-! ### Responses -/

theorem put_some (h : Option Counts) (v : Counts) : put h (some v) = some v := rfl

theorem put_none (h : Option Counts) : put h none = h := by unfold put; cases h <;> rfl

/-- The counts in the response in progress are what the client will have. -/
theorem view_told {c : Client (Option Counts) (Option Counts)} {b : Busy (Option Counts)} (hb : c.busy = some b) (v : Counts) (k : Conn.State Nat (Option Counts)) :
    ({ c with busy := c.busy.map fun b => { b with out := some v } } : Client _ _).view put k = some v := by
  unfold Client.view Client.doing
  rw [hb]
  simp only [Option.map_some, List.foldl_append, List.foldl_cons, List.foldl_nil]
  exact put_some _ _

theorem told_ci {c : Client (Option Counts) (Option Counts)} (h : CI c) {b : Busy (Option Counts)} (hb : c.busy = some b) (v : Counts) :
    CI ({ c with busy := c.busy.map fun b => { b with out := some v } } : Client _ _) := by
  rw [hb]
  exact swap_ci h hb (some v)

/-- The room is sent. -/
theorem built_inv {s : State} (h : Inv { s with sent := false }) {b : Busy (Option Counts)} (hb : s.c.busy = some b) {x : Counts} (hx : s.existing = some x) (lp : Nat) :
    Inv (built s lp) := by
  have hci := told_ci h.ci hb s.cur
  obtain ⟨k, hk, _⟩ := h.ci.busy b hb
  refine ⟨hci, h.none, h.queue, h.lists, fun _ => ⟨x, hx⟩, fun _ => Or.inr ⟨k, x, hk, hx, ?_⟩⟩
  have hv := view_told hb s.cur k
  rcases h.lists x hx with h1 | h1
  · left
    rw [h1]; exact hv
  · exact Or.inr h1

/-- The counts that the lists of the connection have are put into the response. -/
theorem told_inv {s : State} (h : Inv { s with sent := false }) {b : Busy (Option Counts)} (hb : s.c.busy = some b) {x : Counts} (hx : s.existing = some x) :
    Inv (told s x) := by
  have hci := told_ci h.ci hb x
  obtain ⟨k, hk, _⟩ := h.ci.busy b hb
  exact ⟨hci, h.none, h.queue, h.lists, fun _ => ⟨x, hx⟩, fun _ => Or.inr ⟨k, x, hk, hx, Or.inl (view_told hb x k)⟩⟩

theorem unsent {s : State} (h : Inv s) : Inv { s with sent := false } :=
  ⟨h.ci, h.none, h.queue, h.lists, by simp, by simp⟩

theorem lp_inv {s : State} (h : Inv s) (n : Nat) : Inv { s with lp := n } := ⟨h.ci, h.none, h.queue, h.lists, h.known, h.client⟩

theorem shown_event {s : State} {b : Busy (Option Counts)} {v : Counts} {n : Nat} {visible ch : Bool} (m1 : Inv { s with sent := false })
    (m2 : s.c.busy = some b) (m3 : s.existing = some v) (m4 : ch = false → Inv s) :
    Inv (if visible = true ∨ ch = true then told (if visible = true then { s with lp := n } else s) v else (if visible = true then { s with lp := n } else s)) := by
  cases visible
  · cases ch
    · simpa using m4 rfl
    · simpa using told_inv m1 m2 m3
  · rw [if_pos (Or.inl rfl), if_pos rfl]
    exact told_inv (s := { s with lp := n }) (lp_inv (s := { s with sent := false }) m1 n) m2 m3

theorem shown_other {s : State} {b : Busy (Option Counts)} {v : Counts} {ch : Bool} (m1 : Inv { s with sent := false })
    (m2 : s.c.busy = some b) (m3 : s.existing = some v) (m4 : ch = false → Inv s) : Inv (if ch = true then told s v else s) := by
  cases ch
  · simpa using m4 rfl
  · simpa using told_inv m1 m2 m3

theorem take_inv {s : State} (h : Inv s) {b : Busy (Option Counts)} (hb : s.c.busy = some b) {e : Entry} {q : List Entry} (hq : s.queue = e :: q)
    (visible : Bool) (build : Option Nat) (hs : ∀ n v, e = .event n true v → ¬ (0 < s.lp ∧ n < s.lp)) :
    Inv (take { s with queue := q } e visible build) := by
  have hB := h.queue
  rw [hq] at hB
  have hnone : s.c.conn = none → False := by
    intro hn
    obtain ⟨k, hk, _⟩ := h.ci.busy b hb
    rw [hn] at hk; cases hk
  -- the update is skipped
  have skip : ¬ Sure e → Inv { s with queue := q } := by
    intro hu
    have hd : ∀ x, Differs (s.queue ++ s.held) x → Differs (q ++ s.held) x := by
      rintro x ⟨e', he', h1, h2⟩
      rw [hq] at he'
      rcases List.mem_cons.1 (show e' ∈ e :: (q ++ s.held) from he') with rfl | he'
      · exact absurd h1 hu
      · exact ⟨e', he', h1, h2⟩
    refine ⟨h.ci, fun hn => (hnone hn).elim, hB.2, fun x hx => (h.lists x hx).imp_right (hd x), h.known, fun hs => ?_⟩
    rcases h.client hs with h1 | ⟨k, x, h1, h2, h3⟩
    · exact Or.inl h1
    · exact Or.inr ⟨k, x, h1, h2, h3.imp_right (hd x)⟩
  -- it is not
  have h1 : Inv { s with queue := q, existing := some e.counts, sent := false } :=
    ⟨h.ci, fun hn => (hnone hn).elim, hB.2, fun x hx => by cases hx; exact hB.1, by simp, by simp⟩
  have same : (∀ x, s.existing = some x → x = e.counts) → Inv { s with queue := q, existing := some e.counts } := by
    intro hx
    refine ⟨h1.ci, h1.none, h1.queue, h1.lists, fun _ => ⟨_, rfl⟩, fun hs => ?_⟩
    rcases h.client hs with h2 | ⟨k, x, h2, h3, h4⟩
    · exact Or.inl h2
    · have hxe := hx x h3
      subst hxe
      refine Or.inr ⟨k, _, h2, rfl, h4.imp_right ?_⟩
      rintro ⟨e', he', h5, h6⟩
      rw [hq] at he'
      rcases List.mem_cons.1 (show e' ∈ e :: (q ++ s.held) from he') with rfl | he'
      · exact absurd rfl h6
      · exact ⟨e', he', h5, h6⟩
  have mid : ∀ s' : State, s' = (match build with
      | some p => built { s with queue := q, existing := some e.counts } p
      | none => { s with queue := q, existing := some e.counts }) →
      Inv { s' with sent := false } ∧ (∃ b, s'.c.busy = some b) ∧ s'.existing = some e.counts ∧
      ((∀ x, s.existing = some x → x = e.counts) → Inv s') := by
    intro s' hs'
    subst hs'
    cases build with
    | none => exact ⟨h1, ⟨b, hb⟩, rfl, same⟩
    | some p =>
      have := built_inv (s := { s with queue := q, existing := some e.counts }) h1 hb rfl p
      refine ⟨unsent this, ⟨{ b with out := some s.cur }, ?_⟩, rfl, fun _ => this⟩
      show s.c.busy.map _ = _
      rw [hb]; rfl
  have hch : ∀ {c : Bool}, c = (match s.existing with
      | some x => decide (x ≠ e.counts)
      | none => false) → c = false → ∀ x, s.existing = some x → x = e.counts := by
    intro c hc hf x hx
    rw [hx, hf] at hc
    have := hc.symm
    simpa using this
  obtain ⟨m1, ⟨b', m2⟩, m3, m4⟩ := mid _ rfl
  have m5 := @hch _ rfl
  unfold take
  cases e with
  | event n ends v =>
    dsimp only
    split
    · rename_i hold
      apply skip
      intro hu
      have hu : ends = true := hu
      subst hu
      exact hs n v rfl (by simpa using hold)
    · exact shown_event m1 m2 m3 fun hf => m4 (m5 hf)
  | other v =>
    dsimp only
    rw [if_neg (by simp)]
    exact shown_other m1 m2 m3 fun hf => m4 (m5 hf)

theorem ask_inv {s : State} (h : Inv s) (body : Nat) (hb : s.c.busy = none) (hc : s.c.calls body = true) : Inv (ask s body) := by
  have hci := serve_ci h.ci (b := ⟨body, true, none⟩) hc
  unfold ask
  dsimp only
  by_cases h0 : s.c.pos = 0
  · rw [if_pos h0]
    exact ⟨hci, fun _ => ⟨rfl, rfl, rfl⟩, trivial, by simp, by simp, by simp⟩
  · rw [if_neg h0]
    obtain ⟨k, hk, hk', hv⟩ := serve_later (put := put) (b := ⟨body, true, none⟩) hc h0 hb
    rw [put_none] at hv
    refine ⟨hci, fun hn => ?_, h.queue, h.lists, h.known, fun hs => ?_⟩
    · have hn : (s.c.serve ⟨body, true, none⟩).conn = none := hn
      rw [hk'] at hn; cases hn
    · rcases h.client hs with h1 | ⟨k', x, h1, h2, h3⟩
      · rcases h1.2 with h1 | h1
        · exact absurd h1 h0
        · rw [hk] at h1; cases h1
      · rw [hk] at h1
        cases h1
        refine Or.inr ⟨k, x, hk', h2, h3.imp_left fun h3 => ?_⟩
        exact hv.trans h3

theorem load_inv {s : State} (h : Inv s) {b : Busy (Option Counts)} (hb : s.c.busy = some b) (known : Bool) (lp : Nat) (hsent : s.sent = false) :
    Inv { s with loaded := true, existing := if known then some s.cur else none, lp := if known then lp else 0 } := by
  have hnone : s.c.conn = none → False := by
    intro hn
    obtain ⟨k, hk, _⟩ := h.ci.busy b hb
    rw [hn] at hk; cases hk
  refine ⟨h.ci, fun hn => (hnone hn).elim, h.queue, ?_, ?_, ?_⟩
  · intro x hx
    left
    cases known with
    | false => cases hx
    | true => cases hx; rfl
  · intro hs; rw [show _ = s.sent from rfl, hsent] at hs; cases hs
  · intro hs; rw [show _ = s.sent from rfl, hsent] at hs; cases hs

theorem again_inv {s : State} (h : Inv s) (body : Nat) (arrives : Bool) (hb : s.c.busy = none) (hc : s.c.calls body = false) :
    Inv { s with c := s.c.repeated put body arrives } := by
  have hr := repeated_cases (put := put) h.ci hb hc arrives
  refine ⟨repeated_ci h.ci hb hc arrives, fun hn => ?_, h.queue, h.lists, h.known, fun hs => ?_⟩
  · apply h.none
    obtain ⟨_, ⟨_, _, h4⟩ | ⟨k, d, r, _, _, h4, _⟩⟩ := hr
    · exact h4.symm.trans hn
    · have hn : (s.c.repeated put body arrives).conn = none := hn
      rw [h4] at hn; cases hn
  · rcases repeated_view (put := put) h.ci hb hc arrives with h1 | ⟨k, k', h1, h2, h3⟩
    · exact Or.inl h1
    · rcases h.client hs with h4 | ⟨k0, x, h4, h5, h6⟩
      · left
        rcases h4.2 with h4 | h4
        · rcases hr with ⟨hbusy, ⟨_, h7, _⟩ | ⟨_, _, _, _, hp, _⟩⟩
          · refine ⟨hbusy, Or.inl ?_⟩
            rcases h7 with h7 | h7
            · exact h7
            · show (s.c.repeated put body arrives).pos = 0
              rw [h7]; exact h4
          · exact absurd h4 hp
        · rw [h4] at h1; cases h1
      · rw [h4] at h1; cases h1
        refine Or.inr ⟨k', x, h2, h5, h6.imp_left fun h6 => ?_⟩
        exact h3.trans h6

theorem done_inv {s : State} (h : Inv s) {b : Busy (Option Counts)} (hb : s.c.busy = some b) (fails arrives : Bool)
    (hf : fails = true → s.c.pos = 0 ∨ b.out = none) : Inv { s with c := s.c.finish put b fails arrives } := by
  have hci := finish_ci (put := put) h.ci hb fails arrives
  have hbusy := finish_busy (put := put) h.ci hb fails arrives
  have key : ∀ k, s.c.conn = some k → ((s.c.finish put b fails arrives).Away ∨
      ∃ k', (s.c.finish put b fails arrives).conn = some k' ∧ (s.c.finish put b fails arrives).view put k' = s.c.view put k) ∧
      (s.c.finish put b fails arrives).conn ≠ none := by
    intro k hk
    cases fails with
    | false =>
      obtain ⟨k0, k', h1, h2, h3⟩ := finish_view (put := put) h.ci hb arrives
      rw [hk] at h1; cases h1
      exact ⟨Or.inr ⟨k', h2, h3⟩, by rw [h2]; simp⟩
    | true =>
      obtain ⟨k0, k', h1, h2, h3, h4⟩ := finish_failed (put := put) h.ci hb arrives
      rw [hk] at h1; cases h1
      refine ⟨?_, by rw [h2]; simp⟩
      rcases hf rfl with h0 | h0
      · exact Or.inl ⟨hbusy, Or.inl (h3.trans h0)⟩
      · refine Or.inr ⟨k', h2, h4.trans ?_⟩
        unfold Client.view Client.doing
        rw [hb]
        simp only [List.foldl_append, List.foldl_cons, List.foldl_nil, h0, put_none]
  obtain ⟨k, hk, _⟩ := h.ci.busy b hb
  obtain ⟨h1, h2⟩ := key k hk
  refine ⟨hci, fun hn => absurd hn h2, h.queue, h.lists, h.known, fun hs => ?_⟩
  rcases h1 with h1 | ⟨k', h1, h3⟩
  · exact Or.inl h1
  · rcases h.client hs with h4 | ⟨k0, x, h4, h5, h6⟩
    · rw [h4.1] at hb; cases hb
    · rw [hk] at h4; cases h4
      exact Or.inr ⟨k', x, h1, h5, h6.imp_left fun h6 => h3.trans h6⟩

/-- A connection that has not loaded has sent nothing. -/
theorem unloaded {ok : Mode} {p : List Counts} {s : State} (h : Run ok p s) : (s.loaded = false → s.existing = none ∧ s.sent = false) := by
  have he : ∀ (s : State) (e : Entry), (s.emit e).loaded = s.loaded ∧ (s.emit e).existing = s.existing ∧ (s.emit e).sent = s.sent := by
    intro s e
    unfold State.emit
    split <;> exact ⟨rfl, rfl, rfl⟩
  induction h with
  | start cur => exact fun _ => ⟨rfl, rfl⟩
  | @unread p s high notif _ ih =>
    have := he { s with cur := { notif := notif.getD s.cur.notif, high := high.getD s.cur.high } } (.other { notif := notif.getD s.cur.notif, high := high.getD s.cur.high })
    unfold unread
    rw [this.1, this.2.1, this.2.2]
    exact ih
  | @invite p s _ ih =>
    have := he { s with cur := { s.cur with high := 1 } } (.other { s.cur with high := 1 })
    unfold invite
    rw [this.1, this.2.1, this.2.2]
    exact ih
  | @event p s nid own ends _ _ ih =>
    have h1 : ∀ v : State, v.loaded = s.loaded ∧ v.existing = s.existing ∧ v.sent = s.sent → v.loaded = false → v.existing = none ∧ v.sent = false := by
      intro v hv; rw [hv.1, hv.2.1, hv.2.2]; exact ih
    apply h1
    unfold event
    dsimp only
    cases ends
    · simp only [Bool.false_eq_true, if_false]
      repeat' split
      all_goals first | exact ⟨rfl, rfl, rfl⟩ | exact he _ _
    · simp only [if_true]
      repeat' split
      all_goals first | exact ⟨rfl, rfl, rfl⟩ | exact he _ _
  | @other p s _ ih => rw [(he _ _).1, (he _ _).2.1, (he _ _).2.2]; exact ih
  | @release p s e l _ _ _ ih => rw [(he _ _).1, (he _ _).2.1, (he _ _).2.2]; exact ih
  | again body arrives _ _ _ ih => exact ih
  | @ask p s body _ _ _ ih =>
    unfold ask
    dsimp only
    split
    · exact fun _ => ⟨rfl, rfl⟩
    · exact ih
  | load known lp _ _ _ _ => intro h; cases h
  | @build p s b x lp _ _ hx ih =>
    intro h
    have := (ih h).1
    rw [hx] at this; cases this
  | @take p s b e q visible build _ _ hl _ _ _ =>
    have : (take { s with queue := q } e visible build).loaded = s.loaded := by
      unfold take told built
      cases build <;> cases e <;> dsimp only <;> repeat' split
      all_goals rfl
    intro h
    rw [this, hl] at h; cases h
  | done fails arrives _ _ _ _ ih => exact ih
  | lose _ _ => exact fun _ => ⟨rfl, rfl⟩

theorem run_inv {p : List Counts} {s : State} (h : Run Mode.good p s) : Inv s := by
  induction h with
  | start cur => exact ⟨start_ci _, fun _ => ⟨rfl, rfl, rfl⟩, trivial, by simp, by simp, by simp⟩
  | @unread p s high notif _ ih => exact push_inv ih _ _ rfl (Or.inr trivial)
  | @invite p s _ ih => exact push_inv ih { s.cur with high := 1 } _ rfl (Or.inr trivial)
  | event nid own ends _ hs ih => exact event_inv ih nid own ends (hs id)
  | @other p s _ ih => exact push_inv ih s.cur _ rfl (Or.inl rfl)
  | release _ hh hs ih => exact release_inv ih hh (hs id)
  | again body arrives _ hb hc ih => exact again_inv ih body arrives hb hc
  | ask body _ hb hc ih => exact ask_inv ih body hb hc
  | load known lp h hb hl ih => exact load_inv ih hb known lp (unloaded h hl).2
  | build lp _ hb hx ih => exact built_inv (unsent ih) hb hx lp
  | take visible build _ hb _ hq hs ih => exact take_inv ih hb hq visible build (hs id)
  | done fails arrives _ hb _ hf ih => exact done_inv ih hb fails arrives (hf id)
  | lose _ ih => exact ⟨lose_ci ih.ci, fun _ => ⟨rfl, rfl, rfl⟩, trivial, by simp, by simp, by simp⟩

/-- **C123.** A client that has got every response of a connection which has sent it the room, with no update left in the channel, has
the unread counts that the user's cache has – if no event is released from being held back with counts that have changed since, the
event that ends an invite is not skipped and not in a state block, and no later request fails.  The room need not be in view any
more. -/
theorem C123_partial {p : List Counts} {s : State} (h : Run Mode.good p s) (hs : s.sent = true) (hu : CaughtUp s) : s.c.has = some s.cur := by
  have hi := run_inv h
  obtain ⟨hb, hq, hh, h0, k, hk, hp⟩ := hu
  have hno : ∀ x, ¬ Differs (s.queue ++ s.held) x := by
    rintro x ⟨e, he, _⟩
    rw [hq, hh] at he; cases he
  rcases hi.client hs with h1 | ⟨k', x, h1, h2, h3⟩
  · rcases h1.2 with h1 | h1
    · exact absurd h1 h0
    · rw [hk] at h1; cases h1
  · rw [hk] at h1; cases h1
    have hv := h3.resolve_right (hno x)
    have hx := (hi.lists x h2).resolve_right (hno x)
    unfold Client.view Client.doing at hv
    rw [unacked_last (hi.ci.conn k hk) (by omega), hb] at hv
    rw [← hx]
    exact hv

/-! ## Nothing is made up -/

/-- What a response has of the room is counts the cache has had. -/
def Had (p : List Counts) (o : Option Counts) : Prop := ∀ v, o = some v → v ∈ p

structure Past (p : List Counts) (s : State) : Prop where
  ci : CI s.c
  cur : s.cur ∈ p
  queue : ∀ e ∈ s.queue, e.counts ∈ p
  held : ∀ e ∈ s.held, e.counts ∈ p
  all : s.c.All (Had p)
  has : Had p s.c.has

theorem Past.more {p : List Counts} {s : State} (h : Past p s) (v : Counts) : Past (v :: p) s :=
  ⟨h.ci, List.mem_cons_of_mem _ h.cur, fun e he => List.mem_cons_of_mem _ (h.queue e he), fun e he => List.mem_cons_of_mem _ (h.held e he),
    h.all.mono fun _ h x hx => List.mem_cons_of_mem _ (h x hx), fun x hx => List.mem_cons_of_mem _ (h.has x hx)⟩

theorem Past.emit {p : List Counts} {s : State} (h : Past p s) (e : Entry) (he : e.counts ∈ p) : Past p (s.emit e) := by
  unfold State.emit
  split
  · refine ⟨h.ci, h.cur, ?_, h.held, h.all, h.has⟩
    intro e' he'
    rcases List.mem_append.1 he' with he' | he'
    · exact h.queue e' he'
    · rw [List.mem_singleton.1 he']; exact he
  · exact h

theorem Past.set {p : List Counts} {s : State} (h : Past p s) (v : Counts) : Past (v :: p) { s with cur := v } :=
  ⟨h.ci, List.mem_cons_self .., (h.more v).queue, (h.more v).held, (h.more v).all, (h.more v).has⟩

theorem Past.told {p : List Counts} {s : State} (h : Past p s) (v : Counts) (hv : v ∈ p) : Past p (told s v) := by
  have hci : CI (UnreadFlow.told s v).c := by
    rcases Option.eq_none_or_eq_some s.c.busy with hb | ⟨b, hb⟩
    · refine ⟨h.ci.conn, h.ci.nonneg, ?_⟩
      intro b' hb'
      rw [show (UnreadFlow.told s v).c.busy = s.c.busy.map _ from rfl, hb] at hb'
      cases hb'
    · exact told_ci h.ci hb v
  refine ⟨hci, h.cur, h.queue, h.held, ⟨h.all.1, ?_⟩, h.has⟩
  intro b hb
  obtain ⟨b', _, rfl⟩ := Option.map_eq_some_iff.1 hb
  intro x hx
  cases hx
  exact hv

theorem Past.built {p : List Counts} {s : State} (h : Past p s) (n : Nat) : Past p (built s n) := by
  have := h.told s.cur h.cur
  exact ⟨this.ci, this.cur, this.queue, this.held, this.all, this.has⟩

theorem Past.lp {p : List Counts} {s : State} (h : Past p s) (n : Nat) : Past p { s with lp := n } :=
  ⟨h.ci, h.cur, h.queue, h.held, h.all, h.has⟩

theorem past_event {p : List Counts} {s : State} {v : Counts} {n : Nat} {visible ch : Bool} (h : Past p s) (hv : v ∈ p) :
    Past p (if visible = true ∨ ch = true then told (if visible = true then { s with lp := n } else s) v else (if visible = true then { s with lp := n } else s)) := by
  have h1 : Past p (if visible = true then { s with lp := n } else s) := by
    split
    · exact h.lp n
    · exact h
  split
  · exact h1.told v hv
  · exact h1

theorem past_other {p : List Counts} {s : State} {v : Counts} {ch : Bool} (h : Past p s) (hv : v ∈ p) : Past p (if ch = true then told s v else s) := by
  split
  · exact h.told v hv
  · exact h

theorem past_run {ok : Mode} {p : List Counts} {s : State} (h : Run ok p s) : Past p s := by
  have get : ∀ (p : List Counts) (v v' : Option Counts), Had p v → (v' = v ∨ ∃ d, Had p d ∧ v' = put v d) → Had p v' := by
    intro p v v' h1 h2
    rcases h2 with h2 | ⟨d, hd, h2⟩
    · rw [h2]; exact h1
    · rw [h2]
      cases d with
      | none => rw [put_none]; exact h1
      | some x => rw [put_some]; exact hd
  induction h with
  | start cur => exact ⟨start_ci _, List.mem_cons_self .., by simp, by simp, start_all _ _, by intro v hv; cases hv⟩
  | @unread p s high notif _ ih =>
    rw [show (unread s high notif).cur = { notif := notif.getD s.cur.notif, high := high.getD s.cur.high } by
      unfold unread State.emit; dsimp only; split <;> rfl]
    exact (ih.set _).emit _ (List.mem_cons_self ..)
  | @invite p s _ ih =>
    rw [show (invite s).cur = { s.cur with high := 1 } by unfold invite State.emit; dsimp only; split <;> rfl]
    exact (ih.set _).emit _ (List.mem_cons_self ..)
  | @event p s nid own ends _ _ ih =>
    have h1 : Past ((if ends then { s with cur := { s.cur with high := 0 } } else s).cur :: p) (if ends then { s with cur := { s.cur with high := 0 } } else s) := by
      cases ends
      · exact ih.more _
      · exact ih.set _
    have h2 : (event s nid own ends).cur = (if ends then { s with cur := { s.cur with high := 0 } } else s).cur := by
      unfold event
      generalize (if ends then { s with cur := { s.cur with high := 0 } } else s) = s'
      dsimp only
      unfold State.emit
      repeat' split
      all_goals rfl
    rw [h2]
    unfold event
    generalize (if ends then { s with cur := { s.cur with high := 0 } } else s) = s' at h1 ⊢
    dsimp only
    split
    · exact h1
    · split
      · exact h1
      · split
        · refine ⟨h1.ci, h1.cur, h1.queue, ?_, h1.all, h1.has⟩
          intro e he
          rcases List.mem_append.1 he with he | he
          · exact h1.held e he
          · rw [List.mem_singleton.1 he]; exact List.mem_cons_self ..
        · exact h1.emit _ (List.mem_cons_self ..)
  | @other p s _ ih => exact ih.emit _ ih.cur
  | @release p s e l _ hh _ ih =>
    have h1 : Past p { s with held := l } := ⟨ih.ci, ih.cur, ih.queue, fun e' he' => ih.held e' (by rw [hh]; exact List.mem_cons_of_mem _ he'), ih.all, ih.has⟩
    exact h1.emit e (ih.held e (by rw [hh]; exact List.mem_cons_self ..))
  | again body arrives _ hb hc ih =>
    obtain ⟨h1, h2⟩ := repeated_all (put := put) ih.ci hb hc arrives ih.all
    exact ⟨repeated_ci ih.ci hb hc arrives, ih.cur, ih.queue, ih.held, h1, get _ _ _ ih.has h2⟩
  | @ask p s body _ hb hc ih =>
    have h1 := serve_ci ih.ci (b := ⟨body, true, none⟩) hc
    have h2 : (s.c.serve ⟨body, true, none⟩).All (Had p) := serve_all ih.all (by intro v hv; cases hv)
    unfold ask
    dsimp only
    split
    · exact ⟨h1, ih.cur, by simp, by simp, h2, ih.has⟩
    · exact ⟨h1, ih.cur, ih.queue, ih.held, h2, ih.has⟩
  | load known lp _ _ _ ih => exact ⟨ih.ci, ih.cur, ih.queue, ih.held, ih.all, ih.has⟩
  | build lp _ _ _ ih => exact ih.built lp
  | @take p s b e q visible build _ hb _ hq _ ih =>
    have he : e.counts ∈ p := ih.queue e (by rw [hq]; exact List.mem_cons_self ..)
    have h0 : Past p { s with queue := q } := ⟨ih.ci, ih.cur, fun e' he' => ih.queue e' (by rw [hq]; exact List.mem_cons_of_mem _ he'), ih.held, ih.all, ih.has⟩
    have h1 : Past p { s with queue := q, existing := some e.counts } := ⟨h0.ci, h0.cur, h0.queue, h0.held, h0.all, h0.has⟩
    have h2 : ∀ s' : State, s' = (match build with
      | some n => UnreadFlow.built { s with queue := q, existing := some e.counts } n
      | none => { s with queue := q, existing := some e.counts }) → Past p s' := by
      rintro s' rfl
      cases build with
      | none => exact h1
      | some n => exact h1.built n
    have h3 := h2 _ rfl
    unfold take
    cases e with
    | event n ends v =>
      dsimp only
      split
      · exact h0
      · exact past_event h3 he
    | other v =>
      dsimp only
      rw [if_neg (by simp)]
      exact past_other h3 he
  | done fails arrives _ hb _ _ ih =>
    obtain ⟨h1, h2⟩ := finish_all (put := put) ih.ci hb fails arrives ih.all
    exact ⟨finish_ci (put := put) ih.ci hb fails arrives, ih.cur, ih.queue, ih.held, h1, get _ _ _ ih.has h2⟩
  | @lose p s _ ih => exact ⟨lose_ci ih.ci, ih.cur, by simp, by simp, lose_all _, ih.has⟩

/-- C123, the other direction, in all executions: the counts that the client has are counts that the cache has had. -/
theorem C123_authentic {ok : Mode} {p : List Counts} {s : State} (h : Run ok p s) (v : Counts) (hv : s.c.has = some v) : v ∈ p :=
  (past_run h).has v hv

end Verif.UnreadFlow
