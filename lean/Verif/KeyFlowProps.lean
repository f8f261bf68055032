import Verif.KeyFlow
import Verif.ConnFlowProps
import Verif.E2EEProps
/-! C121: one-time key counts and fallback key types from the homeserver to the client. -/
namespace Verif.KeyFlow
open Verif
open Verif.E2EE (Map Out Ev Sync)

/-! ### Specification -/

/-- Nothing is on its way: no request, no response the client has not had, nothing written since the last incremental read, and
the client has a connection. -/
def CaughtUp (s : State) : Prop :=
  s.c.busy = none ∧ s.c.pos ≠ 0 ∧ s.srv.otkBit = false ∧ s.srv.fbBit = false ∧
    ∃ k, s.c.conn = some k ∧ ∀ r ∈ k.buf, r.pos ≤ s.c.pos

/-- Go maps have no key twice, and an algorithm with count zero in one response is in all responses with counts (without this
the poller misses changes, C37). -/
def Counts (evs : List Ev) : Prop :=
  (∀ m ∈ E2EE.otkMaps evs, (m.map (·.1)).Nodup) ∧
  ∀ m ∈ E2EE.otkMaps evs, ∀ kv ∈ m, kv.2 = 0 → ∀ m' ∈ E2EE.otkMaps evs, m' ≠ [] → kv.1 ∈ m'.map (·.1)

/-- C121 as stated: a client that has caught up has the counts and fallback key types the homeserver reported last. -/
def Arrives (ok : Mode) : Prop :=
  ∀ s, Run ok s → CaughtUp s → s.c.has.fallback = E2EE.upstreamFB s.evs ∧
    (Counts s.evs → E2EE.SameOpt s.c.has.otk (E2EE.upstreamOTK s.evs))

/-- No request fails after reading counts or fallback key types, unless it is the first of a connection, and the client has the
extension in the first request of a connection. -/
def Mode.good : Mode := ⟨False, False⟩

/-! ### The tables -/

/-- What the row always satisfies. -/
structure Good (s : E2EE.State) : Prop where
  row : s.row = false → s.otk = none ∧ s.fallback = none ∧ s.otkBit = false ∧ s.fbBit = false
  some : s.otk ≠ Option.some []

/-- Counts or fallback key types: what is stored, whether it changed, what is in a response, what the client has. -/
structure Reg (α : Type) where
  st : E2EE.State → Option α
  bit : E2EE.State → Bool
  out : Out → Option α
  has : Has → Option α

structure Reg.Law {α : Type} (g : Reg α) : Prop where
  put : ∀ v o, g.has (put v o) = (g.out o).or (g.has v)
  start : g.has {} = none
  off : g.out {} = none
  first : ∀ s, Good s → g.out (E2EE.read s true).2 = g.st s
  incr : ∀ s, Good s → g.out (E2EE.read s false).2 = if g.bit s then g.st s else none
  read : ∀ s i, g.st (E2EE.read s i).1 = g.st s
  keep : ∀ s, g.bit (E2EE.read s true).1 = g.bit s
  clear : ∀ s, Good s → g.bit (E2EE.read s false).1 = false
  sync : ∀ p s r b, (g.st (E2EE.parse p s r b).2 = g.st s ∧ g.bit (E2EE.parse p s r b).2 = g.bit s) ∨
    (g.bit (E2EE.parse p s r b).2 = true ∧ g.st (E2EE.parse p s r b).2 ≠ none)
  none : ∀ o, o.otk = Option.none → o.fallback = Option.none → g.out o = Option.none
  empty : ∀ o, o.otk = Option.some [] → o.fallback = Option.none → g.out o = Option.none

/-- Counts with an entry. -/
def entries : Option Map → Option Map
  | some (x :: m) => some (x :: m)
  | _ => none

def counts : Reg Map := ⟨fun s => entries s.otk, (·.otkBit), fun o => entries o.otk, (·.otk)⟩

def fallbacks : Reg (List String) := ⟨(·.fallback), (·.fbBit), (·.fallback), (·.fallback)⟩

theorem entries_good {s : E2EE.State} (h : Good s) : entries s.otk = s.otk := by
  have := h.some
  cases ho : s.otk with
  | none => rfl
  | some m => cases m with
    | nil => exact absurd ho this
    | cons x m => rfl

theorem changed_nonempty (p : E2EE.Poller) (r : Sync) {m : Map} (h : E2EE.changedOTK p r = some m) : m ≠ [] := by
  unfold E2EE.changedOTK at h
  split at h
  · cases h
  · rename_i m' _
    split at h
    · rename_i hl
      have : m' ≠ [] := by intro h0; rw [h0] at hl; cases hl
      split at h
      · cases h; exact this
      · split at h
        · cases h; exact this
        · cases h
    · cases h

theorem parse_cases (p : E2EE.Poller) (s : E2EE.State) (r : Sync) (b : Bool) :
    (E2EE.parse p s r b).2 = s ∨
    (E2EE.parse p s r b).2 = E2EE.upsert s (E2EE.changedOTK p r) (E2EE.changedFB p r).1 (E2EE.toChanges r.changed r.left) := by
  unfold E2EE.parse
  simp only
  split
  · exact Or.inl rfl
  · simp only
    cases decide (r.changed.length ≠ 0) || decide (r.left.length ≠ 0) || (E2EE.changedFB p r).1.isSome || (E2EE.changedOTK p r).isSome
    · exact Or.inl rfl
    · exact Or.inr rfl

theorem good_parse {s : E2EE.State} (h : Good s) (p : E2EE.Poller) (r : Sync) (b : Bool) : Good (E2EE.parse p s r b).2 := by
  rcases parse_cases p s r b with e | e
  · rw [e]; exact h
  · rw [e]
    refine ⟨(fun hr => by cases hr), ?_⟩
    unfold E2EE.upsert
    simp only
    split
    · rename_i o ho
      intro he
      cases he
      exact changed_nonempty p r ho rfl
    · exact h.some

theorem good_read {s : E2EE.State} (h : Good s) (i : Bool) : Good (E2EE.read s i).1 := by
  unfold E2EE.read
  split
  · exact h
  · rename_i hr
    split
    · exact h
    · exact ⟨fun h' => absurd (by simpa using h') hr, h.some⟩

theorem evRun_snoc (evs : List Ev) (e : Ev) : E2EE.evRun (evs ++ [e]) = E2EE.evStep (E2EE.evRun evs) e := by
  unfold E2EE.evRun; rw [List.foldl_append]; rfl

theorem good_run (evs : List Ev) : Good (E2EE.evRun evs).2 := by
  induction evs using Verif.Util.snocRec with
  | nil => exact ⟨fun _ => ⟨rfl, rfl, rfl, rfl⟩, by simp [E2EE.evRun]⟩
  | append_singleton evs e ih =>
    rw [evRun_snoc]
    cases e with
    | sync r b => exact good_parse ih _ r b
    | read i => exact good_read ih i
    | restart => exact ih

theorem counts_law : counts.Law where
  put v o := by
    simp only [counts, put]
    cases o.otk with
    | none => rfl
    | some m => cases m <;> rfl
  start := rfl
  off := rfl
  first s h := by
    unfold counts E2EE.read
    cases hr : s.row with
    | false => simp [(h.row hr).1, entries]
    | true => simp
  incr s h := by
    unfold counts E2EE.read
    cases hr : s.row with
    | false => simp [(h.row hr).1, entries]
    | true => cases hb : s.otkBit <;> simp [entries, hb]
  read s i := by
    unfold counts E2EE.read
    cases s.row <;> cases i <;> rfl
  keep s := by
    unfold counts E2EE.read
    cases s.row <;> rfl
  clear s h := by
    unfold counts E2EE.read
    cases hr : s.row with
    | false => simp [(h.row hr).2.2.1]
    | true => rfl
  sync p s r b := by
    rcases parse_cases p s r b with e | e
    · rw [e]; exact Or.inl ⟨rfl, rfl⟩
    · rw [e]
      unfold counts E2EE.upsert
      simp only
      cases ho : E2EE.changedOTK p r with
      | none => exact Or.inl ⟨rfl, rfl⟩
      | some m =>
        refine Or.inr ⟨rfl, ?_⟩
        have := changed_nonempty p r ho
        cases m with
        | nil => exact absurd rfl this
        | cons x m => simp [entries]
  none o h _ := by simp [counts, h, entries]
  empty o h _ := by simp [counts, h, entries]

theorem fallbacks_law : fallbacks.Law where
  put v o := by
    simp only [fallbacks, put]
    cases o.fallback <;> rfl
  start := rfl
  off := rfl
  first s h := by
    unfold fallbacks E2EE.read
    cases hr : s.row with
    | false => simp [(h.row hr).2.1]
    | true => simp
  incr s h := by
    unfold fallbacks E2EE.read
    cases hr : s.row with
    | false => simp [(h.row hr).2.1]
    | true => cases hb : s.fbBit <;> simp [hb]
  read s i := by
    unfold fallbacks E2EE.read
    cases s.row <;> cases i <;> rfl
  keep s := by
    unfold fallbacks E2EE.read
    cases s.row <;> rfl
  clear s h := by
    unfold fallbacks E2EE.read
    cases hr : s.row with
    | false => simp [(h.row hr).2.2.2]
    | true => rfl
  sync p s r b := by
    rcases parse_cases p s r b with e | e
    · rw [e]; exact Or.inl ⟨rfl, rfl⟩
    · rw [e]
      unfold fallbacks E2EE.upsert
      simp only
      cases ho : (E2EE.changedFB p r).1 with
      | none => exact Or.inl ⟨rfl, rfl⟩
      | some m => exact Or.inr ⟨rfl, by simp⟩
  none o _ h := h
  empty o _ h := h

/-! ### The whole -/

theorem ci_run {ok : Mode} {s : State} (h : Run ok s) : ConnFlow.CI s.c := by
  induction h with
  | start => exact ConnFlow.start_ci _
  | sync r b _ ih => exact ih
  | restart _ ih => exact ih
  | again body arrives _ hb hc ih => exact ConnFlow.repeated_ci ih hb hc arrives
  | without body _ hb hc _ ih => exact ConnFlow.serve_ci ih hc
  | ask body _ hb hc ih => exact ConnFlow.serve_ci ih hc
  | wake _ hb hon he ih => exact ConnFlow.swap_ci ih hb _
  | done fails arrives _ hb hf ih => exact ConnFlow.finish_ci ih hb fails arrives
  | crash _ ih => exact ConnFlow.lose_ci ih

theorem srv_sync (s : State) (r : Sync) (b : Bool) :
    ({ s with evs := s.evs ++ [.sync r b] } : State).srv = (E2EE.parse (E2EE.evRun s.evs).1 s.srv r b).2 := by
  unfold State.srv; simp only [evRun_snoc]; rfl

theorem srv_restart (s : State) : ({ s with evs := s.evs ++ [.restart] } : State).srv = s.srv := by
  unfold State.srv; simp only [evRun_snoc]; rfl

theorem srv_read (s : State) (i : Bool) (c : ConnFlow.Client Out Has) :
    ({ evs := s.evs ++ [.read i], c := c } : State).srv = (E2EE.read s.srv i).1 := by
  unfold State.srv; simp only [evRun_snoc]; rfl

theorem srv_good (s : State) : Good s.srv := good_run s.evs

/-- As long as nothing is stored nothing is sent. -/
def Silent {α : Type} (g : Reg α) (s : State) : Prop :=
  g.st s.srv = none → g.has s.c.has = none ∧ s.c.All fun o => g.out o = none

/-- What the client will have is what is stored, unless it changed since or the client has to connect again. -/
def Due {α : Type} (g : Reg α) (s : State) : Prop :=
  g.bit s.srv = true ∨ s.c.Away ∨ ∃ k, s.c.conn = some k ∧ g.has (s.c.view put k) = g.st s.srv

theorem silent_run {α : Type} {g : Reg α} (hg : g.Law) {ok : Mode} {s : State} (h : Run ok s) : Silent g s := by
  induction h with
  | start => exact fun _ => ⟨hg.start, ConnFlow.start_all _ _⟩
  | @sync s r b _ ih =>
    intro hn
    rw [srv_sync] at hn
    refine ih ?_
    rcases hg.sync (E2EE.evRun s.evs).1 s.srv r b with ⟨h1, _⟩ | ⟨_, h1⟩
    · rw [← h1]; exact hn
    · exact absurd hn h1
  | restart _ ih => intro hn; rw [srv_restart] at hn; exact ih hn
  | @again s body arrives hr hb hc ih =>
    intro hn
    obtain ⟨h1, h2⟩ := ih hn
    obtain ⟨h3, h4⟩ := ConnFlow.repeated_all (put := put) (ci_run hr) hb hc arrives h2
    refine ⟨?_, h3⟩
    simp only
    rcases h4 with h4 | ⟨d, hd, h4⟩
    · rw [h4]; exact h1
    · rw [h4, hg.put, hd, h1]; rfl
  | without body _ hb hc _ ih =>
    intro hn
    obtain ⟨h1, h2⟩ := ih hn
    exact ⟨h1, ConnFlow.serve_all h2 hg.off⟩
  | @ask s body _ hb hc ih =>
    intro hn
    rw [srv_read, hg.read] at hn
    obtain ⟨h1, h2⟩ := ih hn
    refine ⟨h1, ConnFlow.serve_all h2 ?_⟩
    simp only
    by_cases h0 : s.c.pos = 0
    · rw [decide_eq_true h0, hg.first _ (srv_good s), hn]
    · rw [decide_eq_false h0, hg.incr _ (srv_good s), hn]; split <;> rfl
  | @wake s b _ hb hon he ih =>
    intro hn
    rw [srv_read, hg.read] at hn
    obtain ⟨h1, h2⟩ := ih hn
    refine ⟨h1, h2.1, ?_⟩
    intro b' hb'
    cases hb'
    simp only
    rw [hg.incr _ (srv_good s), hn]; split <;> rfl
  | @done s b fails arrives hr hb hf ih =>
    intro hn
    obtain ⟨h1, h2⟩ := ih hn
    obtain ⟨h3, h4⟩ := ConnFlow.finish_all (put := put) (ci_run hr) hb fails arrives h2
    refine ⟨?_, h3⟩
    simp only
    rcases h4 with h4 | ⟨d, hd, h4⟩
    · rw [h4]; exact h1
    · rw [h4, hg.put, hd, h1]; rfl
  | crash _ ih => exact fun hn => ⟨(ih hn).1, ConnFlow.lose_all _⟩

theorem fold_none {α : Type} {g : Reg α} (hg : g.Law) (l : List Out) (v : Has) (hv : g.has v = none) (hl : ∀ o ∈ l, g.out o = none) :
    g.has (l.foldl put v) = none := by
  induction l generalizing v with
  | nil => exact hv
  | cons o l ih =>
    refine ih (put v o) ?_ fun o' ho' => hl o' (List.mem_cons_of_mem _ ho')
    rw [hg.put, hl o List.mem_cons_self, hv]; rfl

theorem view_none {α : Type} {g : Reg α} (hg : g.Law) {s : State} (h : Silent g s) (hn : g.st s.srv = none)
    {k : Conn.State Nat Out} (hk : s.c.conn = some k) : g.has (s.c.view put k) = none := by
  obtain ⟨h1, h2⟩ := h hn
  refine fold_none hg _ _ h1 ?_
  intro o ho
  rcases List.mem_append.1 ho with ho | ho
  · obtain ⟨r, hr, e⟩ := List.mem_map.1 ho
    rw [← e]
    exact h2.1 k hk r (List.mem_filter.1 hr).1
  · unfold ConnFlow.Client.doing at ho
    split at ho
    · rename_i b hb
      rw [List.mem_singleton] at ho
      rw [ho]; exact h2.2 b hb
    · cases ho

theorem or_self_of {α : Type} {a b : Option α} (h : a = none → b = none) : a.or b = a := by
  cases a with
  | none => exact h rfl
  | some x => rfl

/-- A request with the extension: the client will have what is stored. -/
theorem ask_view {α : Type} {g : Reg α} (hg : g.Law) {s : State} (hsil : Silent g s) (hd : Due g s) {body : Nat}
    (hb : s.c.busy = none) (hc : s.c.calls body = true) :
    ∃ k, (s.c.serve ⟨body, true, (E2EE.read s.srv (decide (s.c.pos = 0))).2⟩).conn = some k ∧
      g.has ((s.c.serve ⟨body, true, (E2EE.read s.srv (decide (s.c.pos = 0))).2⟩).view put k) = g.st s.srv := by
  by_cases h0 : s.c.pos = 0
  · obtain ⟨k, hk, hv⟩ := ConnFlow.serve_first (put := put) h0 ⟨body, true, (E2EE.read s.srv (decide (s.c.pos = 0))).2⟩
    refine ⟨k, hk, ?_⟩
    simp only [hv, hg.put]
    rw [decide_eq_true h0, hg.first _ (srv_good s)]
    exact or_self_of fun hn => (hsil hn).1
  · obtain ⟨k, hk, hk', hv⟩ := ConnFlow.serve_later (put := put)
      (b := ⟨body, true, (E2EE.read s.srv (decide (s.c.pos = 0))).2⟩) hc h0 hb
    refine ⟨k, hk', ?_⟩
    simp only [hv, hg.put]
    rw [decide_eq_false h0, hg.incr _ (srv_good s)]
    cases hbit : g.bit s.srv with
    | true => exact or_self_of fun hn => view_none hg hsil hn hk
    | false =>
      rcases hd with ih | ih | ⟨k1, hk1, hv1⟩
      · rw [hbit] at ih; cases ih
      · rcases ih.2 with h1 | h1
        · exact absurd h1 h0
        · rw [h1] at hk; cases hk
      · rw [hk] at hk1; cases hk1
        simpa using hv1

theorem due_run {α : Type} {g : Reg α} (hg : g.Law) {s : State} (h : Run Mode.good s) : Due g s := by
  induction h with
  | start => exact Or.inr (Or.inl ⟨rfl, Or.inl rfl⟩)
  | @sync s r b _ ih =>
    unfold Due
    rw [srv_sync]
    rcases hg.sync (E2EE.evRun s.evs).1 s.srv r b with ⟨h1, h2⟩ | ⟨h1, _⟩
    · rw [h1, h2]; exact ih
    · exact Or.inl h1
  | @restart s _ ih =>
    unfold Due
    rw [srv_restart]; exact ih
  | @again s body arrives hr hb hc ih =>
    rcases ih with ih | ih | ⟨k, hk, hv⟩
    · exact Or.inl ih
    · rcases ConnFlow.repeated_view (put := put) (ci_run hr) hb hc arrives with h1 | ⟨k, k', hk, _, _⟩
      · exact Or.inr (Or.inl h1)
      · rcases ih.2 with h0 | h0
        · rw [ConnFlow.calls_zero h0] at hc; cases hc
        · rw [h0] at hk; cases hk
    · rcases ConnFlow.repeated_view (put := put) (ci_run hr) hb hc arrives with h1 | ⟨k1, k', hk1, hk', h1⟩
      · exact Or.inr (Or.inl h1)
      · rw [hk] at hk1; cases hk1
        exact Or.inr (Or.inr ⟨k', hk', by simp only [h1]; exact hv⟩)
  | @without s body hr hb hc hl ih =>
    have h0 := hl (fun h => h)
    obtain ⟨k, hk, hk', hv⟩ := ConnFlow.serve_later (put := put) (b := ⟨body, false, {}⟩) hc h0 hb
    rcases ih with ih | ih | ⟨k1, hk1, hv1⟩
    · exact Or.inl ih
    · rcases ih.2 with h1 | h1
      · exact absurd h1 h0
      · rw [h1] at hk; cases hk
    · rw [hk] at hk1; cases hk1
      refine Or.inr (Or.inr ⟨k, hk', ?_⟩)
      simp only [hv, hg.put, hg.off, Option.none_or]
      exact hv1
  | @ask s body hr hb hc ih =>
    obtain ⟨k, hk, hv⟩ := ask_view hg (silent_run hg hr) ih hb hc
    unfold Due
    rw [srv_read, hg.read]
    exact Or.inr (Or.inr ⟨k, hk, hv⟩)
  | @wake s b hr hb hon he ih =>
    have hsil := silent_run hg hr
    have hout : g.out b.out = none := by
      rcases he.1 with h1 | h1
      · exact hg.none _ h1 he.2.1
      · exact hg.empty _ h1 he.2.1
    obtain ⟨k, hk, _⟩ := (ci_run hr).busy b hb
    have hold : g.has (s.c.view put k) = g.has ((ConnFlow.unacked s.c.pos k.buf).foldl put s.c.has) := by
      unfold ConnFlow.Client.view ConnFlow.Client.doing
      rw [hb]
      simp only [List.foldl_append, List.foldl_cons, List.foldl_nil, hg.put, hout, Option.none_or]
    unfold Due
    rw [srv_read, hg.read]
    refine Or.inr (Or.inr ⟨k, hk, ?_⟩)
    unfold ConnFlow.Client.view ConnFlow.Client.doing
    simp only [List.foldl_append, List.foldl_cons, List.foldl_nil, hg.put]
    rw [hg.incr _ (srv_good s), ← hold]
    cases hbit : g.bit s.srv with
    | true => exact or_self_of fun hn => view_none hg hsil hn hk
    | false =>
      rcases ih with ih | ih | ⟨k1, hk1, hv1⟩
      · rw [hbit] at ih; cases ih
      · rw [ih.1] at hb; cases hb
      · rw [hk] at hk1; cases hk1
        simpa using hv1
  | @done s b fails arrives hr hb hf ih =>
    rcases ih with ih | ih | ⟨k, hk, hv⟩
    · exact Or.inl ih
    · rw [ih.1] at hb; cases hb
    · cases fails with
      | false =>
        obtain ⟨k1, k', hk1, hk', h1⟩ := ConnFlow.finish_view (put := put) (ci_run hr) hb arrives
        rw [hk] at hk1; cases hk1
        exact Or.inr (Or.inr ⟨k', hk', by simp only [h1]; exact hv⟩)
      | true =>
        obtain ⟨k1, k', hk1, hk', hp, h1⟩ := ConnFlow.finish_failed (put := put) (ci_run hr) hb arrives
        rw [hk] at hk1; cases hk1
        rcases hf (fun h => h) rfl with h0 | ⟨ho, hfb⟩
        · exact Or.inr (Or.inl ⟨ConnFlow.finish_busy (ci_run hr) hb _ _, Or.inl (hp.trans h0)⟩)
        · refine Or.inr (Or.inr ⟨k', hk', ?_⟩)
          simp only [h1]
          refine Eq.trans ?_ hv
          unfold ConnFlow.Client.view ConnFlow.Client.doing
          rw [hb]
          simp only [List.foldl_append, List.foldl_cons, List.foldl_nil, hg.put, hg.none _ ho hfb, Option.none_or]
  | crash _ ih => exact Or.inr (Or.inl (ConnFlow.lose_away _))

theorem caught_up {α : Type} {g : Reg α} (hg : g.Law) {s : State} (h : Run Mode.good s) (hbit : g.bit s.srv = false)
    (hb : s.c.busy = none) (h0 : s.c.pos ≠ 0) {k : Conn.State Nat Out} (hk : s.c.conn = some k) (hr : ∀ r ∈ k.buf, r.pos ≤ s.c.pos) :
    g.has s.c.has = g.st s.srv := by
  rcases due_run hg h with h1 | h1 | ⟨k1, hk1, hv⟩
  · rw [hbit] at h1; cases h1
  · rcases h1.2 with h1 | h1
    · exact absurd h1 h0
    · rw [hk] at h1; cases h1
  · rw [hk] at hk1; cases hk1
    rw [← hv]
    unfold ConnFlow.Client.view ConnFlow.Client.doing
    rw [hb, ConnFlow.unacked_nil hr]
    rfl

/-- C121 (partial: of clients that have the extension in the first request of a connection, when no later request fails after
reading counts or fallback key types): a client that has caught up has the fallback key types and counts the homeserver reported
last, whatever responses were lost and whatever else the client asked for in between. -/
theorem C121_partial : Arrives Mode.good := by
  intro s h ⟨hb, h0, hbo, hbf, k, hk, hr⟩
  constructor
  · rw [← E2EE.C37_fallback]
    exact caught_up fallbacks_law h hbf hb h0 hk hr
  · intro hcs
    have h1 : s.c.has.otk = entries s.srv.otk := caught_up counts_law h hbo hb h0 hk hr
    rw [h1, entries_good (srv_good s)]
    exact E2EE.C37_otk_partial s.evs hcs.1 hcs.2

theorem next_has {α : Type} {g : Reg α} (hg : g.Law) {s : State} (h : Run Mode.good s) (hb : s.c.busy = none) {body : Nat}
    (hc : s.c.calls body = true) (hp : s.c.pos = 0 ∨ ∃ k, s.c.conn = some k ∧ k.lastPos = s.c.pos) {b : ConnFlow.Busy Out}
    (hbo : b = ⟨body, true, (E2EE.read s.srv (decide (s.c.pos = 0))).2⟩) :
    g.has ((s.c.serve b).finish put b false true).has = g.st s.srv := by
  subst hbo
  obtain ⟨k, hk, hv⟩ := ask_view hg (silent_run hg h) (due_run hg h) hb hc
  have hci := ConnFlow.serve_ci (ci_run h) (b := ⟨body, true, (E2EE.read s.srv (decide (s.c.pos = 0))).2⟩) hc
  obtain ⟨k1, k', hk1, hk', h1⟩ := ConnFlow.finish_view (put := put) hci rfl true
  rw [hk] at hk1; cases hk1
  have hl : k.lastPos = s.c.pos := by
    rw [show (s.c.serve _).conn = s.c.target from rfl] at hk
    by_cases h0 : s.c.pos = 0
    · rw [ConnFlow.target_zero h0] at hk; cases hk; exact h0.symm
    · rw [ConnFlow.target_pos h0] at hk
      rcases hp with hp | ⟨k2, hk2, hp⟩
      · exact absurd hp h0
      · rw [hk] at hk2; cases hk2; exact hp
  obtain ⟨k2, hk2, hl2, _⟩ := ConnFlow.finish_arrived (put := put) hci rfl hk hl
  rw [hk'] at hk2; cases hk2
  rw [← hv, ← h1]
  unfold ConnFlow.Client.view ConnFlow.Client.doing
  rw [ConnFlow.finish_busy hci rfl]
  rw [ConnFlow.unacked_last ((ConnFlow.finish_ci (put := put) hci rfl false true).conn _ hk') (by omega)]
  rfl

/-- C121, how a client catches up (partial, as `C121_partial`): one request with the extension whose response arrives is enough,
if the client had the response to the request before or connects anew. -/
theorem C121_next_partial {s : State} (h : Run Mode.good s) (hb : s.c.busy = none) {body : Nat} (hc : s.c.calls body = true)
    (hp : s.c.pos = 0 ∨ ∃ k, s.c.conn = some k ∧ k.lastPos = s.c.pos) {b : ConnFlow.Busy Out}
    (hbo : b = ⟨body, true, (E2EE.read s.srv (decide (s.c.pos = 0))).2⟩) :
    ((s.c.serve b).finish put b false true).has.fallback = E2EE.upstreamFB s.evs ∧
    (Counts s.evs → E2EE.SameOpt ((s.c.serve b).finish put b false true).has.otk (E2EE.upstreamOTK s.evs)) := by
  constructor
  · rw [← E2EE.C37_fallback]
    exact next_has fallbacks_law h hb hc hp hbo
  · intro hcs
    have h1 : ((s.c.serve b).finish put b false true).has.otk = entries s.srv.otk := next_has counts_law h hb hc hp hbo
    rw [h1, entries_good (srv_good s)]
    exact E2EE.C37_otk_partial s.evs hcs.1 hcs.2

/-! ### Nothing is made up -/

/-- Was stored at some time. -/
def Once {α : Type} (g : Reg α) (evs : List Ev) (x : Option α) : Prop :=
  x = none ∨ ∃ evs', evs' <+: evs ∧ g.st (E2EE.evRun evs').2 = x

theorem Once.more {α : Type} {g : Reg α} {evs : List Ev} {x : Option α} (h : Once g evs x) (l : List Ev) : Once g (evs ++ l) x :=
  h.imp_right fun ⟨e, h1, h2⟩ => ⟨e, h1.trans (List.prefix_append _ _), h2⟩

theorem once_run {α : Type} {g : Reg α} (hg : g.Law) {ok : Mode} {s : State} (h : Run ok s) :
    Once g s.evs (g.has s.c.has) ∧ s.c.All fun o => Once g s.evs (g.out o) := by
  have step : ∀ (evs : List Ev) (v v' : Has), Once g evs (g.has v) →
      (v' = v ∨ ∃ d, Once g evs (g.out d) ∧ v' = put v d) → Once g evs (g.has v') := by
    intro evs v v' h1 h2
    rcases h2 with h2 | ⟨d, hd, h2⟩
    · rw [h2]; exact h1
    · rw [h2, hg.put]
      cases ho : g.out d with
      | none => exact h1
      | some x => rw [ho] at hd; exact hd
  have now : ∀ (s : State) (i : Bool), Once g s.evs (g.out (E2EE.read s.srv i).2) := by
    intro s i
    cases i with
    | true => rw [hg.first _ (srv_good s)]; exact Or.inr ⟨_, List.prefix_refl _, rfl⟩
    | false =>
      rw [hg.incr _ (srv_good s)]
      split
      · exact Or.inr ⟨_, List.prefix_refl _, rfl⟩
      · exact Or.inl rfl
  induction h with
  | start => exact ⟨Or.inl hg.start, ConnFlow.start_all _ _⟩
  | sync r b _ ih => exact ⟨ih.1.more _, ih.2.mono fun _ h => h.more _⟩
  | restart _ ih => exact ⟨ih.1.more _, ih.2.mono fun _ h => h.more _⟩
  | again body arrives hr hb hc ih =>
    obtain ⟨h1, h2⟩ := ConnFlow.repeated_all (put := put) (ci_run hr) hb hc arrives ih.2
    exact ⟨step _ _ _ ih.1 h2, h1⟩
  | without body _ hb hc _ ih => exact ⟨ih.1, ConnFlow.serve_all ih.2 (Or.inl hg.off)⟩
  | @ask s body _ hb hc ih =>
    exact ⟨ih.1.more _, ConnFlow.serve_all (ih.2.mono fun _ h => h.more _) ((now s _).more _)⟩
  | @wake s b _ hb hon he ih =>
    refine ⟨ih.1.more _, (ih.2.mono fun _ h => h.more _).1, ?_⟩
    intro b' hb'
    cases hb'
    exact (now s _).more _
  | done fails arrives hr hb hf ih =>
    obtain ⟨h1, h2⟩ := ConnFlow.finish_all (put := put) (ci_run hr) hb fails arrives ih.2
    exact ⟨step _ _ _ ih.1 h2, h1⟩
  | crash _ ih => exact ⟨ih.1, ConnFlow.lose_all _⟩

/-- C121, the other direction, in all executions: what the client has was reported by the homeserver. -/
theorem C121_authentic {ok : Mode} {s : State} (h : Run ok s) :
    (∀ f, s.c.has.fallback = some f → ∃ evs, evs <+: s.evs ∧ E2EE.upstreamFB evs = some f) ∧
    (Counts s.evs → ∀ m, s.c.has.otk = some m → ∃ evs, evs <+: s.evs ∧ E2EE.SameOpt (some m) (E2EE.upstreamOTK evs)) := by
  constructor
  · intro f hf
    rcases (once_run fallbacks_law h).1 with h1 | ⟨evs, h1, h2⟩
    · rw [show fallbacks.has s.c.has = s.c.has.fallback from rfl, hf] at h1; cases h1
    · refine ⟨evs, h1, ?_⟩
      rw [← E2EE.C37_fallback, ← hf]; exact h2
  · intro hc m hm
    rcases (once_run counts_law h).1 with h1 | ⟨evs, h1, h2⟩
    · rw [show counts.has s.c.has = s.c.has.otk from rfl, hm] at h1; cases h1
    · refine ⟨evs, h1, ?_⟩
      have hsub : ∀ m ∈ E2EE.otkMaps evs, m ∈ E2EE.otkMaps s.evs := by
        obtain ⟨l, hl⟩ := h1
        intro m hm
        unfold E2EE.otkMaps at hm ⊢
        rw [← hl, List.filterMap_append]
        exact List.mem_append_left _ hm
      have h3 : entries (E2EE.evRun evs).2.otk = s.c.has.otk := h2
      rw [entries_good (good_run evs), hm] at h3
      rw [← h3]
      exact E2EE.C37_otk_partial evs (fun m hm => hc.1 m (hsub m hm))
        fun m hm kv hkv h0 m' hm' => hc.2 m (hsub m hm) kv hkv h0 m' (hsub m' hm')

end Verif.KeyFlow
