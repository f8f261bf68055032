import Verif.Stamp
import Verif.Util
/-!
# Properties of the timestamp sent with a room (C107)
-/
namespace Verif.Stamp

/-! ### Specification -/

/-- The event bumps the room: all events do if no types are requested. -/
def Bumps (bump : List String) (e : Ev) : Prop := bump = [] ∨ e.type ∈ bump

/-- The timestamp is right for a user who joined as `j` and has seen the events: it is that of the join or of an event from
then on which bumps the room, and no such event is later. -/
def Right (bump : List String) (seen : List Ev) (j : Timing) (v : Nat) : Prop :=
  (∃ e ∈ seen, j.1 ≤ e.nid ∧ e.ts = v ∧ (Bumps bump e ∨ e.nid = j.1)) ∧
  ∀ e ∈ seen, j.1 ≤ e.nid → Bumps bump e → e.ts ≤ v

/-- Events come with increasing positions and timestamps that do not go back. -/
def Later (log : List Ev) (e : Ev) : Prop := ∀ x ∈ log, x.nid < e.nid ∧ x.ts ≤ e.ts

/-- Histories in which timestamps do not go back, the user has joined before the user's cache was made and stays joined, and,
if no types are requested, a response has one live update of the room (unless the room is built). -/
inductive Run (bump : List String) : St → Prop
  | init : Run bump {}
  | store {s : St} (e : Ev) : Run bump s → Later s.log e → Run bump (step bump s (.store e))
  | startup {s : St} : Run bump s → Run bump (step bump s .startup)
  | register {s : St} : Run bump s → s.conn.isNone → Run bump (step bump s .register)
  | load {s : St} : Run bump s → s.conn.isNone → joinOf s.log = some s.cacheJoin → Run bump (step bump s .load)
  | live {s : St} (e : Ev) (built relevant : Bool) : Run bump s → s.conn.isSome → Later s.log e →
      joinOf (s.log ++ [e]) = some s.cacheJoin → (bump = [] → relevant = true → built = false → s.resp = none) →
      Run bump (step bump s (.live e built relevant))
  | build {s : St} : Run bump s → Run bump (step bump s .build)
  | respond {s : St} : Run bump s → Run bump (step bump s .respond)

/-! ### Logs -/

def Mono (log : List Ev) : Prop := log.Pairwise fun a b => a.nid < b.nid ∧ a.ts ≤ b.ts

theorem mono_snoc {log : List Ev} {e : Ev} (h : Mono log) (hl : Later log e) : Mono (log ++ [e]) := by
  unfold Mono at *
  rw [List.pairwise_append]
  exact ⟨h, List.pairwise_singleton _ _, fun a ha b hb => by rw [List.mem_singleton.1 hb]; exact hl a ha⟩

theorem mono_cmp {log : List Ev} (h : Mono log) {a b : Ev} (ha : a ∈ log) (hb : b ∈ log) (hn : a.nid < b.nid) : a.ts ≤ b.ts := by
  induction log with
  | nil => cases ha
  | cons x l ih =>
    obtain ⟨h1, h2⟩ := List.pairwise_cons.1 h
    rcases List.mem_cons.1 ha with ha' | ha'
    · rcases List.mem_cons.1 hb with hb' | hb'
      · subst ha'; subst hb'; omega
      · subst ha'; exact (h1 b hb').2
    · rcases List.mem_cons.1 hb with hb' | hb'
      · subst hb'; have := (h1 a ha').1; omega
      · exact ih h2 ha' hb'

theorem joinOf_snoc (log : List Ev) (e : Ev) : joinOf (log ++ [e]) = joinStep (joinOf log) e := by
  simp only [joinOf, List.foldl_append, List.foldl_cons, List.foldl_nil]

theorem joinOf_mem {log : List Ev} {j : Timing} (h : joinOf log = some j) : ∃ e ∈ log, e.nid = j.1 ∧ e.ts = j.2 := by
  induction log using Verif.Util.snocRec generalizing j with
  | nil => cases h
  | append_singleton log e ih =>
    rw [joinOf_snoc] at h
    unfold joinStep at h
    have keep : joinOf log = some j → ∃ e' ∈ log ++ [e], e'.nid = j.1 ∧ e'.ts = j.2 := by
      intro hk
      obtain ⟨e', h1, h2⟩ := ih hk
      exact ⟨e', List.mem_append_left _ h1, h2⟩
    cases hm : e.mem with
    | none => rw [hm] at h; exact keep h
    | some b =>
      cases b with
      | false => rw [hm] at h; cases h
      | true =>
        rw [hm] at h
        cases hj : joinOf log with
        | none =>
          rw [hj] at h
          simp only [Option.some.injEq] at h
          subst h
          exact ⟨e, by simp, rfl, rfl⟩
        | some t => rw [hj] at h keep; exact keep h

/-- The timestamp of the last event. -/
def lastTs (log : List Ev) : Nat := match log.getLast? with | some e => e.ts | none => 0

theorem lastTs_snoc (log : List Ev) (e : Ev) : lastTs (log ++ [e]) = e.ts := by simp [lastTs]

theorem lastTs_ge {log : List Ev} (h : Mono log) {e : Ev} (he : e ∈ log) : e.ts ≤ lastTs log := by
  induction log using Verif.Util.snocRec with
  | nil => cases he
  | append_singleton log x _ =>
    rw [lastTs_snoc]
    rcases List.mem_append.1 he with he | he
    · have := List.pairwise_append.1 h
      exact (this.2.2 e he x (List.mem_singleton.2 rfl)).2
    · rw [List.mem_singleton.1 he]; exact Nat.le_refl _

theorem lastTs_mem {log : List Ev} (h : log ≠ []) : ∃ e ∈ log, e.ts = lastTs log := by
  rcases List.eq_nil_or_concat log with h' | ⟨l, x, rfl⟩
  · exact absurd h' h
  · exact ⟨x, by simp, by simp [lastTs]⟩

theorem latest_snoc (log : List Ev) (e : Ev) (t : String) :
    latest (log ++ [e]) t = if t = e.type then (e.nid, e.ts) else latest log t := by
  unfold latest
  rw [List.filter_append]
  by_cases h : t = e.type
  · subst h; simp
  · have : ¬ e.type = t := fun h' => h h'.symm
    simp [h, this]

theorem latest_ge {log : List Ev} (h : Mono log) {e : Ev} (he : e ∈ log) : e.ts ≤ (latest log e.type).2 := by
  induction log using Verif.Util.snocRec with
  | nil => cases he
  | append_singleton log x ih =>
    rw [latest_snoc]
    have hp := List.pairwise_append.1 h
    split
    · rcases List.mem_append.1 he with he | he
      · exact (hp.2.2 e he x (List.mem_singleton.2 rfl)).2
      · rw [List.mem_singleton.1 he]; exact Nat.le_refl _
    · rename_i hne
      rcases List.mem_append.1 he with he | he
      · exact ih hp.1 he
      · rw [List.mem_singleton.1 he] at hne; exact absurd rfl hne

theorem latest_mem {log : List Ev} {t : String} (h : (latest log t).2 ≠ 0) : ∃ e ∈ log, e.type = t ∧ e.ts = (latest log t).2 := by
  induction log using Verif.Util.snocRec with
  | nil => simp [latest] at h
  | append_singleton log x ih =>
    rw [latest_snoc] at h ⊢
    split at h
    · rename_i ht
      rw [if_pos ht]
      exact ⟨x, by simp, ht.symm, rfl⟩
    · rename_i ht
      rw [if_neg ht]
      obtain ⟨e, h1, h2⟩ := ih h
      exact ⟨e, List.mem_append_left _ h1, h2⟩

/-- After a restart the largest timestamp is that of the last event. -/
theorem startup_last {log : List Ev} (h : Mono log) : (log.map fun e => (latest log e.type).2).foldl max 0 = lastTs log := by
  have hle : ∀ (l : List Nat) (a b : Nat), a ≤ b → (∀ x ∈ l, x ≤ b) → l.foldl max a ≤ b := by
    intro l
    induction l with
    | nil => intro a b h _; exact h
    | cons x l ih => intro a b h h'; exact ih _ _ (by have := h' x (by simp); omega) (fun y hy => h' y (by simp [hy]))
  have hge0 : ∀ (l : List Nat) (a : Nat), a ≤ l.foldl max a := by
    intro l
    induction l with
    | nil => intro a; exact Nat.le_refl _
    | cons y l ih => intro a; have := ih (max a y); simp only [List.foldl_cons]; omega
  have hge : ∀ (l : List Nat) (a x : Nat), x ∈ l → x ≤ l.foldl max a := by
    intro l
    induction l with
    | nil => intro a x h; cases h
    | cons y l ih =>
      intro a x hx
      rcases List.mem_cons.1 hx with rfl | hx
      · have := hge0 l (max a x); simp only [List.foldl_cons]; omega
      · exact ih _ _ hx
  apply Nat.le_antisymm
  · refine hle _ _ _ (Nat.zero_le _) ?_
    intro x hx
    obtain ⟨e, _, rfl⟩ := List.mem_map.1 hx
    by_cases h0 : (latest log e.type).2 = 0
    · omega
    · obtain ⟨e', h1, _, h3⟩ := latest_mem h0
      rw [← h3]; exact lastTs_ge h h1
  · by_cases hn : log = []
    · subst hn; simp [lastTs]
    · obtain ⟨e, h1, h2⟩ := lastTs_mem hn
      rw [← h2]
      exact Nat.le_trans (latest_ge h h1) (hge _ _ _ (List.mem_map.2 ⟨e, h1, rfl⟩))

/-! ### The timestamps -/

theorem maxOf_cons (m : Meta) (v : Nat) (t : String) (b : List String) : maxOf m v (t :: b) = maxOf m (max v (m.byType t).2) b := by
  unfold maxOf
  simp only [List.foldl_cons]
  congr 1
  split <;> omega

theorem maxOf_ge (m : Meta) (b : List String) : ∀ v, v ≤ maxOf m v b := by
  induction b with
  | nil => intro v; exact Nat.le_refl _
  | cons t b ih => intro v; rw [maxOf_cons]; have := ih (max v (m.byType t).2); omega

theorem maxOf_ge_mem (m : Meta) (b : List String) : ∀ v t, t ∈ b → (m.byType t).2 ≤ maxOf m v b := by
  induction b with
  | nil => intro v t h; cases h
  | cons x b ih =>
    intro v t ht
    rw [maxOf_cons]
    rcases List.mem_cons.1 ht with h | h
    · subst h; have := maxOf_ge m b (max v (m.byType t).2); omega
    · exact ih _ _ h

theorem maxOf_eq (m : Meta) (b : List String) : ∀ v, maxOf m v b = v ∨ ∃ t ∈ b, maxOf m v b = (m.byType t).2 := by
  induction b with
  | nil => intro v; exact Or.inl rfl
  | cons x b ih =>
    intro v
    rw [maxOf_cons]
    rcases ih (max v (m.byType x).2) with h | ⟨t, h1, h2⟩
    · rw [h]
      by_cases hv : (m.byType x).2 ≤ v
      · left; omega
      · right; exact ⟨x, by simp, by omega⟩
    · exact Or.inr ⟨t, by simp [h1], h2⟩

/-- The metadata is that of the events. -/
structure Fits (m : Meta) (seen : List Ev) : Prop where
  mono : Mono seen
  last : m.last = lastTs seen
  byType : m.byType = latest seen
  join : joinOf seen = some m.join

/-- A value some visible event accounts for. -/
def Seen (bump : List String) (seen : List Ev) (j : Timing) (v : Nat) : Prop :=
  ∃ e ∈ seen, j.1 ≤ e.nid ∧ e.ts = v ∧ (Bumps bump e ∨ e.nid = j.1)

theorem seen_join {bump : List String} {m : Meta} {seen : List Ev} (h : Fits m seen) : Seen bump seen m.join m.join.2 := by
  obtain ⟨e, h1, h2, h3⟩ := joinOf_mem h.join
  exact ⟨e, h1, by omega, h3, Or.inr h2⟩

theorem seen_latest {bump : List String} {m : Meta} {seen : List Ev} (h : Fits m seen) {t : String} (ht : t ∈ bump)
    (h0 : (m.byType t).2 ≠ 0) (hj : m.join.2 ≤ (m.byType t).2) : Seen bump seen m.join (m.byType t).2 := by
  rw [h.byType] at h0 hj ⊢
  obtain ⟨e, h1, h2, h3⟩ := latest_mem h0
  by_cases hn : m.join.1 ≤ e.nid
  · exact ⟨e, h1, hn, h3, Or.inl (Or.inr (h2 ▸ ht))⟩
  · obtain ⟨ej, j1, j2, j3⟩ := joinOf_mem h.join
    have := mono_cmp h.mono h1 j1 (by omega)
    have e1 : (latest seen t).2 = m.join.2 := by omega
    rw [e1]
    exact seen_join h

theorem bound {bump : List String} {m : Meta} {seen : List Ev} (h : Fits m seen) (hb : bump ≠ []) {v r : Nat} (hv : maxOf m r bump ≤ v) :
    ∀ e ∈ seen, m.join.1 ≤ e.nid → Bumps bump e → e.ts ≤ v := by
  intro e he _ hbe
  rcases hbe with hbe | hbe
  · exact absurd hbe hb
  · have h1 := latest_ge h.mono he
    have h2 := maxOf_ge_mem m bump r e.type hbe
    rw [h.byType] at h2
    omega

theorem last_right {m : Meta} {seen : List Ev} (h : Fits m seen) : Right [] seen m.join m.last := by
  obtain ⟨ej, j1, j2, j3⟩ := joinOf_mem h.join
  have hne : seen ≠ [] := fun hn => by rw [hn] at j1; cases j1
  obtain ⟨e, h1, h2⟩ := lastTs_mem hne
  refine ⟨?_, fun e' he' _ _ => by rw [h.last]; exact lastTs_ge h.mono he'⟩
  by_cases hn : m.join.1 ≤ e.nid
  · exact ⟨e, h1, hn, by rw [h.last, h2], Or.inl (Or.inl rfl)⟩
  · refine ⟨ej, j1, by omega, ?_, Or.inl (Or.inl rfl)⟩
    have a := mono_cmp h.mono h1 j1 (by omega)
    have b := lastTs_ge h.mono j1
    rw [h.last]; omega

theorem initTs_right {bump : List String} {m : Meta} {seen : List Ev} (h : Fits m seen) : Right bump seen m.join (initTs bump m) := by
  by_cases hb : bump = []
  · subst hb
    have : initTs [] m = m.last := by simp [initTs, maxOf]
    rw [this]; exact last_right h
  · have hl : ¬ bump.length = 0 := fun h' => hb (List.length_eq_zero_iff.1 h')
    unfold initTs
    simp only
    rw [if_neg hl]
    split
    · rename_i hc
      refine ⟨seen_join h, ?_⟩
      rcases hc with hc | hc
      · exact bound h hb (r := 0) (by omega)
      · exact bound h hb (r := 0) (by omega)
    · rename_i hc
      refine ⟨?_, bound h hb (Nat.le_refl _)⟩
      rcases maxOf_eq m bump 0 with he | ⟨t, t1, t2⟩
      · exact absurd (Or.inl he) hc
      · rw [t2] at hc ⊢
        exact seen_latest h t1 (fun h' => hc (Or.inl h')) (by
          rcases Nat.lt_or_ge (m.byType t).2 m.join.2 with h' | h'
          · exact absurd (Or.inr h') hc
          · exact h')

/-- A live update, with a value in the response that is accounted for; if no types are requested, the right one. -/
theorem liveTs_right {bump : List String} {m : Meta} {seen : List Ev} (h : Fits m seen) {r : Nat} (hr : r = 0 ∨ Seen bump seen m.join r)
    (hb0 : bump = [] → r = 0 ∨ r = m.last) : Right bump seen m.join (liveTs bump m r) := by
  by_cases hb : bump = []
  · subst hb
    obtain ⟨ej, j1, j2, j3⟩ := joinOf_mem h.join
    have hge : m.join.2 ≤ m.last := by rw [h.last, ← j3]; exact lastTs_ge h.mono j1
    have : liveTs [] m r = m.last := by
      unfold liveTs maxOf
      simp only [List.foldl_nil, List.length_nil, and_true]
      rcases hb0 rfl with h' | h'
      · subst h'; simp; omega
      · subst h'; split <;> (split <;> omega)
    rw [this]; exact last_right h
  · have hl : ¬ bump.length = 0 := fun h' => hb (List.length_eq_zero_iff.1 h')
    have hlive : liveTs bump m r = if maxOf m r bump < m.join.2 then m.join.2 else maxOf m r bump := by
      unfold liveTs
      simp only
      simp [hl, hb]
    rw [hlive]
    split
    · exact ⟨seen_join h, bound h hb (r := r) (by omega)⟩
    · rename_i hc
      refine ⟨?_, bound h hb (Nat.le_refl _)⟩
      rcases maxOf_eq m bump r with he | ⟨t, t1, t2⟩
      · rw [he] at hc ⊢
        rcases hr with hr | hr
        · have : r = m.join.2 := by omega
          rw [this]; exact seen_join h
        · exact hr
      · rw [t2] at hc ⊢
        by_cases h0 : (m.byType t).2 = 0
        · have : (m.byType t).2 = m.join.2 := by omega
          rw [this]; exact seen_join h
        · exact seen_latest h t1 h0 (by omega)

/-! ### Histories -/

structure Inv (bump : List String) (s : St) : Prop where
  mono : Mono s.log
  last : s.last = lastTs s.log
  byType : s.byType = latest s.log
  conn : ∀ m, s.conn = some m → Fits m s.seen ∧ m.join = s.cacheJoin ∧ ∃ l, s.log = s.seen ++ l
  resp : ∀ v, s.resp = some v → s.conn.isSome ∧ Seen bump s.seen s.cacheJoin v

theorem cacheEvent_mono {bump : List String} {s : St} (h : Inv bump s) (e : Ev) (hl : Later s.log e) :
    Mono (s.log ++ [e]) ∧ (cacheEvent s e).last = lastTs (s.log ++ [e]) ∧ (cacheEvent s e).byType = latest (s.log ++ [e]) := by
  refine ⟨mono_snoc h.mono hl, (lastTs_snoc _ _).symm, ?_⟩
  funext t
  rw [latest_snoc]
  simp only [cacheEvent, h.byType]

theorem seen_append {bump : List String} {seen l : List Ev} {j : Timing} {v : Nat} (h : Seen bump seen j v) : Seen bump (seen ++ l) j v := by
  obtain ⟨e, h1, h2⟩ := h
  exact ⟨e, List.mem_append_left _ h1, h2⟩

/-- What a live update puts into the response is right. -/
theorem live_right {bump : List String} {s : St} (h : Inv bump s) (e : Ev) (built relevant : Bool) (hl : Later s.log e)
    (hj : joinOf (s.log ++ [e]) = some s.cacheJoin) (hb : bump = [] → relevant = true → built = false → s.resp = none) :
    let s' := step bump s (.live e built relevant)
    (∃ m, s'.conn = some m ∧ Fits m s'.seen ∧ m.join = s'.cacheJoin) ∧
    (built = true ∨ relevant = true → ∃ v, s'.resp = some v ∧ Right bump s'.seen s'.cacheJoin v) := by
  obtain ⟨c1, c2, c3⟩ := cacheEvent_mono h e hl
  have hF : Fits ⟨(cacheEvent s e).last, (cacheEvent s e).byType, s.cacheJoin⟩ (s.log ++ [e]) := ⟨c1, c2, c3, hj⟩
  refine ⟨⟨_, rfl, hF, rfl⟩, ?_⟩
  intro hbr
  cases built with
  | true =>
    have hi := initTs_right (bump := bump) hF
    cases relevant with
    | false => exact ⟨_, rfl, hi⟩
    | true =>
      refine ⟨_, rfl, liveTs_right hF (Or.inr hi.1) ?_⟩
      intro hb'
      subst hb'
      right
      simp [initTs, maxOf]
  | false =>
    cases relevant with
    | false => exact absurd hbr (by simp)
    | true =>
      refine ⟨_, rfl, ?_⟩
      refine liveTs_right hF ?_ ?_
      · show s.resp.getD 0 = 0 ∨ Seen bump (s.log ++ [e]) s.cacheJoin (s.resp.getD 0)
        cases hr : s.resp with
        | none => left; rfl
        | some v =>
          right
          obtain ⟨h1, h2⟩ := h.resp v hr
          obtain ⟨m, hm⟩ := Option.isSome_iff_exists.1 h1
          obtain ⟨_, _, l, hl'⟩ := h.conn m hm
          show Seen bump (s.log ++ [e]) s.cacheJoin v
          rw [hl', List.append_assoc]
          exact seen_append h2
      · intro hb'
        left
        show s.resp.getD 0 = 0
        rw [hb hb' rfl rfl]; rfl

theorem inv_run {bump : List String} {s : St} (h : Run bump s) : Inv bump s := by
  induction h with
  | init => exact ⟨List.Pairwise.nil, rfl, rfl, (fun m h => by cases h), (fun v h => by cases h)⟩
  | @store s e _ hl ih =>
    obtain ⟨c1, c2, c3⟩ := cacheEvent_mono ih e hl
    refine ⟨c1, c2, c3, ?_, ih.resp⟩
    intro m hm
    obtain ⟨h1, h2, l, h3⟩ := ih.conn m hm
    exact ⟨h1, h2, l ++ [e], by show s.log ++ [e] = s.seen ++ (l ++ [e]); rw [h3, List.append_assoc]⟩
  | startup _ ih => exact ⟨ih.mono, startup_last ih.mono, rfl, ih.conn, ih.resp⟩
  | @register s _ hn ih =>
    have hn' := Option.isNone_iff_eq_none.1 hn
    refine ⟨ih.mono, ih.last, ih.byType, ?_, ?_⟩
    · intro m hm
      have : s.conn = some m := hm
      rw [hn'] at this; cases this
    · intro v hv
      have := (ih.resp v hv).1
      rw [hn'] at this; cases this
  | @load s _ hn hj ih =>
    have hn' := Option.isNone_iff_eq_none.1 hn
    simp only [step, hj]
    refine ⟨ih.mono, ih.last, ih.byType, ?_, ?_⟩
    · intro m hm
      simp only [Option.some.injEq] at hm
      subst hm
      exact ⟨⟨ih.mono, ih.last, ih.byType, hj⟩, rfl, [], by simp⟩
    · intro v hv
      have := (ih.resp v hv).1
      rw [hn'] at this; cases this
  | @live s e built relevant _ hs hl hj hb ih =>
    obtain ⟨⟨m', m1, m2, m3⟩, hr⟩ := live_right ih e built relevant hl hj hb
    obtain ⟨c1, c2, c3⟩ := cacheEvent_mono ih e hl
    refine ⟨c1, c2, c3, ?_, ?_⟩
    · intro m hm
      rw [m1] at hm
      cases hm
      exact ⟨m2, m3, [], by simp [step]⟩
    · intro v hv
      refine ⟨by rw [m1]; rfl, ?_⟩
      by_cases hbr : built = true ∨ relevant = true
      · obtain ⟨v', h1, h2⟩ := hr hbr
        rw [h1] at hv
        cases hv
        exact h2.1
      · have hb' : built = false := by cases built <;> simp_all
        have hr' : relevant = false := by cases relevant <;> simp_all
        subst hb'; subst hr'
        have hv' : s.resp = some v := hv
        obtain ⟨h1, h2⟩ := ih.resp v hv'
        obtain ⟨m, hm⟩ := Option.isSome_iff_exists.1 h1
        obtain ⟨_, _, l, hl'⟩ := ih.conn m hm
        show Seen bump (s.log ++ [e]) s.cacheJoin v
        rw [hl', List.append_assoc]
        exact seen_append h2
  | @build s _ ih =>
    cases hc : s.conn with
    | none => simp only [step, hc]; exact ih
    | some m =>
      obtain ⟨h1, h2, h3⟩ := ih.conn m hc
      simp only [step, hc]
      refine ⟨ih.mono, ih.last, ih.byType, fun m' hm' => ih.conn m' (hc.trans hm'), ?_⟩
      intro v hv
      simp only [Option.some.injEq] at hv
      subst hv
      refine ⟨rfl, ?_⟩
      have := (initTs_right (bump := bump) h1).1
      rw [h2] at this
      exact this
  | respond _ ih => exact ⟨ih.mono, ih.last, ih.byType, ih.conn, fun v h => by cases h⟩

/-- C107, in part: whenever a room is put into a response, built or with an event, its timestamp is that of the join or of an
event from then on that bumps the room, and no such event is later. This is for histories in which timestamps do not go back,
the user joined before the user's cache was made, and, if no types are requested, there is one live update in the response. -/
theorem C107_partial (bump : List String) (s : St) (h : Run bump s) :
    (∀ e built relevant, s.conn.isSome → Later s.log e → joinOf (s.log ++ [e]) = some s.cacheJoin →
        (bump = [] → relevant = true → built = false → s.resp = none) → built = true ∨ relevant = true →
      ∃ v, (step bump s (.live e built relevant)).resp = some v ∧ Right bump (s.log ++ [e]) s.cacheJoin v) ∧
    (s.conn.isSome → ∃ v, (step bump s .build).resp = some v ∧ Right bump s.seen s.cacheJoin v) := by
  have hi := inv_run h
  refine ⟨fun e built relevant _ hl hj hb hbr => (live_right hi e built relevant hl hj hb).2 hbr, ?_⟩
  intro hs
  obtain ⟨m, hm⟩ := Option.isSome_iff_exists.1 hs
  obtain ⟨h1, h2, _⟩ := hi.conn m hm
  have := initTs_right (bump := bump) h1
  rw [h2] at this
  exact ⟨_, by simp only [step, hm], this⟩

/-- What makes the join in the user's cache right: the user had joined when it was made, and no membership of the user since
then says otherwise. -/
theorem C107_join (log l : List Ev) (j : Timing) (h : joinOf log = some j) (hl : ∀ e ∈ l, e.mem ≠ some false) :
    joinOf (log ++ l) = some j := by
  induction l generalizing log with
  | nil => simpa using h
  | cons e l ih =>
    have := ih (log ++ [e]) (by
      rw [joinOf_snoc, h]
      unfold joinStep
      cases hm : e.mem with
      | none => rfl
      | some b =>
        cases b with
        | false => exact absurd hm (hl e (by simp))
        | true => rfl) (fun e' he' => hl e' (by simp [he']))
    rw [List.append_assoc] at this
    exact this

/-! ### Where it fails -/

def evJoin : Ev := ⟨"m.room.member", 100, 5, some true⟩
def evMsg (ts nid : Nat) : Ev := ⟨"m.room.message", ts, nid, none⟩
def evTopic (ts nid : Nat) : Ev := ⟨"m.room.topic", ts, nid, none⟩

def run (bump : List String) (ops : List Op) : St := ops.foldl (step bump) {}

/-- The code violates the property: if no types are requested and a response has two events of the room, the timestamp is that
of the first one. -/
theorem C107_violated_first :
    (run [] [.store evJoin, .register, .load, .live (evMsg 200 6) false true, .live (evMsg 300 7) false true]).resp = some 200 ∧
    ¬ Right [] [evJoin, evMsg 200 6, evMsg 300 7] (5, 100) 200 := by
  refine ⟨by decide, fun h => ?_⟩
  have := h.2 (evMsg 300 7) (by simp) (by decide) (Or.inl rfl)
  exact absurd this (by decide)

/-- The code violates the property: the user joined after the user's cache was made, so the cache has no join, and a message from
before the join sets the timestamp. -/
theorem C107_violated_joined :
    (run ["m.room.message"] [.store (evMsg 50 4), .register, .live evJoin false true]).resp = some 50 ∧
    joinOf [evMsg 50 4, evJoin] = some (5, 100) ∧
    ¬ ∃ e ∈ [evMsg 50 4, evJoin], 5 ≤ e.nid ∧ e.ts = 50 := by
  refine ⟨by decide, by decide, by decide⟩

/-- The code violates the property: a message from before the join has a later timestamp than the join, and sets the timestamp.
The code compares timestamps where positions say what the user may see. -/
theorem C107_violated_clock :
    (run ["m.room.message"] [.store (evMsg 150 4), .store evJoin, .register, .load, .build]).resp = some 150 ∧
    joinOf [evMsg 150 4, evJoin] = some (5, 100) ∧
    ¬ ∃ e ∈ [evMsg 150 4, evJoin], 5 ≤ e.nid ∧ e.ts = 150 := by
  refine ⟨by decide, by decide, by decide⟩

/-! ### Cases -/

/-- Case for C107_partial: a topic does not bump the room, and a message from before the join does not count. -/
example : ∃ s, Run ["m.room.message"] s ∧ s.conn.isSome ∧ s.resp = some 100 ∧
    (step ["m.room.message"] s (.live (evMsg 300 8) false true)).resp = some 300 ∧
    Later s.log (evMsg 300 8) ∧ joinOf (s.log ++ [evMsg 300 8]) = some s.cacheJoin := by
  refine ⟨_, Run.live (evTopic 200 6) false true (Run.load (Run.register (Run.store evJoin (Run.store (evMsg 50 4) Run.init ?_) ?_) ?_) ?_ ?_) ?_ ?_ ?_ ?_,
    ?_, ?_, ?_, ?_, ?_⟩
  all_goals first
    | (intro x hx; revert x; decide)
    | decide

example : joinOf ([evMsg 50 4, evJoin] ++ [evTopic 200 6]) = some (5, 100) :=
  C107_join _ _ _ (by decide) (by decide)

end Verif.Stamp
