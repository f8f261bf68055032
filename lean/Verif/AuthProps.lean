import Verif.Auth
/-! # C92: a request is served as the owner of its access token -/
namespace Verif.Auth

/-! ## Invariant -/

/-- The device a request is taken to be from. -/
def Stage.dev? : Stage → Option Dev
  | .unknown => none
  | .asked d => some d
  | .ready d => some d

structure Inv (s : State) : Prop where
  rows : ∀ t d, Assoc.get s.rows t = some d → Assoc.get s.issued t = some d
  reqs : ∀ i t g d, Assoc.get s.reqs i = some (t, g) → g.dev? = some d → Assoc.get s.issued t = some d
  pollers : ∀ d t, Assoc.get s.pollers d = some t → Assoc.get s.issued t = some d
  served : ∀ t d c, (t, d, c) ∈ s.served → Assoc.get s.issued t = some d

theorem inv_init : Inv {} := ⟨fun _ _ h => (by cases h), fun _ _ _ _ h => (by cases h), fun _ _ h => (by cases h), fun _ _ _ h => (by cases h)⟩

theorem reqs_set {s : State} (h : Inv s) {id : Nat} {tok : String} {g : Stage} (hg : ∀ d, g.dev? = some d → Assoc.get s.issued tok = some d) :
    ∀ i t g' d, Assoc.get (Assoc.set s.reqs id (tok, g)) i = some (t, g') → g'.dev? = some d → Assoc.get s.issued t = some d := by
  intro i t g' d hi hd
  rw [Assoc.get_set] at hi
  split at hi
  · cases hi; exact hg d hd
  · exact h.reqs i t g' d hi hd

theorem reqs_del {s : State} (h : Inv s) {id : Nat} :
    ∀ i t g' d, Assoc.get (Assoc.del s.reqs id) i = some (t, g') → g'.dev? = some d → Assoc.get s.issued t = some d := by
  intro i t g' d hi hd
  rw [Assoc.get_del] at hi
  split at hi
  · cases hi
  · exact h.reqs i t g' d hi hd

theorem inv_stop {s : State} (h : Inv s) (d : Dev) (tok : String) : Inv (stop s d tok) := by
  refine ⟨fun t e he => ?_, h.reqs, fun e t he => ?_, h.served⟩
  · have he : Assoc.get (Assoc.del s.rows tok) t = some e := he
    rw [Assoc.get_del] at he
    split at he
    · cases he
    · exact h.rows t e he
  · have he : Assoc.get (Assoc.del s.pollers d) e = some t := he
    rw [Assoc.get_del] at he
    split at he
    · cases he
    · exact h.pollers e t he

theorem valid_issued {s : State} {t : String} {d : Dev} (h : valid s t = some d) : Assoc.get s.issued t = some d := by
  unfold valid at h
  split at h
  · cases h
  · exact h

theorem inv_step {s : State} (h : Inv s) (o : Op) : Inv (step s o) := by
  cases o with
  | issue tok d =>
    simp only [step]
    split
    · exact h
    · rename_i hn
      have hn : Assoc.get s.issued tok = none := by simpa using hn
      have keep : ∀ t e, Assoc.get s.issued t = some e → Assoc.get (Assoc.set s.issued tok d) t = some e := by
        intro t e he
        rw [Assoc.get_set]
        split
        · rename_i ht; rw [ht, hn] at he; cases he
        · exact he
      exact ⟨fun t e he => keep t e (h.rows t e he), fun i t g e h1 h2 => keep t e (h.reqs i t g e h1 h2),
        fun e t he => keep t e (h.pollers e t he), fun t e c he => keep t e (h.served t e c he)⟩
  | revoke tok => exact ⟨h.rows, h.reqs, h.pollers, h.served⟩
  | arrive id tok =>
    refine ⟨h.rows, reqs_set h ?_, h.pollers, h.served⟩
    intro d hd
    cases hr : Assoc.get s.rows tok with
    | none => rw [hr] at hd; cases hd
    | some e => rw [hr] at hd; cases hd; exact h.rows tok _ hr
  | whoami id =>
    simp only [step]
    split
    · split
      · rename_i d hv
        refine ⟨h.rows, reqs_set h ?_, h.pollers, h.served⟩
        intro e he
        have he : some d = some e := he
        cases he
        exact valid_issued hv
      · exact ⟨h.rows, reqs_del h, h.pollers, h.served⟩
    · exact h
  | insert id =>
    simp only [step]
    split
    · rename_i tok d hr
      have hi : Assoc.get s.issued tok = some d := h.reqs id tok _ d hr rfl
      refine ⟨fun t e he => ?_, reqs_set h (fun e he => by cases he; exact hi), h.pollers, h.served⟩
      simp only at he
      split at he
      · exact h.rows t e he
      · rw [Assoc.get_set] at he
        split at he
        · rename_i ht; cases he; rw [ht]; exact hi
        · exact h.rows t e he
    · exact h
  | reuse id cid =>
    simp only [step]
    split
    · rename_i tok d hr
      have hi : Assoc.get s.issued tok = some d := h.reqs id tok _ d hr rfl
      split
      · refine ⟨h.rows, reqs_del h, h.pollers, fun t e c he => ?_⟩
        rcases List.mem_append.1 he with he | he
        · exact h.served t e c he
        · cases List.mem_singleton.1 he; exact hi
      · exact ⟨h.rows, reqs_del h, h.pollers, h.served⟩
    · exact h
  | create id cid expired =>
    simp only [step]
    split
    · rename_i tok d hr
      have hi : Assoc.get s.issued tok = some d := h.reqs id tok _ d hr rfl
      split
      · exact ⟨h.rows, reqs_del h, h.pollers, h.served⟩
      · refine ⟨h.rows, reqs_del h, h.pollers, fun t e c he => ?_⟩
        rcases List.mem_append.1 he with he | he
        · exact h.served t e c he
        · cases List.mem_singleton.1 he; exact hi
    · exact h
  | start tok =>
    simp only [step]
    split
    · rename_i d hr
      split
      · exact h
      · refine ⟨h.rows, h.reqs, fun e t he => ?_, h.served⟩
        simp only at he
        rw [Assoc.get_set] at he
        split at he
        · rename_i hd; cases he; rw [hd]; exact h.rows tok d hr
        · exact h.pollers e t he
    · exact h
  | poll d =>
    simp only [step]
    split
    · split
      · exact h
      · exact inv_stop h _ _
    · exact h
  | giveUp d =>
    simp only [step]
    split
    · exact inv_stop h _ _
    · exact h
  | close d => exact ⟨h.rows, h.reqs, h.pollers, h.served⟩
  | drop d cid => exact ⟨h.rows, h.reqs, h.pollers, h.served⟩

theorem inv_foldl {s : State} (h : Inv s) (ops : List Op) : Inv (ops.foldl step s) := by
  induction ops generalizing s with
  | nil => exact h
  | cons o ops ih => exact ih (inv_step h o)

/-- What the homeserver ever issued stays. -/
theorem issued_step {s : State} (o : Op) {t : String} {d : Dev} (h : Assoc.get s.issued t = some d) : Assoc.get (step s o).issued t = some d := by
  cases o <;> simp only [step]
  case issue tok e =>
    split
    · exact h
    · rename_i hn
      simp only
      rw [Assoc.get_set]
      split
      · rename_i ht; rw [← ht, h] at hn; simp at hn
      · exact h
  all_goals first
    | exact h
    | (split <;> first | exact h | (split <;> exact h))

/-! ## C92 -/

/-- C92: a request gets a connection only as the device its token was issued for, and pollers use tokens only for the device they
were issued for. -/
theorem C92_owner (ops : List Op) :
    (∀ t d c, (t, d, c) ∈ (run ops).served → Assoc.get (run ops).issued t = some d) ∧
      ∀ d t, Assoc.get (run ops).pollers d = some t → Assoc.get (run ops).issued t = some d :=
  ⟨(inv_foldl inv_init ops).served, (inv_foldl inv_init ops).pollers⟩

/-- Nobody can use the token any more. -/
structure Gone (s : State) (t : String) : Prop where
  revoked : t ∈ s.revoked
  row : Assoc.get s.rows t = none
  reqs : ∀ i g, Assoc.get s.reqs i = some (t, g) → g = .unknown

theorem gone_step {s : State} {t : String} (h : Gone s t) (o : Op) :
    Gone (step s o) t ∧ (∀ d c, (t, d, c) ∈ (step s o).served → (t, d, c) ∈ s.served) := by
  have hset : ∀ (id : Nat) (tok : String) (g : Stage), (tok = t → g = .unknown) → ∀ i g', Assoc.get (Assoc.set s.reqs id (tok, g)) i = some (t, g') → g' = .unknown := by
    intro id tok g hg i g' hi
    rw [Assoc.get_set] at hi
    split at hi
    · cases hi; exact hg rfl
    · exact h.reqs i g' hi
  have hdel : ∀ (id : Nat) i g', Assoc.get (Assoc.del s.reqs id) i = some (t, g') → g' = .unknown := by
    intro id i g' hi
    rw [Assoc.get_del] at hi
    split at hi
    · cases hi
    · exact h.reqs i g' hi
  have hstop : ∀ d tok, Gone (stop s d tok) t := by
    intro d tok
    refine ⟨h.revoked, ?_, h.reqs⟩
    show Assoc.get (Assoc.del s.rows tok) t = none
    rw [Assoc.get_del]
    split
    · rfl
    · exact h.row
  have served_eq : ∀ {s' : State}, s'.served = s.served → ∀ d c, (t, d, c) ∈ s'.served → (t, d, c) ∈ s.served := by
    intro s' e d c hm; rw [e] at hm; exact hm
  cases o with
  | issue tok d =>
    simp only [step]
    split
    · exact ⟨h, fun _ _ hm => hm⟩
    · exact ⟨⟨h.revoked, h.row, h.reqs⟩, fun _ _ hm => hm⟩
  | revoke tok => exact ⟨⟨List.mem_cons_of_mem _ h.revoked, h.row, h.reqs⟩, fun _ _ hm => hm⟩
  | arrive id tok =>
    refine ⟨⟨h.revoked, h.row, hset id tok _ ?_⟩, fun _ _ hm => hm⟩
    rintro rfl
    rw [h.row]
  | whoami id =>
    simp only [step]
    split
    · rename_i tok hr
      split
      · rename_i d hv
        refine ⟨⟨h.revoked, h.row, hset id tok _ ?_⟩, fun _ _ hm => hm⟩
        rintro rfl
        unfold valid at hv
        rw [if_pos h.revoked] at hv
        cases hv
      · exact ⟨⟨h.revoked, h.row, hdel id⟩, fun _ _ hm => hm⟩
    · exact ⟨h, fun _ _ hm => hm⟩
  | insert id =>
    simp only [step]
    split
    · rename_i tok d hr
      have hne : tok ≠ t := by
        rintro rfl
        have := h.reqs id _ hr
        cases this
      refine ⟨⟨h.revoked, ?_, hset id tok _ (fun e => absurd e hne)⟩, fun _ _ hm => hm⟩
      simp only
      split
      · exact h.row
      · rw [Assoc.get_set, if_neg (Ne.symm hne)]; exact h.row
    · exact ⟨h, fun _ _ hm => hm⟩
  | reuse id cid =>
    simp only [step]
    split
    · rename_i tok d hr
      have hne : tok ≠ t := by
        rintro rfl
        have := h.reqs id _ hr
        cases this
      split
      · refine ⟨⟨h.revoked, h.row, hdel id⟩, fun e c hm => ?_⟩
        rcases List.mem_append.1 hm with hm | hm
        · exact hm
        · cases List.mem_singleton.1 hm; exact absurd rfl hne
      · exact ⟨⟨h.revoked, h.row, hdel id⟩, fun _ _ hm => hm⟩
    · exact ⟨h, fun _ _ hm => hm⟩
  | create id cid expired =>
    simp only [step]
    split
    · rename_i tok d hr
      have hne : tok ≠ t := by
        rintro rfl
        have := h.reqs id _ hr
        cases this
      split
      · exact ⟨⟨h.revoked, h.row, hdel id⟩, fun _ _ hm => hm⟩
      · refine ⟨⟨h.revoked, h.row, hdel id⟩, fun e c hm => ?_⟩
        rcases List.mem_append.1 hm with hm | hm
        · exact hm
        · cases List.mem_singleton.1 hm; exact absurd rfl hne
    · exact ⟨h, fun _ _ hm => hm⟩
  | start tok =>
    simp only [step]
    split
    · split
      · exact ⟨h, fun _ _ hm => hm⟩
      · exact ⟨⟨h.revoked, h.row, h.reqs⟩, fun _ _ hm => hm⟩
    · exact ⟨h, fun _ _ hm => hm⟩
  | poll d =>
    simp only [step]
    split
    · split
      · exact ⟨h, fun _ _ hm => hm⟩
      · exact ⟨hstop _ _, fun _ _ hm => hm⟩
    · exact ⟨h, fun _ _ hm => hm⟩
  | giveUp d =>
    simp only [step]
    split
    · exact ⟨hstop _ _, fun _ _ hm => hm⟩
    · exact ⟨h, fun _ _ hm => hm⟩
  | close d => exact ⟨⟨h.revoked, h.row, h.reqs⟩, fun _ _ hm => hm⟩
  | drop d cid => exact ⟨⟨h.revoked, h.row, h.reqs⟩, fun _ _ hm => hm⟩

/-- C92 (partial): once a revoked token has no row and no request that got past the look-up, no request with it is served, whatever
happens. -/
theorem C92_refused_partial (s : State) (t : String) (h : Gone s t) (ops : List Op) (d : Dev) (c : String)
    (hs : (t, d, c) ∈ (ops.foldl step s).served) : (t, d, c) ∈ s.served := by
  induction ops generalizing s with
  | nil => exact hs
  | cons o ops ih => exact (gone_step h o).2 d c (ih (step s o) (gone_step h o).1 hs)

/-- C92: a poller that uses a revoked token deletes its row at its next poll and stops, and other rows stay. -/
theorem C92_detected (s : State) (d : Dev) (t : String) (hp : Assoc.get s.pollers d = some t) (hr : t ∈ s.revoked) :
    Assoc.get (step s (.poll d)).rows t = none ∧ Assoc.get (step s (.poll d)).pollers d = none ∧
      ∀ t', t' ≠ t → Assoc.get (step s (.poll d)).rows t' = Assoc.get s.rows t' := by
  have : step s (.poll d) = stop s d t := by
    simp only [step, hp]
    rw [if_neg (by simp [valid, hr])]
  rw [this]
  refine ⟨?_, ?_, fun t' ht => ?_⟩
  · show Assoc.get (Assoc.del s.rows t) t = none
    rw [Assoc.get_del, if_pos rfl]
  · show Assoc.get (Assoc.del s.pollers d) d = none
    rw [Assoc.get_del, if_pos rfl]
  · show Assoc.get (Assoc.del s.rows t) t' = _
    rw [Assoc.get_del, if_neg ht]

/-- The token has a row, and the poller of its device uses another token. -/
structure Stale (s : State) (t t' : String) (d : Dev) (c : String) : Prop where
  ne : t ≠ t'
  row : Assoc.get s.rows t = some d
  poller : Assoc.get s.pollers d = some t'
  good : t' ∉ s.revoked
  conn : (d, c) ∈ s.conns

/-- Nothing ends the poller or the connection. -/
def Harmless (t' : String) (d : Dev) (c : String) : Op → Prop
  | .revoke t => t ≠ t'
  | .giveUp e => e ≠ d
  | .close e => e ≠ d
  | .drop e x => (e, x) ≠ (d, c)
  | _ => True

theorem stale_step {s : State} {t t' : String} {d : Dev} {c : String} (hi : Inv s) (h : Stale s t t' d c) (o : Op) (ho : Harmless t' d c o) :
    Stale (step s o) t t' d c := by
  obtain ⟨hne, hrow, hpol, hgood, hconn⟩ := h
  have hstop : ∀ e tok, e ≠ d → Assoc.get s.pollers e = some tok → Stale (stop s e tok) t t' d c := by
    intro e tok he hp
    refine ⟨hne, ?_, ?_, hgood, hconn⟩
    · show Assoc.get (Assoc.del s.rows tok) t = some d
      rw [Assoc.get_del, if_neg]
      · exact hrow
      · rintro rfl
        have h1 := hi.pollers e _ hp
        have h2 := hi.rows _ d hrow
        rw [h1] at h2
        cases h2
        exact he rfl
    · show Assoc.get (Assoc.del s.pollers e) d = some t'
      rw [Assoc.get_del, if_neg (Ne.symm he)]
      exact hpol
  have hvalid : (valid s t').isSome = true := by
    unfold valid
    rw [if_neg hgood, hi.pollers d t' hpol]
    rfl
  cases o with
  | issue tok e => simp only [step]; split <;> exact ⟨hne, hrow, hpol, hgood, hconn⟩
  | revoke tok => exact ⟨hne, hrow, hpol, fun hm => (List.mem_cons.1 hm).elim (fun e => ho e.symm) hgood, hconn⟩
  | arrive id tok => exact ⟨hne, hrow, hpol, hgood, hconn⟩
  | whoami id =>
    simp only [step]
    split
    · split <;> exact ⟨hne, hrow, hpol, hgood, hconn⟩
    · exact ⟨hne, hrow, hpol, hgood, hconn⟩
  | insert id =>
    simp only [step]
    split
    · rename_i tok e _
      refine ⟨hne, ?_, hpol, hgood, hconn⟩
      simp only
      split
      · exact hrow
      · rename_i hn
        rw [Assoc.get_set, if_neg]
        · exact hrow
        · rintro rfl
          rw [hrow] at hn
          simp at hn
    · exact ⟨hne, hrow, hpol, hgood, hconn⟩
  | reuse id cid =>
    simp only [step]
    split
    · split <;> exact ⟨hne, hrow, hpol, hgood, hconn⟩
    · exact ⟨hne, hrow, hpol, hgood, hconn⟩
  | create id cid expired =>
    simp only [step]
    split
    · split
      · exact ⟨hne, hrow, hpol, hgood, hconn⟩
      · exact ⟨hne, hrow, hpol, hgood, List.mem_cons_of_mem _ hconn⟩
    · exact ⟨hne, hrow, hpol, hgood, hconn⟩
  | start tok =>
    simp only [step]
    split
    · rename_i e _
      split
      · exact ⟨hne, hrow, hpol, hgood, hconn⟩
      · rename_i hn
        refine ⟨hne, hrow, ?_, hgood, hconn⟩
        simp only
        rw [Assoc.get_set, if_neg]
        · exact hpol
        · rintro rfl
          rw [hpol] at hn
          simp at hn
    · exact ⟨hne, hrow, hpol, hgood, hconn⟩
  | poll e =>
    simp only [step]
    split
    · rename_i tok hp
      by_cases he : e = d
      · rw [he, hpol] at hp
        cases hp
        rw [if_pos hvalid]
        exact ⟨hne, hrow, hpol, hgood, hconn⟩
      · split
        · exact ⟨hne, hrow, hpol, hgood, hconn⟩
        · exact hstop e tok he hp
    · exact ⟨hne, hrow, hpol, hgood, hconn⟩
  | giveUp e =>
    simp only [step]
    split
    · rename_i tok hp
      exact hstop e tok ho hp
    · exact ⟨hne, hrow, hpol, hgood, hconn⟩
  | close e =>
    refine ⟨hne, hrow, hpol, hgood, ?_⟩
    exact List.mem_filter.2 ⟨hconn, decide_eq_true (Ne.symm ho)⟩
  | drop e x =>
    refine ⟨hne, hrow, hpol, hgood, ?_⟩
    exact List.mem_filter.2 ⟨hconn, decide_eq_true (Ne.symm ho)⟩

/-- C92: a token whose device is polled with another token is accepted, revoked or not, for as long as that other token is valid and
the connection lasts. -/
theorem C92_stale (ops0 ops : List Op) (t t' : String) (d : Dev) (c : String) (h : Stale (run ops0) t t' d c)
    (ho : ∀ o ∈ ops, Harmless t' d c o) (id : Nat) :
    (t, d, c) ∈ (run (ops0 ++ ops ++ [.arrive id t, .reuse id c])).served := by
  unfold run at h ⊢
  rw [List.foldl_append, List.foldl_append]
  have hi := inv_foldl inv_init ops0
  generalize ops0.foldl step {} = s at h hi
  have hst : Stale (ops.foldl step s) t t' d c := by
    clear id
    induction ops generalizing s with
    | nil => exact h
    | cons o ops ih =>
      exact ih (fun o' ho' => ho o' (List.mem_cons_of_mem _ ho')) _ (stale_step hi h o (ho o (by simp))) (inv_step hi o)
  generalize ops.foldl step s = s' at hst
  have h1 : Assoc.get (step s' (.arrive id t)).reqs id = some (t, .ready d) := by
    simp only [step, hst.row]
    rw [Assoc.get_set, if_pos rfl]
  have h2 : (step s' (.arrive id t)).conns = s'.conns := rfl
  have h3 : ∀ x : State, Assoc.get x.reqs id = some (t, .ready d) → (d, c) ∈ x.conns → (t, d, c) ∈ (step x (.reuse id c)).served := by
    intro x hx hc
    simp only [step, hx]
    rw [if_pos hc]
    exact List.mem_append_right _ (by simp)
  exact h3 _ h1 (h2 ▸ hst.conn)

/-! ### Violations -/

/-- Login, two requests with the first token, then a new token for the same device; the poller is started with the new one. -/
def refreshed : List Op :=
  [.issue "old" ("@a", "D"), .arrive 0 "old", .whoami 0, .insert 0, .issue "new" ("@a", "D"), .arrive 1 "new", .whoami 1, .insert 1,
   .start "new", .create 1 "" false, .create 0 "x" false]

/-- C92 is violated for devices with two tokens: the old token is revoked, the poller polls with the new one and does not notice,
and the old token still gives access to the device's connection. -/
theorem C92_violated_refreshed : "old" ∈ (run (refreshed ++ [.revoke "old", .poll ("@a", "D")])).revoked ∧
    (("old", ("@a", "D"), "") ∈ (run (refreshed ++ [.revoke "old", .poll ("@a", "D"), .arrive 2 "old", .reuse 2 ""])).served) ∧
    ("old", ("@a", "D"), "") ∉ (run (refreshed ++ [.revoke "old", .poll ("@a", "D")])).served := by decide +kernel

/-- C92 is violated between a revocation and the next answer to the poller: the token is still accepted. -/
theorem C92_violated_window :
    ("t", ("@a", "D"), "") ∈ (run [.issue "t" ("@a", "D"), .arrive 0 "t", .whoami 0, .insert 0, .start "t", .create 0 "" false, .revoke "t",
      .arrive 1 "t", .reuse 1 ""]).served := by decide +kernel

/-- C92 is violated by a request that asked the homeserver before the revocation and stores the token after the row was
deleted: the row comes back. -/
theorem C92_violated_reinserted :
    Assoc.get (run [.issue "t" ("@a", "D"), .arrive 0 "t", .whoami 0, .arrive 1 "t", .whoami 1, .insert 1, .start "t", .revoke "t",
      .poll ("@a", "D"), .insert 0]).rows "t" = some ("@a", "D") := by decide +kernel

/-- The hypotheses are met. -/
example : Stale (run (refreshed ++ [.revoke "old"])) "old" "new" ("@a", "D") "" :=
  ⟨by decide, by decide +kernel, by decide +kernel, by decide +kernel, by decide +kernel⟩

example : Gone (run [.issue "t" ("@a", "D"), .arrive 0 "t", .whoami 0, .insert 0, .start "t", .create 0 "" false, .revoke "t",
    .poll ("@a", "D")]) "t" := by
  refine ⟨by decide +kernel, by decide +kernel, fun i g hg => ?_⟩
  have : (run [.issue "t" ("@a", "D"), .arrive 0 "t", .whoami 0, .insert 0, .start "t", .create 0 "" false, .revoke "t",
    .poll ("@a", "D")]).reqs = [] := by decide +kernel
  rw [this] at hg
  cases hg

end Verif.Auth
