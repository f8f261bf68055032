import Verif.Tokens
/-!
# C60: a device in use is never expired; C72: a token that cannot be decrypted is skipped at start-up
-/
namespace Verif.Tokens

open Verif

/-- The time of an operation. -/
def Op.time : Op → Option Int
  | .lookup _ _ t => some t
  | .finish _ _ _ t => some t
  | _ => none

/-- The clock does not go back. -/
def Clock (ops : List Op) : Prop := (ops.filterMap Op.time).Pairwise (· ≤ ·)

instance (ops : List Op) : Decidable (Clock ops) := inferInstanceAs (Decidable (List.Pairwise _ _))

theorem run_snoc (ops : List Op) (o : Op) : run (ops ++ [o]) = step (run ops) o := by
  unfold run; rw [List.foldl_append]; rfl

theorem get_update (rows : List (String × Tok)) (tok q : String) (now : Int) :
    Assoc.get (update rows tok now) q = (Assoc.get rows q).map fun t => if q = tok then { t with lastSeen := now } else t := by
  induction rows with
  | nil => rfl
  | cons e rows ih =>
    simp only [Assoc.get, update, List.map_cons, List.find?_cons] at ih ⊢
    by_cases h : e.1 = q
    · subst h
      by_cases h2 : e.1 = tok <;> simp [h2]
    · by_cases h2 : e.1 = tok
      · simp only [h2, if_true]
        rw [h2] at h
        simp only [h, decide_false]
        exact ih
      · simp only [h2, if_false, h, decide_false]
        exact ih

theorem get_insert (rows : List (String × Tok)) (tok q : String) (t : Tok) :
    Assoc.get (insert rows tok t) q = (Assoc.get rows q).or (if q = tok then some t else none) := by
  unfold insert
  cases h : Assoc.get rows tok with
  | some x =>
    by_cases hq : q = tok
    · subst hq; simp [h]
    · simp [hq]
  | none =>
    simp only
    rw [Assoc.get_append]
    by_cases hq : q = tok
    · subst hq; simp [Assoc.get]
    · simp [Assoc.get, hq, Ne.symm hq]

theorem get_maybe (rows : List (String × Tok)) (tok q : String) (v now : Int) :
    Assoc.get (maybeUpdate rows tok v now) q =
      (Assoc.get rows q).map fun t => if q = tok ∧ day ≤ now - v then { t with lastSeen := now } else t := by
  unfold maybeUpdate
  by_cases h : now - v < day
  · have : ¬ day ≤ now - v := by omega
    simp [h, this]
  · have h2 : day ≤ now - v := by omega
    rw [if_neg h, get_update]; simp [h2]

theorem maybe_now (rows : List (String × Tok)) (tok : String) (now : Int) : maybeUpdate rows tok now now = rows := by
  unfold maybeUpdate; rw [if_pos]; simp [day]

/-- All times so far are at most `T`, and what a request has read is not after the row's time. -/
structure Inv (s : S) (T : Int) : Prop where
  rows : ∀ tok t, Assoc.get s.rows tok = some t → t.lastSeen ≤ T
  pend : ∀ r p, Assoc.get s.pend r = some p → p.time ≤ T ∧ ∀ t, Assoc.get s.rows p.tok = some t → p.time ≤ t.lastSeen

theorem Inv.mono {s : S} {T T' : Int} (h : Inv s T) (hT : T ≤ T') : Inv s T' :=
  ⟨fun tok t ht => Int.le_trans (h.rows tok t ht) hT, fun r p hp => ⟨Int.le_trans (h.pend r p hp).1 hT, (h.pend r p hp).2⟩⟩

/-- One step: the invariant, and the time of a row does not go back. -/
theorem step_inv {s : S} {T : Int} (h : Inv s T) (o : Op) (ho : ∀ t, o.time = some t → T ≤ t) :
    Inv (step s o) ((o.time).getD T) ∧
    ∀ tok c, c ≤ T → (∀ t, Assoc.get s.rows tok = some t → c ≤ t.lastSeen) →
      ∀ t, Assoc.get (step s o).rows tok = some t → c ≤ t.lastSeen := by
  cases o with
  | lookup r tok now =>
    have hT : T ≤ now := ho now rfl
    have hm := h.mono hT
    refine ⟨⟨hm.rows, ?_⟩, fun tok c _ hc => hc⟩
    intro r' p hp
    simp only [step, Assoc.get_set] at hp
    by_cases hr : r' = r
    · rw [if_pos hr] at hp
      cases hg : Assoc.get s.rows tok with
      | none =>
        rw [hg] at hp; cases hp
        exact ⟨Int.le_refl _, fun t ht => by simp only [step] at ht; rw [hg] at ht; cases ht⟩
      | some t0 =>
        rw [hg] at hp; cases hp
        refine ⟨hm.rows tok t0 hg, fun t ht => ?_⟩
        simp only [step] at ht; rw [hg] at ht; cases ht; exact Int.le_refl _
    · rw [if_neg hr] at hp; exact hm.pend r' p hp
  | finish r user device now =>
    have hT : T ≤ now := ho now rfl
    have hm := h.mono hT
    simp only [step, Op.time, Option.getD_some]
    cases hg : Assoc.get s.pend r with
    | none => exact ⟨hm, fun tok c _ hc => hc⟩
    | some p =>
      simp only
      have hpend : ∀ r' q, Assoc.get (Assoc.del s.pend r) r' = some q → Assoc.get s.pend r' = some q := by
        intro r' q hq
        rw [Assoc.get_del] at hq
        by_cases hr : r' = r
        · rw [if_pos hr] at hq; cases hq
        · rwa [if_neg hr] at hq
      by_cases hh : p.hit = true
      · simp only [hh, if_true]
        have hrow : ∀ tok t, Assoc.get (maybeUpdate s.rows p.tok p.time now) tok = some t →
            ∃ t0, Assoc.get s.rows tok = some t0 ∧ (t.lastSeen = now ∨ t.lastSeen = t0.lastSeen) := by
          intro tok t ht
          rw [get_maybe] at ht
          cases hg0 : Assoc.get s.rows tok with
          | none => rw [hg0] at ht; cases ht
          | some t0 =>
            rw [hg0] at ht
            simp only [Option.map_some, Option.some.injEq] at ht
            refine ⟨t0, rfl, ?_⟩
            split at ht
            · left; rw [← ht]
            · right; rw [← ht]
        refine ⟨⟨?_, ?_⟩, ?_⟩
        · intro tok t ht
          obtain ⟨t0, h0, h1 | h1⟩ := hrow tok t ht
          · rw [h1]; exact Int.le_refl _
          · rw [h1]; exact hm.rows tok t0 h0
        · intro r' q hq
          obtain ⟨h1, h2⟩ := hm.pend r' q (hpend r' q hq)
          refine ⟨h1, fun t ht => ?_⟩
          obtain ⟨t0, h0, h3 | h3⟩ := hrow _ t ht
          · rw [h3]; exact h1
          · rw [h3]; exact h2 t0 h0
        · intro tok c hc hcr t ht
          obtain ⟨t0, h0, h3 | h3⟩ := hrow _ t ht
          · rw [h3]; omega
          · rw [h3]; exact hcr t0 h0
      · simp only [hh, Bool.false_eq_true, if_false, maybe_now]
        have hrow : ∀ tok t, Assoc.get (insert s.rows p.tok ⟨user, device, now⟩) tok = some t →
            Assoc.get s.rows tok = some t ∨ t.lastSeen = now := by
          intro tok t ht
          rw [get_insert] at ht
          cases hg0 : Assoc.get s.rows tok with
          | some t0 => rw [hg0] at ht; left; simpa using ht
          | none =>
            rw [hg0] at ht
            right
            simp only [Option.none_or] at ht
            split at ht
            · cases ht; rfl
            · cases ht
        refine ⟨⟨?_, ?_⟩, ?_⟩
        · intro tok t ht
          rcases hrow tok t ht with h1 | h1
          · exact hm.rows tok t h1
          · rw [h1]; exact Int.le_refl _
        · intro r' q hq
          obtain ⟨h1, h2⟩ := hm.pend r' q (hpend r' q hq)
          refine ⟨h1, fun t ht => ?_⟩
          rcases hrow _ t ht with h3 | h3
          · exact h2 t h3
          · rw [h3]; exact h1
        · intro tok c hc hcr t ht
          rcases hrow _ t ht with h3 | h3
          · exact hcr t h3
          · rw [h3]; omega
  | fail r =>
    refine ⟨⟨h.rows, ?_⟩, fun tok c _ hc => hc⟩
    intro r' p hp
    simp only [step, Assoc.get_del] at hp
    by_cases hr : r' = r
    · rw [if_pos hr] at hp; cases hp
    · rw [if_neg hr] at hp; exact h.pend r' p hp
  | delete tok =>
    have hrow : ∀ q t, Assoc.get (Assoc.del s.rows tok) q = some t → Assoc.get s.rows q = some t := by
      intro q t ht
      rw [Assoc.get_del] at ht
      by_cases hq : q = tok
      · rw [if_pos hq] at ht; cases ht
      · rwa [if_neg hq] at ht
    exact ⟨⟨fun q t ht => h.rows q t (hrow q t ht), fun r p hp => ⟨(h.pend r p hp).1, fun t ht => (h.pend r p hp).2 t (hrow _ t ht)⟩⟩,
      fun q c _ hc t ht => hc t (hrow q t ht)⟩

/-- The latest time in a list of operations is a bound. -/
theorem run_inv (ops : List Op) (hc : Clock ops) :
    ∃ T, Inv (run ops) T ∧ ∀ t, (∀ x ∈ ops.filterMap Op.time, x ≤ t) → ops.filterMap Op.time ≠ [] → T ≤ t := by
  suffices ∀ ops : List Op, Clock ops → (ops.filterMap Op.time = [] → ∀ T, Inv (run ops) T) ∧
      ∀ T, (ops.filterMap Op.time).getLast? = some T → Inv (run ops) T by
    by_cases h0 : ops.filterMap Op.time = []
    · exact ⟨0, (this ops hc).1 h0 0, fun _ _ h => absurd h0 h⟩
    · obtain ⟨T, hT⟩ := Option.ne_none_iff_exists'.1 (fun h => h0 (List.getLast?_eq_none_iff.1 h))
      exact ⟨T, (this ops hc).2 T hT, fun t ht _ => ht T (List.mem_of_getLast? hT)⟩
  intro ops
  induction ops using Verif.Util.snocRec with
  | nil =>
    intro _
    refine ⟨fun _ T => ⟨fun tok t ht => by simp [run, Assoc.get_nil] at ht, fun r p hp => by simp [run, Assoc.get_nil] at hp⟩, ?_⟩
    intro T h; cases h
  | append_singleton ops o ih =>
    intro hc
    unfold Clock at hc
    rw [List.filterMap_append, List.pairwise_append] at hc
    obtain ⟨h1, h2⟩ := ih hc.1
    rw [run_snoc, List.filterMap_append]
    cases ho : o.time with
    | none =>
      have hf : [o].filterMap Op.time = [] := by simp [ho]
      rw [hf, List.append_nil]
      refine ⟨fun h T => ?_, fun T h => ?_⟩
      · have := (step_inv (h1 h T) o (by simp [ho])).1; rwa [ho] at this
      · have := (step_inv (h2 T h) o (by simp [ho])).1; rwa [ho] at this
    | some t =>
      have hf : [o].filterMap Op.time = [t] := by simp [ho]
      rw [hf]
      refine ⟨by simp, fun T h => ?_⟩
      simp only [List.getLast?_append, List.getLast?_singleton, Option.some_or, Option.some.injEq] at h
      subst h
      cases hl : (ops.filterMap Op.time).getLast? with
      | none =>
        have h0 := List.getLast?_eq_none_iff.1 hl
        have := (step_inv (h1 h0 t) o (fun x hx => by rw [ho] at hx; cases hx; exact Int.le_refl _)).1
        rwa [ho] at this
      | some T0 =>
        have hle : T0 ≤ t := hc.2.2 T0 (List.mem_of_getLast? hl) t (by rw [hf]; simp)
        have := (step_inv (h2 T0 hl) o (fun x hx => by rw [ho] at hx; cases hx; exact hle)).1
        rwa [ho] at this

theorem Clock.prefix {a b : List Op} (h : Clock (a ++ b)) : Clock a := by
  unfold Clock at h; rw [List.filterMap_append, List.pairwise_append] at h; exact h.1

/-- A bound valid now remains valid. -/
theorem keep (ops rest : List Op) (T : Int) (hI : Inv (run ops) T) (hc : Clock (ops ++ rest))
    (hT : ∀ x ∈ rest.filterMap Op.time, T ≤ x) (tok : String) (c : Int) (hcT : c ≤ T)
    (h : ∀ t, Assoc.get (run ops).rows tok = some t → c ≤ t.lastSeen) :
    ∃ T', T ≤ T' ∧ Inv (run (ops ++ rest)) T' ∧ (∀ y, (∀ x ∈ rest.filterMap Op.time, x ≤ y) → T ≤ y → T' ≤ y) ∧
      ∀ t, Assoc.get (run (ops ++ rest)).rows tok = some t → c ≤ t.lastSeen := by
  induction rest using Verif.Util.snocRec with
  | nil => exact ⟨T, Int.le_refl _, by simpa using hI, fun _ _ h => h, by simpa using h⟩
  | append_singleton l o ih =>
    rw [← List.append_assoc] at hc ⊢
    obtain ⟨T', h1, h2, h3, h4⟩ := ih hc.prefix (fun x hx => hT x (by rw [List.filterMap_append]; simp [hx]))
    rw [run_snoc]
    have hle : ∀ t, o.time = some t → T' ≤ t := by
      intro t ht
      refine h3 t ?_ (hT t (by rw [List.filterMap_append]; simp [ht]))
      intro x hx
      unfold Clock at hc
      rw [List.filterMap_append, List.pairwise_append] at hc
      exact hc.2.2 x (by rw [List.filterMap_append]; simp [hx]) t (by simp [ht])
    obtain ⟨g1, g2⟩ := step_inv h2 o hle
    refine ⟨o.time.getD T', ?_, g1, ?_, g2 tok c (by omega) h4⟩
    · cases ho : o.time with
      | none => exact h1
      | some t => have := hle t ho; simp only [Option.getD_some]; omega
    · intro y hy hTy
      cases ho : o.time with
      | none => exact h3 y (fun x hx => hy x (by rw [List.filterMap_append]; simp [hx])) hTy
      | some t => exact hy t (by rw [List.filterMap_append]; simp [ho])

/-- **C60.** After a request with a token has been processed at time `now`, the time recorded for the token is
less than 24 hours before, and stays so whatever happens later.  For a token that was unknown when the request
looked it up, this is for requests that take less than a day. -/
theorem C60_recorded (ops rest : List Op) (req : Nat) (user device : String) (now : Int) (p : Pend)
    (hc : Clock (ops ++ .finish req user device now :: rest))
    (hp : Assoc.get (run ops).pend req = some p) (hslow : p.hit = false → now - p.time < day)
    (t : Tok) (ht : Assoc.get (run (ops ++ .finish req user device now :: rest)).rows p.tok = some t) :
    now - day < t.lastSeen := by
  have hc0 : Clock (ops ++ [.finish req user device now]) := by
    have : ops ++ .finish req user device now :: rest = (ops ++ [.finish req user device now]) ++ rest := by simp
    rw [this] at hc; exact hc.prefix
  obtain ⟨T, hI, hT⟩ := run_inv ops hc0.prefix
  -- the clock is at most now
  have hTn : ∃ T', T' ≤ now ∧ Inv (run ops) T' := by
    by_cases h0 : ops.filterMap Op.time = []
    · obtain ⟨T1, hI1, _⟩ := run_inv ops hc0.prefix
      by_cases hle : T1 ≤ now
      · exact ⟨T1, hle, hI1⟩
      · -- no operation has a time: there are no rows and no requests
        exfalso
        have : ∀ l : List Op, l.filterMap Op.time = [] → (run l).pend = [] := by
          intro l
          induction l using Verif.Util.snocRec with
          | nil => intro _; rfl
          | append_singleton l o ih =>
            intro hl
            rw [List.filterMap_append, List.append_eq_nil_iff] at hl
            rw [run_snoc]
            cases o with
            | lookup r tok t => simp [Op.time] at hl
            | finish r u d t => simp [Op.time] at hl
            | fail r => simp [step, ih hl.1, Assoc.del]
            | delete tok => simp [step, ih hl.1]
        rw [this ops h0] at hp
        cases hp
    · refine ⟨T, hT now ?_ h0, hI⟩
      intro x hx
      unfold Clock at hc0
      rw [List.filterMap_append, List.pairwise_append] at hc0
      exact hc0.2.2 x hx now (by simp [Op.time])
  obtain ⟨T', hle, hI'⟩ := hTn
  -- after the request
  have hafter : ∀ t, Assoc.get (run (ops ++ [.finish req user device now])).rows p.tok = some t → now - day + 1 ≤ t.lastSeen := by
    intro t ht
    rw [run_snoc] at ht
    simp only [step, hp] at ht
    have hpt := (hI'.pend req p hp).2
    by_cases hh : p.hit = true
    · simp only [hh, if_true] at ht
      rw [get_maybe] at ht
      cases hg : Assoc.get (run ops).rows p.tok with
      | none => rw [hg] at ht; cases ht
      | some t0 =>
        rw [hg] at ht
        simp only [Option.map_some, Option.some.injEq, true_and] at ht
        have h0 := hpt t0 hg
        by_cases hd : day ≤ now - p.time
        · rw [if_pos hd] at ht; rw [← ht]; simp only [day]; omega
        · rw [if_neg hd] at ht; rw [← ht]; omega
    · have hs := hslow (by simpa using hh)
      simp only [hh, Bool.false_eq_true, if_false, maybe_now] at ht
      rw [get_insert] at ht
      cases hg : Assoc.get (run ops).rows p.tok with
      | none =>
        rw [hg] at ht
        simp only [Option.none_or, if_true, Option.some.injEq] at ht
        rw [← ht]; simp only [day]; omega
      | some t0 =>
        rw [hg] at ht
        simp only [Option.some_or, Option.some.injEq] at ht
        have h0 := hpt t0 hg
        rw [← ht]; omega
  have hI2 := (step_inv hI' (.finish req user device now) (fun x hx => by cases hx; exact hle)).1
  rw [← run_snoc] at hI2
  have hsplit : ops ++ .finish req user device now :: rest = (ops ++ [.finish req user device now]) ++ rest := by simp
  rw [hsplit] at hc ht
  have hrest : ∀ x ∈ rest.filterMap Op.time, now ≤ x := by
    intro x hx
    unfold Clock at hc
    rw [List.filterMap_append, List.pairwise_append] at hc
    exact hc.2.2 now (by rw [List.filterMap_append]; simp [Op.time]) x hx
  obtain ⟨_, _, _, _, hk⟩ := keep _ rest now hI2 hc hrest p.tok (now - day + 1) (by simp only [day]; omega) hafter
  have := hk t ht
  omega

theorem run_rows_nodup (ops : List Op) : ((run ops).rows.map (·.1)).Nodup := by
  induction ops using Verif.Util.snocRec with
  | nil => exact List.nodup_nil
  | append_singleton ops o ih =>
    have hupd : ∀ (rows : List (String × Tok)) tok now, (update rows tok now).map (·.1) = rows.map (·.1) := by
      intro rows tok now
      simp only [update, List.map_map]
      apply List.map_congr_left
      intro r _
      simp only [Function.comp]
      split <;> rfl
    have hmay : ∀ (rows : List (String × Tok)) tok v now, (rows.map (·.1)).Nodup → ((maybeUpdate rows tok v now).map (·.1)).Nodup := by
      intro rows tok v now h
      unfold maybeUpdate
      split
      · exact h
      · rw [hupd]; exact h
    rw [run_snoc]
    cases o with
    | lookup r tok now => exact ih
    | finish r user device now =>
      simp only [step]
      cases hg : Assoc.get (run ops).pend r with
      | none => exact ih
      | some p =>
        simp only
        split
        · exact hmay _ _ _ _ ih
        · rw [maybe_now]
          unfold insert
          cases hgr : Assoc.get (run ops).rows p.tok with
          | some x => exact ih
          | none =>
            simp only [List.map_append, List.map_cons, List.map_nil]
            rw [List.nodup_append]
            refine ⟨ih, by simp, ?_⟩
            intro a ha b hb
            obtain ⟨x, hx, rfl⟩ := List.mem_map.1 ha
            rw [List.mem_singleton.1 hb]
            intro he
            have := Assoc.get_of_mem ih (k := x.1) (v := x.2) hx
            rw [he, hgr] at this; cases this
    | fail r => exact ih
    | delete tok => exact Assoc.nodup_filter ih _

/-- **C60.** A device whose token was used at time `now` is not selected for expiry until the idle period less
24 hours has passed, whatever else happens, as long as the token is stored for it. -/
theorem C60_not_expired (ops rest : List Op) (req : Nat) (user device : String) (now : Int) (p : Pend)
    (hc : Clock (ops ++ .finish req user device now :: rest))
    (hp : Assoc.get (run ops).pend req = some p) (hslow : p.hit = false → now - p.time < day)
    (t : Tok) (ht : Assoc.get (run (ops ++ .finish req user device now :: rest)).rows p.tok = some t)
    (period later : Int) (hl : later - now ≤ period - day) :
    (t.user, t.device) ∉ findOld (run (ops ++ .finish req user device now :: rest)) period later := by
  have h1 := C60_recorded ops rest req user device now p hc hp hslow t ht
  intro hm
  simp only [findOld, List.mem_filter, Bool.and_eq_true, List.all_eq_true, decide_eq_true_eq] at hm
  have h2 := hm.2.2 (p.tok, t) (by
    simp only [tokensOf, List.mem_filter, decide_eq_true_eq]
    exact ⟨Assoc.get_mem ht, trivial⟩)
  simp only at h2
  omega

/-- The uses of a token: the times of the requests processed with it. -/
inductive Used : List Op → String → Int → Prop
  | here {ops req user device now p} : Assoc.get (run ops).pend req = some p → Used (ops ++ [.finish req user device now]) p.tok now
  | later {ops tok t} (o) : Used ops tok t → Used (ops ++ [o]) tok t

/-- The recorded time of a token is the time of one of its uses. -/
theorem recorded_used (ops : List Op) (tok : String) (t : Tok) (h : Assoc.get (run ops).rows tok = some t) : Used ops tok t.lastSeen := by
  induction ops using Verif.Util.snocRec generalizing t with
  | nil => simp [run, Assoc.get_nil] at h
  | append_singleton ops o ih =>
    rw [run_snoc] at h
    cases o with
    | lookup r tok' now => exact .later _ (ih t h)
    | finish r user device now =>
      simp only [step] at h
      cases hg : Assoc.get (run ops).pend r with
      | none => rw [hg] at h; exact .later _ (ih t h)
      | some p =>
        rw [hg] at h
        simp only at h
        by_cases hh : p.hit = true
        · simp only [hh, if_true] at h
          rw [get_maybe] at h
          cases hg0 : Assoc.get (run ops).rows tok with
          | none => rw [hg0] at h; cases h
          | some t0 =>
            rw [hg0] at h
            simp only [Option.map_some, Option.some.injEq] at h
            split at h
            · rename_i hc
              rw [hc.1, ← h]; exact .here hg
            · rw [← h]; exact .later _ (ih t0 hg0)
        · simp only [hh, Bool.false_eq_true, if_false, maybe_now] at h
          rw [get_insert] at h
          cases hg0 : Assoc.get (run ops).rows tok with
          | some t0 =>
            rw [hg0] at h
            simp only [Option.some_or, Option.some.injEq] at h
            rw [← h]; exact .later _ (ih t0 hg0)
          | none =>
            rw [hg0] at h
            simp only [Option.none_or] at h
            split at h
            · rename_i hc
              cases h
              rw [hc]; exact .here hg
            · cases h
    | fail r => exact .later _ (ih t h)
    | delete tok' =>
      simp only [step, Assoc.get_del] at h
      split at h
      · cases h
      · exact .later _ (ih t h)

/-- **C60.** Conversely a known device with a token is selected if all uses of its tokens are longer ago than
the idle period. -/
theorem C60_expired (ops : List Op) (d : String × String) (hd : d ∈ (run ops).devices) (period now : Int)
    (hex : ∃ tok t, Assoc.get (run ops).rows tok = some t ∧ (t.user, t.device) = d)
    (hidle : ∀ tok t, Assoc.get (run ops).rows tok = some t → (t.user, t.device) = d → ∀ x, Used ops tok x → x < now - period) :
    d ∈ findOld (run ops) period now := by
  simp only [findOld, List.mem_filter, Bool.and_eq_true, List.all_eq_true, decide_eq_true_eq, Bool.not_eq_true']
  refine ⟨hd, ?_, ?_⟩
  · obtain ⟨tok, t, ht, he⟩ := hex
    have : (tok, t) ∈ tokensOf (run ops) d := by
      simp only [tokensOf, List.mem_filter, decide_eq_true_eq]; exact ⟨Assoc.get_mem ht, he⟩
    cases hq : tokensOf (run ops) d with
    | nil => rw [hq] at this; cases this
    | cons _ _ => rfl
  · rintro ⟨tok, t⟩ hr
    simp only [tokensOf, List.mem_filter, decide_eq_true_eq] at hr
    have hg := Assoc.get_of_mem (run_rows_nodup ops) hr.1
    exact hidle tok t hg hr.2 _ (recorded_used ops tok t hg)

/-! A concrete case: a first request, one 20 days later, and the check at 49 days (30 days idle period). -/

def exOps : List Op := [.lookup 1 "t" 0, .finish 1 "@a" "D" 1, .lookup 2 "t" (20 * day), .finish 2 "" "" (20 * day + 5)]

example : Clock exOps ∧ Assoc.get (run exOps).rows "t" = some ⟨"@a", "D", 20 * day + 5⟩ ∧
    findOld (run exOps) (30 * day) (49 * day) = [] ∧ findOld (run exOps) (30 * day) (51 * day) = [("@a", "D")] ∧
    Assoc.get (run (exOps.take 3)).pend 2 = some ⟨"t", 1, true⟩ := by decide

/-! ## C72 -/

/-- What should be started: a poller for each row whose token can be decrypted. -/
def want (decrypt : String → Option String) (r : Stored) : Option ((String × String) × String) :=
  match decrypt r.enc with
  | some t => if t ≠ "" then some ((r.user, r.device), t) else none
  | none => none

def wanted (decrypt : String → Option String) (res : List Stored) : List ((String × String) × String) :=
  res.filterMap (want decrypt)

/-- **C72, full statement.** -/
def C72_full : Prop := ∀ (decrypt : String → Option String) (res : List Stored), startPollers decrypt res = wanted decrypt res

theorem decryptLoop_spec (decrypt : String → Option String) (res : List Stored) : ∀ err,
    (decryptLoop decrypt err res).2 = (match res.getLast? with | none => err | some r => (decrypt r.enc).isNone) ∧
    ((decryptLoop decrypt err res).1.filter fun t => t.2 ≠ "").map (fun t => ((t.1.user, t.1.device), t.2)) = wanted decrypt res := by
  induction res with
  | nil => intro err; exact ⟨rfl, rfl⟩
  | cons r rs ih =>
    intro err
    have hlast : ∀ (b : Bool), (decrypt r.enc).isNone = b → (match rs.getLast? with | none => b | some r => (decrypt r.enc).isNone) =
        match (r :: rs).getLast? with | none => err | some r => (decrypt r.enc).isNone := by
      intro b hb
      cases rs with
      | nil => simp [hb]
      | cons a as =>
        rw [List.getLast?_cons_cons]
        cases h : (a :: as).getLast? with
        | none => simp at h
        | some x => rfl
    cases hd : decrypt r.enc with
    | none =>
      obtain ⟨h1, h2⟩ := ih true
      have hw : want decrypt r = none := by simp [want, hd]
      simp only [decryptLoop, hd]
      refine ⟨by rw [h1]; exact hlast true (by simp [hd]), ?_⟩
      rw [wanted, List.filterMap_cons, hw]
      simpa [wanted] using h2
    | some t =>
      obtain ⟨h1, h2⟩ := ih false
      simp only [decryptLoop, hd]
      refine ⟨by rw [h1]; exact hlast false (by simp [hd]), ?_⟩
      by_cases ht : t = ""
      · have hw : want decrypt r = none := by simp [want, hd, ht]
        rw [wanted, List.filterMap_cons, hw]
        subst ht; simpa [wanted] using h2
      · have hw : want decrypt r = some ((r.user, r.device), t) := by simp [want, hd, ht]
        rw [wanted, List.filterMap_cons, hw]
        simp only [ht, ne_eq, not_false_eq_true, List.filter_cons, decide_true, if_true, List.map_cons]
        congr 1

/-- **C72, what happens.** If the token of the last device of the query can be decrypted, exactly the rows with
a readable token get a poller; if not, no device at all gets one. -/
theorem C72_exact (decrypt : String → Option String) (res : List Stored) :
    startPollers decrypt res = match res.getLast? with
      | none => []
      | some r => if (decrypt r.enc).isNone then [] else wanted decrypt res := by
  obtain ⟨h1, h2⟩ := decryptLoop_spec decrypt res false
  unfold startPollers tokenForEachDevice
  simp only [h1]
  cases hl : res.getLast? with
  | none =>
    have : res = [] := List.getLast?_eq_none_iff.1 hl
    subst this; rfl
  | some r =>
    by_cases hd : (decrypt r.enc).isNone = true
    · simp only [hd, if_true]
    · simp only [hd, Bool.false_eq_true, if_false]; exact h2

def exRows : List Stored := [⟨"@a", "D", "good", 1⟩, ⟨"@b", "E", "bad", 2⟩]
def exDecrypt (s : String) : Option String := if s = "good" then some "tok" else none

/-- One unreadable token, of the last device, and no poller is started, neither is the expiry of old ones. -/
theorem C72_violated : ¬ C72_full ∧ startPollers exDecrypt exRows = [] ∧ wanted exDecrypt exRows = [(("@a", "D"), "tok")] := by
  refine ⟨fun h => ?_, by decide, by decide⟩
  exact absurd (h exDecrypt exRows) (by decide)

theorem wanted_sublist (decrypt : String → Option String) (res : List Stored) :
    ((wanted decrypt res).map (·.1)).Sublist (res.map fun r => (r.user, r.device)) := by
  induction res with
  | nil => exact List.Sublist.refl _
  | cons r rs ih =>
    rw [wanted, List.filterMap_cons, List.map_cons]
    cases hw : want decrypt r with
    | none => exact ih.cons _
    | some x =>
      have hx : x.1 = (r.user, r.device) := by
        unfold want at hw
        cases hd : decrypt r.enc with
        | none => rw [hd] at hw; cases hw
        | some t =>
          rw [hd] at hw
          simp only at hw
          split at hw
          · cases hw; rfl
          · cases hw
      simp only [List.map_cons, hx]
      exact ih.cons_cons _

/-- **C72, partial.** If the last row can be read, each device whose latest token can be read gets one poller
with it, and no other device gets one.  Missing: the case that the last row cannot be read, for which it is
false. -/
theorem C72_partial (decrypt : String → Option String) (rows : List Stored) (devices : List (String × String)) (res : List Stored)
    (hq : Query rows devices res) (r : Stored) (hl : res.getLast? = some r) (hr : (decrypt r.enc).isSome) :
    ((startPollers decrypt res).map (·.1)).Nodup ∧
    ∀ d t, (d, t) ∈ startPollers decrypt res ↔
      ∃ q ∈ res, (q.user, q.device) = d ∧ decrypt q.enc = some t ∧ t ≠ "" ∧ d ∈ devices ∧
        ∀ q' ∈ rows, (q'.user, q'.device) = d → q'.lastSeen ≤ q.lastSeen := by
  have he := C72_exact decrypt res
  rw [hl] at he
  simp only at he
  rw [if_neg (by cases h : decrypt r.enc <;> simp_all)] at he
  rw [he]
  constructor
  · have : ((wanted decrypt res).map (·.1)).Sublist (res.map fun r => (r.user, r.device)) := by
      exact wanted_sublist decrypt res
    exact this.nodup hq.one
  · intro d t
    simp only [wanted, want, List.mem_filterMap]
    constructor
    · rintro ⟨q, hqm, h⟩
      cases hd : decrypt q.enc with
      | none => rw [hd] at h; cases h
      | some x =>
        rw [hd] at h
        simp only at h
        split at h
        · rename_i hx
          cases h
          exact ⟨q, hqm, rfl, hd, hx, (hq.mem q hqm).2, fun q' hq' heq => hq.latest q hqm q' hq' heq⟩
        · cases h
    · rintro ⟨q, hqm, rfl, hd, ht, _⟩
      exact ⟨q, hqm, by simp [hd, ht]⟩

example : Query (exRows.reverse) [("@b", "E"), ("@a", "D")] exRows.reverse ∧ exRows.reverse.getLast? = some ⟨"@a", "D", "good", 1⟩ ∧
    (exDecrypt "good").isSome := by
  refine ⟨⟨?_, ?_, ?_, ?_⟩, rfl, rfl⟩ <;> decide

end Verif.Tokens
