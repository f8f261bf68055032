import Verif.PollRequest
import Verif.EnsurePoller
import Verif.Util
/-!
# C158: a poller starts with the token and the position of its device
-/
namespace Verif.PollRequest
open Verif

/-! ## Specification: what the history says -/

def asToken (hash : String) : Op → Option Tok
  | .identify h t => if h = hash then some t else none
  | _ => none

/-- Who a token belongs to: the first answer about it since it was last deleted. -/
def owner (ops : List Op) (hash : String) : Option Tok :=
  (ops.reverse.takeWhile fun o => decide (o ≠ .delete hash)).reverse.findSome? (asToken hash)

def names (d : String × String) : Op → Bool
  | .identify _ t => decide ((t.user, t.device) = d)
  | _ => false

def asSince (d : String × String) : Op → Option String
  | .since u v x => if (u, v) = d then some x else none
  | _ => none

/-- The operations from the first that names the device on. -/
def known (ops : List Op) (d : String × String) : List Op := ops.dropWhile fun o => !names d o

/-- The position stored last since the device is known; the empty one if there is none. -/
def position (ops : List Op) (d : String × String) : String := ((known ops d).reverse.findSome? (asSince d)).getD ""

/-! ## The tables -/

theorem run_snoc (ops : List Op) (o : Op) : run (ops ++ [o]) = step (run ops) o := by
  unfold run; rw [List.foldl_append]; rfl

theorem get_insertNew {κ ν : Type} [DecidableEq κ] (m : List (κ × ν)) (k q : κ) (v : ν) :
    Assoc.get (insertNew m k v) q = (Assoc.get m q).or (if k = q then some v else none) := by
  unfold insertNew
  cases h : Assoc.get m k with
  | some x =>
    by_cases e : k = q
    · subst e; simp [h]
    · simp [e]
  | none =>
    show Assoc.get (m ++ [(k, v)]) q = _
    rw [Assoc.get_append]
    congr 1
    by_cases e : k = q
    · subst e; simp [Assoc.get]
    · simp [Assoc.get, e]

theorem get_since (m : List ((String × String) × String)) (d q : String × String) (x : String) :
    Assoc.get (m.map fun r => if r.1 = d then (r.1, x) else r) q = (Assoc.get m q).map fun v => if d = q then x else v := by
  induction m with
  | nil => rfl
  | cons e m ih =>
    unfold Assoc.get at ih ⊢
    by_cases hq : e.1 = q
    · subst hq
      by_cases hd : e.1 = d
      · simp [hd]
      · have hd' : ¬ d = e.1 := fun h => hd h.symm
        simp [hd, hd']
    · rw [List.map_cons, List.find?_cons_of_neg (by split <;> simpa using hq), ih, List.find?_cons_of_neg (by simpa using hq)]

theorem owner_snoc (ops : List Op) (o : Op) (hash : String) :
    owner (ops ++ [o]) hash = if o = .delete hash then none else (owner ops hash).or (asToken hash o) := by
  unfold owner
  rw [List.reverse_append, List.reverse_singleton, List.singleton_append]
  by_cases h : o = .delete hash
  · rw [if_pos h, List.takeWhile_cons_of_neg (by simp [h])]; rfl
  · rw [if_neg h, List.takeWhile_cons_of_pos (by simp [h]), List.reverse_cons, List.findSome?_append]
    congr 1
    cases e : asToken hash o <;> simp [e]

theorem toks_spec (ops : List Op) (hash : String) : Assoc.get (run ops).toks hash = owner ops hash := by
  induction ops using Verif.Util.snocRec with
  | nil => rfl
  | append_singleton ops o ih =>
    rw [run_snoc, owner_snoc, ← ih]
    cases o with
    | identify h t => rw [if_neg (by simp)]; exact get_insertNew _ _ _ _
    | since u d x => rw [if_neg (by simp)]; exact (Option.or_none).symm
    | delete h =>
      show Assoc.get (Assoc.del _ h) hash = _
      rw [Assoc.get_del]
      by_cases e : hash = h
      · subst e; simp
      · have e' : ¬ h = hash := fun x => e x.symm
        rw [if_neg e, if_neg (by simp [e'])]
        exact (Option.or_none).symm

theorem known_snoc (ops : List Op) (o : Op) (d : String × String) :
    known (ops ++ [o]) d = if (known ops d).isEmpty then (if names d o then [o] else []) else known ops d ++ [o] := by
  unfold known
  rw [List.dropWhile_append]
  congr 1
  cases h : names d o <;> simp [h]

theorem devs_spec (ops : List Op) (d : String × String) :
    Assoc.get (run ops).devs d = if (known ops d).isEmpty then none else some (position ops d) := by
  induction ops using Verif.Util.snocRec with
  | nil => rfl
  | append_singleton ops o ih =>
    have hpos : position (ops ++ [o]) d = ((known (ops ++ [o]) d).reverse.findSome? (asSince d)).getD "" := rfl
    rw [run_snoc, hpos, known_snoc]
    cases hk : (known ops d).isEmpty with
    | true =>
      rw [hk] at ih
      have ih : Assoc.get (run ops).devs d = none := ih
      cases o with
      | identify h t =>
        show Assoc.get (insertNew _ _ _) d = _
        rw [get_insertNew, ih]
        by_cases e : (t.user, t.device) = d
        · simp [names, e, asSince]
        · simp [names, e]
      | since u v x =>
        show Assoc.get (List.map _ _) d = _
        rw [get_since, ih]; simp [names]
      | delete h =>
        show Assoc.get (run ops).devs d = _
        rw [ih]; simp [names]
    | false =>
      rw [hk] at ih
      have ih : Assoc.get (run ops).devs d = some (position ops d) := ih
      have hp : position ops d = ((known ops d).reverse.findSome? (asSince d)).getD "" := rfl
      cases o with
      | identify h t =>
        show Assoc.get (insertNew _ _ _) d = _
        rw [get_insertNew, ih, hp]
        simp [List.findSome?_cons, asSince]
      | since u v x =>
        show Assoc.get (List.map _ _) d = _
        rw [get_since, ih, hp]
        by_cases e : (u, v) = d
        · simp [asSince, e]
        · simp [asSince, e]
      | delete h =>
        show Assoc.get (run ops).devs d = _
        rw [ih, hp]
        simp [List.findSome?_cons, asSince]

/-- The device of a stored token is known. -/
theorem owner_known {ops : List Op} {hash : String} {t : Tok} (h : owner ops hash = some t) : (known ops (t.user, t.device)).isEmpty = false := by
  induction ops using Verif.Util.snocRec with
  | nil => cases h
  | append_singleton ops o ih =>
    rw [owner_snoc] at h
    rw [known_snoc]
    split at h
    · cases h
    · cases ho : owner ops hash with
      | some t' =>
        rw [ho] at h
        have e : some t' = some t := h
        rw [ih (ho.trans e)]
        simp
      | none =>
        rw [ho] at h
        have e : asToken hash o = some t := h
        have hn : names (t.user, t.device) o = true := by
          cases o with
          | identify h' t' =>
            by_cases hh : h' = hash
            · have e : some t' = some t := (if_pos hh).symm.trans e
              cases e; simp [names]
            · have e : none = some t := (if_neg hh).symm.trans e
              cases e
          | since u v x => cases e
          | delete h' => cases e
        rw [hn]
        cases (known ops (t.user, t.device)).isEmpty <;> simp

/-- C158: exactly when a poller is started, and with what: the token must belong to the device that asks and be readable; the poller gets that
token and the position stored last for that device. -/
theorem C158_exact (decrypt : String → Option String) (ops : List Op) (user device hash : String)
    (p : (String × String) × String × String) :
    ensurePolling decrypt (run ops) user device hash = some p ↔
      ∃ t a, owner ops hash = some t ∧ t.user = user ∧ t.device = device ∧ decrypt t.enc = some a ∧
        p = ((user, device), a, position ops (user, device)) := by
  unfold ensurePolling getTokenAndSince
  rw [toks_spec]
  cases ho : owner ops hash with
  | none => simp
  | some t =>
    dsimp only
    rw [devs_spec, owner_known ho]
    simp only [Bool.false_eq_true, if_false]
    by_cases hu : t.user = user ∧ t.device = device
    · obtain ⟨rfl, rfl⟩ := hu
      cases hd : decrypt t.enc with
      | none => simp [hd]
      | some a => simp [hd, eq_comm]
    · have hne : t.user ≠ user ∨ t.device ≠ device := by
        by_cases e : t.user = user
        · exact .inr fun e' => hu ⟨e, e'⟩
        · exact .inl e
      simp only [if_pos hne, Option.map_none]
      constructor
      · intro h; cases h
      · rintro ⟨t', a, e, h1, h2, -⟩
        cases e
        exact absurd ⟨h1, h2⟩ hu

theorem owner_append {ops : List Op} {hash : String} {t : Tok} (h : owner ops hash = some t) (rest : List Op) (hd : .delete hash ∉ rest) :
    owner (ops ++ rest) hash = some t := by
  induction rest using Verif.Util.snocRec with
  | nil => rw [List.append_nil]; exact h
  | append_singleton rest o ih =>
    rw [← List.append_assoc, owner_snoc, ih fun hm => hd (List.mem_append_left _ hm), if_neg]
    · rfl
    · rintro rfl; exact hd (by simp)

/-- C158 (partial): a request with a token identified as the device's is answered, whatever other requests and pollers do meanwhile, if the
token is not deleted before the request to poll is read. Missing: the token is deleted in between (`C158_violated`). -/
theorem C158_answered_partial (decrypt : String → Option String) (ops rest : List Op) (hash : String) (t : Tok) (a : String)
    (hnew : ∀ t', owner ops hash = some t' → t' = t) (hdec : decrypt t.enc = some a) (hd : .delete hash ∉ rest) :
    ensurePolling decrypt (run (ops ++ .identify hash t :: rest)) t.user t.device hash =
      some ((t.user, t.device), a, position (ops ++ .identify hash t :: rest) (t.user, t.device)) := by
  refine (C158_exact ..).2 ⟨t, a, ?_, rfl, rfl, hdec, rfl⟩
  have h0 : owner (ops ++ [.identify hash t]) hash = some t := by
    rw [owner_snoc, if_neg (by simp)]
    cases ho : owner ops hash with
    | some t' => rw [hnew t' ho]; rfl
    | none => simp [asToken]
  have := owner_append h0 rest hd
  rwa [List.append_assoc] at this

/-- C158 is violated: a poller of the device finds the token refused and deletes it after the request has been identified and before the
request to poll is read. No poller is started, and no answer is sent: those who wait for one go on waiting. -/
theorem C158_violated : ∃ (decrypt : String → Option String) (ops rest : List Op) (hash : String) (t : Tok),
    (∀ t', owner ops hash = some t' → t' = t) ∧ (decrypt t.enc).isSome ∧
    ensurePolling decrypt (run (ops ++ .identify hash t :: rest)) t.user t.device hash = none :=
  ⟨some, [], [.delete "h"], "h", ⟨"@u", "D", "e"⟩, fun _ h => (by cases h), rfl, by decide⟩

/-- C158, what no answer means on the client's side (`EnsurePoller`): after a request to poll that is never answered, with no token reported
as expired from then on, every caller for the device waits, and the pollers are not asked again, however many callers come. -/
theorem C158_blocked (id : Nat) (more : List EnsurePoller.Op)
    (hm : ∀ o ∈ more, (∃ i, o = .call i) ∨ ∃ i, o = .wake i) :
    ∃ s, EnsurePoller.run {} (.call id :: more) = some s ∧ s.told = [] ∧ s.notified = 1 ∧
      s.waiting.map (·.1) = id :: more.filterMap fun o => match o with | .call i => some i | _ => none := by
  suffices h : ∀ (more : List EnsurePoller.Op) (s : EnsurePoller.State), (∀ o ∈ more, (∃ i, o = .call i) ∨ ∃ i, o = .wake i) →
      s.entry = some ⟨false, false, some 0⟩ → s.closed = [] → s.told = [] → s.notified = 1 →
      ∃ s', EnsurePoller.run s more = some s' ∧ s'.told = [] ∧ s'.notified = 1 ∧
        s'.waiting.map (·.1) = s.waiting.map (·.1) ++ more.filterMap fun o => match o with | .call i => some i | _ => none by
    obtain ⟨s', h1, h2, h3, h4⟩ := h more { entry := some ⟨false, false, some 0⟩, nextCh := 1, waiting := [(id, 0)], notified := 1 } hm rfl rfl rfl rfl
    exact ⟨s', h1, h2, h3, h4⟩
  intro more
  induction more with
  | nil => intro s _ _ _ ht hn; exact ⟨s, rfl, ht, hn, by simp⟩
  | cons o more ih =>
    intro s hm he hc ht hn
    have hm' : ∀ o ∈ more, (∃ i, o = .call i) ∨ ∃ i, o = .wake i := fun o ho => hm o (List.mem_cons_of_mem _ ho)
    rcases hm o List.mem_cons_self with ⟨i, rfl⟩ | ⟨i, rfl⟩
    · have hs : EnsurePoller.step s (.call i) = some { s with waiting := s.waiting ++ [(i, 0)] } := by
        simp [EnsurePoller.step, EnsurePoller.call, EnsurePoller.waitOrStart, he]
      obtain ⟨s', h1, h2, h3, h4⟩ := ih { s with waiting := s.waiting ++ [(i, 0)] } hm' he hc ht hn
      refine ⟨s', ?_, h2, h3, ?_⟩
      · show (EnsurePoller.step s (.call i)).bind _ = _
        rw [hs]; exact h1
      · rw [h4]; simp
    · have hs : EnsurePoller.step s (.wake i) = some s := by
        cases s
        simp only at hc ht
        subst hc ht
        simp [EnsurePoller.step, EnsurePoller.wake]
      obtain ⟨s', h1, h2, h3, h4⟩ := ih s hm' he hc ht hn
      refine ⟨s', ?_, h2, h3, ?_⟩
      · show (EnsurePoller.step s (.wake i)).bind _ = _
        rw [hs]; exact h1
      · rw [h4]; simp

/-- The state while a request to poll is not answered. -/
theorem blocked_state : ∀ (more : List EnsurePoller.Op) (W : List (Nat × Nat)), (∀ w ∈ W, w.2 = 0) →
    (∀ o ∈ more, (∃ i, o = .call i) ∨ ∃ i, o = .wake i) →
    ∃ W', (∀ w ∈ W', w.2 = 0) ∧
      EnsurePoller.run { entry := some ⟨false, false, some 0⟩, nextCh := 1, waiting := W, notified := 1 } more =
        some { entry := some ⟨false, false, some 0⟩, nextCh := 1, waiting := W', notified := 1 }
  | [], W, hW, _ => ⟨W, hW, rfl⟩
  | o :: more, W, hW, hm => by
    have hm' : ∀ o ∈ more, (∃ i, o = .call i) ∨ ∃ i, o = .wake i := fun o ho => hm o (List.mem_cons_of_mem _ ho)
    rcases hm o List.mem_cons_self with ⟨i, rfl⟩ | ⟨i, rfl⟩
    · obtain ⟨W', h1, h2⟩ := blocked_state more (W ++ [(i, 0)]) (by
        intro w hw
        rcases List.mem_append.1 hw with hw | hw
        · exact hW w hw
        · rw [List.mem_singleton.1 hw]) hm'
      exact ⟨W', h1, h2⟩
    · obtain ⟨W', h1, h2⟩ := blocked_state more W hW hm'
      refine ⟨W', h1, ?_⟩
      rw [← h2]
      have t : W.filter (fun _ => true) = W := List.filter_eq_self.2 fun _ _ => rfl
      have f : W.filter (fun _ => false) = [] := List.filter_eq_nil_iff.2 fun _ _ => by simp
      simp [EnsurePoller.run, EnsurePoller.step, EnsurePoller.wake, t, f]

theorem run_append (s : EnsurePoller.State) (a b : List EnsurePoller.Op) :
    EnsurePoller.run s (a ++ b) = (EnsurePoller.run s a).bind fun s' => EnsurePoller.run s' b := by
  induction a generalizing s with
  | nil => rfl
  | cons o a ih =>
    show (EnsurePoller.step s o).bind (fun s' => EnsurePoller.run s' (a ++ b)) = ((EnsurePoller.step s o).bind fun s' => EnsurePoller.run s' a).bind _
    cases EnsurePoller.step s o with
    | none => rfl
    | some s' => exact ih s'

/-- C158, how the waiting ends: when a token of the device is reported as expired, the next caller releases all who wait and asks the pollers
again. -/
theorem C158_recovers (id j : Nat) (more : List EnsurePoller.Op) (hm : ∀ o ∈ more, (∃ i, o = .call i) ∨ ∃ i, o = .wake i) :
    ∃ s, EnsurePoller.run {} (.call id :: more ++ [.expire, .call j]) = some s ∧ s.notified = 2 ∧
      ∃ c, c ∉ s.closed ∧ (j, c) ∈ s.waiting ∧ ∀ w ∈ s.waiting, w = (j, c) ∨ w.2 ∈ s.closed := by
  obtain ⟨W, hW, h⟩ := blocked_state more [(id, 0)] (by simp) hm
  refine ⟨{ entry := some ⟨false, false, some 1⟩, closed := [0], nextCh := 2, waiting := W ++ [(j, 1)], notified := 2 }, ?_, rfl,
    1, by simp, by simp, ?_⟩
  · have h : EnsurePoller.run {} (.call id :: more) = _ := h
    rw [run_append, h]
    rfl
  · intro w hw
    rcases List.mem_append.1 hw with hw | hw
    · exact .inr (by simp [hW w hw])
    · exact .inl (List.mem_singleton.1 hw)

/-- The hypothesis of both is met. -/
example : ∀ o ∈ [EnsurePoller.Op.call 2, .wake 1, .call 3], (∃ i, o = .call i) ∨ ∃ i, o = .wake i := by
  intro o ho
  simp only [List.mem_cons, List.not_mem_nil, or_false] at ho
  rcases ho with rfl | rfl | rfl
  · exact .inl ⟨_, rfl⟩
  · exact .inr ⟨_, rfl⟩
  · exact .inl ⟨_, rfl⟩

/-- The hypotheses are met: a second token of the device starts with the position stored with the first, not with that of another device. -/
example : let ops := [Op.identify "h1" ⟨"@u", "D", "e1"⟩, .since "@u" "D" "s1", .identify "h3" ⟨"@u", "E", "e3"⟩, .since "@u" "E" "s9", .delete "h1"]
    let rest := [Op.since "@u" "D" "s2", .delete "h3"]
    owner ops "h2" = none ∧ .delete "h2" ∉ rest ∧
    ensurePolling some (run (ops ++ .identify "h2" ⟨"@u", "D", "e2"⟩ :: rest)) "@u" "D" "h2" = some (("@u", "D"), "e2", "s2") ∧
    ensurePolling some (run (ops ++ .identify "h2" ⟨"@u", "D", "e2"⟩ :: rest)) "@u" "E" "h2" = none := by
  decide

end Verif.PollRequest
