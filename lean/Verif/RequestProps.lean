import Verif.Request
/-! # C11-C14 and C62: sticky parameters, subscriptions, required state -/
namespace Verif.Request

/-! ## C11: specification -/

/-- What the requests said about a list since it was (last) created: `none` if the
list does not exist. A request creates a missing list by naming it, and removes
an existing one by marking it deleted. -/
def life (key : String) (reqs : List Req) : Option (List RList) :=
  reqs.foldl (fun (cur : Option (List RList)) r =>
    match r.lists key, cur with
    | none, c => c
    | some l, none => some [l]
    | some l, some ls => if l.deleted then none else some (ls ++ [l])) none

/-- The last value that was given. -/
def lastGiven {α} : List (Option α) → Option α
  | [] => none
  | x :: xs =>
    match lastGiven xs with
    | some y => some y
    | none => x

/-- A sort order as given in the request that creates the list: missing or empty
means by recency. -/
def creationSort (s : Option (List String)) : Option (List String) :=
  if s = none ∨ s = some [] then some ["by_recency"] else s

/-- The list parameters in force, given what was said since the creation. -/
structure InForce (said : List RList) (l : RList) : Prop where
  ranges : l.ranges = lastGiven (said.map (·.ranges))
  filters : l.filters = lastGiven (said.map (·.filters))
  reqState : l.reqState = lastGiven (said.map (·.reqState))
  old : l.old = lastGiven (said.map (·.old))
  getAll : l.getAll = lastGiven (said.map (·.getAll))
  bump : l.bump = lastGiven (said.map (·.bump))
  heroes : l.heroes = lastGiven (said.map (·.heroes))
  /-- a timeline limit of 0 counts as not given -/
  limit : l.limit = (lastGiven (said.map fun x => if x.limit = 0 then none else some x.limit)).getD 0
  sort : ∃ first rest, said = first :: rest ∧
    l.sort = lastGiven (creationSort first.sort :: rest.map (·.sort))

theorem lastGiven_append {α} (xs : List (Option α)) (x : Option α) :
    lastGiven (xs ++ [x]) = orElse x (lastGiven xs) := by
  induction xs with
  | nil => cases x <;> simp [lastGiven, orElse]
  | cons y ys ih =>
    simp only [List.cons_append, lastGiven, ih]
    cases x with
    | some x => simp [orElse]
    | none => simp [orElse]

theorem muxed_append (reqs : List Req) (r : Req) : muxed (reqs ++ [r]) = (applyDelta (muxed reqs) r).1 := by
  simp [muxed]

theorem life_append (key : String) (reqs : List Req) (r : Req) :
    life key (reqs ++ [r]) = (match r.lists key, life key reqs with
      | none, c => c
      | some l, none => some [l]
      | some l, some ls => if l.deleted then none else some (ls ++ [l])) := by
  simp [life]

/-- C11. After any sequence of requests a list exists iff some request created it and
none deleted it since, and then each parameter is the last one given since the
creation. -/
theorem C11_sticky (reqs : List Req) (key : String) :
    match life key reqs with
    | none => (muxed reqs).lists key = none
    | some said => ∃ l, (muxed reqs).lists key = some l ∧ InForce said l := by
  induction reqs using Verif.Util.snocRec with
  | nil => simp [life, muxed]
  | append_singleton reqs r ih =>
    rw [life_append, muxed_append]
    have happ : (applyDelta (muxed reqs) r).1.lists key = applyList ((muxed reqs).lists key) (r.lists key) := rfl
    rw [happ]
    cases hr : r.lists key with
    | none =>
      simp only [applyList]
      exact ih
    | some n =>
      cases hl : life key reqs with
      | none =>
        rw [hl] at ih
        simp only at ih
        simp only [ih, applyList]
        split
        · rename_i h0
          have hs : n.sort = none ∨ n.sort = some [] := by
            cases hs : n.sort with
            | none => exact Or.inl rfl
            | some l => rw [hs] at h0; simp at h0; simp [h0]
          refine ⟨_, rfl, ?_⟩
          constructor
          all_goals first
            | (simp [lastGiven]; done)
            | skip
          · simp only [List.map_cons, List.map_nil, lastGiven]
            by_cases h : n.limit = 0 <;> simp [h]
          · exact ⟨n, [], rfl, by simp [lastGiven, creationSort, hs]⟩
        · rename_i h0
          have hs : ¬ (n.sort = none ∨ n.sort = some []) := by
            rintro (h | h) <;> rw [h] at h0 <;> simp at h0
          refine ⟨_, rfl, ?_⟩
          constructor
          all_goals first
            | (simp [lastGiven]; done)
            | skip
          · simp only [List.map_cons, List.map_nil, lastGiven]
            by_cases h : n.limit = 0 <;> simp [h]
          · exact ⟨n, [], rfl, by simp [lastGiven, creationSort, hs]⟩
      | some said =>
        rw [hl] at ih
        simp only at ih
        obtain ⟨l, h1, h2⟩ := ih
        rw [h1]
        simp only [applyList]
        cases hd : n.deleted with
        | true => simp
        | false =>
          simp only [Bool.false_eq_true, if_false]
          refine ⟨_, rfl, ?_⟩
          obtain ⟨first, rest, e, hsort⟩ := h2.sort
          constructor
          · simp only [mergeList, List.map_append, List.map_cons, List.map_nil, lastGiven_append, ← h2.ranges]
          · simp only [mergeList, List.map_append, List.map_cons, List.map_nil, lastGiven_append, ← h2.filters]
          · simp only [mergeList, List.map_append, List.map_cons, List.map_nil, lastGiven_append, ← h2.reqState]
          · simp only [mergeList, List.map_append, List.map_cons, List.map_nil, lastGiven_append, ← h2.old]
          · simp only [mergeList, List.map_append, List.map_cons, List.map_nil, lastGiven_append, ← h2.getAll]
          · simp only [mergeList, List.map_append, List.map_cons, List.map_nil, lastGiven_append, ← h2.bump]
          · simp only [mergeList, List.map_append, List.map_cons, List.map_nil, lastGiven_append, ← h2.heroes]
          · simp only [mergeList, List.map_append, List.map_cons, List.map_nil, lastGiven_append]
            by_cases h : n.limit = 0
            · simp [h, orElse, h2.limit]
            · simp [h, orElse]
          · refine ⟨first, rest ++ [n], by simp [e], ?_⟩
            have : creationSort first.sort :: (rest ++ [n]).map (·.sort)
                = (creationSort first.sort :: rest.map (·.sort)) ++ [n.sort] := by simp
            rw [this, lastGiven_append, ← hsort]
            rfl

/-- A list created, then partly changed, then deleted and created again. -/
example :
    let mk (l : RList) : Req := { lists := fun k => if k = "a" then some l else none }
    let r1 := mk { ranges := some [(0, 9)], limit := 5 }
    let r2 := mk { ranges := some [(0, 19)] }
    let r3 := mk { deleted := true }
    ((muxed [r1, r2, {}]).lists "a") = some { ranges := some [(0, 19)], limit := 5, sort := some ["by_recency"] } ∧
    ((muxed [r1, r2, r3]).lists "a") = none ∧
    ((muxed [r1, r2, r3, r2]).lists "a") = some { ranges := some [(0, 19)], sort := some ["by_recency"] } := by
  decide +kernel

/-! ## C12 -/

/-- The request mentions the room. -/
def mentions (r : Req) (room : String) : Prop := r.subs room ≠ none ∨ room ∈ r.unsubs

/-- The subscription the last request that mentioned the room asked for. -/
def lastAsked (room : String) (reqs : List Req) : Option Sub :=
  reqs.foldl (fun cur r => if room ∈ r.unsubs then none else
    match r.subs room with
    | some s => some s
    | none => cur) none

theorem unsubLoop_fst (skip : String → Bool) (us : List String) (p : (String → Option Sub) × List String) (room : String) :
    (unsubLoop skip us p).1 room = if room ∈ us then none else p.1 room := by
  induction us generalizing p with
  | nil => simp [unsubLoop]
  | cons u us ih =>
    simp only [unsubLoop, ih, del]
    by_cases h : room ∈ us
    · simp [h]
    · by_cases e : room = u
      · simp [h, e]
      · simp [h, e]

theorem unsubLoop_snd (skip : String → Bool) (us : List String) (p : (String → Option Sub) × List String) (room : String) :
    room ∈ (unsubLoop skip us p).2 ↔ room ∈ p.2 ∨ (room ∈ us ∧ (p.1 room).isSome = true ∧ skip room = false) := by
  induction us generalizing p with
  | nil => simp [unsubLoop]
  | cons u us ih =>
    simp only [unsubLoop, ih, del]
    by_cases e : room = u
    · subst e
      by_cases h : (p.1 room).isSome = true <;> cases hs : skip room <;> simp [h]
    · have hne : u ≠ room := fun x => e x.symm
      split <;> simp [e]

theorem muxed_unsubs (reqs : List Req) : (muxed reqs).unsubs = [] := by
  induction reqs using Verif.Util.snocRec with
  | nil => rfl
  | append_singleton reqs r _ => rw [muxed_append]; rfl

theorem applyDelta_subs (r next : Req) (hu : r.unsubs = []) (room : String) :
    (applyDelta r next).1.subs room = if room ∈ next.unsubs then none else
      match next.subs room with
      | some s => some s
      | none => r.subs room := by
  simp only [applyDelta, hu, unsubLoop, unsubLoop_fst]
  split
  · rfl
  · cases next.subs room <;> rfl

theorem applyDelta_unsubs (r next : Req) (hu : r.unsubs = []) (room : String) :
    room ∈ (applyDelta r next).2.unsubs ↔ room ∈ next.unsubs ∧ next.subs room = none ∧ (r.subs room).isSome = true := by
  simp only [applyDelta, hu, unsubLoop, unsubLoop_snd]
  cases h : next.subs room <;> simp

/-- C12, the parameters: after any sequence of requests, the subscription in force for
a room is the one given by the last request that mentioned it, and there is none
if that request unsubscribed from it (even if it also subscribed). -/
theorem C12_subscription (reqs : List Req) (room : String) :
    (muxed reqs).subs room = lastAsked room reqs := by
  induction reqs using Verif.Util.snocRec with
  | nil => rfl
  | append_singleton reqs r ih =>
    rw [muxed_append, applyDelta_subs _ _ (muxed_unsubs reqs), ih]
    simp [lastAsked]

theorem requiredStateChanged_iff (a b : Base) :
    requiredStateChanged a b = false ↔ a.reqState.getD [] = b.reqState.getD [] := by
  unfold requiredStateChanged
  simp only
  generalize a.reqState.getD [] = x
  generalize b.reqState.getD [] = y
  split
  · rename_i h
    constructor
    · intro hh; cases hh
    · intro e; rw [e] at h; exact absurd rfl h
  · rename_i h
    replace h : x.length = y.length := Classical.byContradiction h
    induction x generalizing y with
    | nil => cases y <;> simp_all
    | cons a x ih =>
      cases y with
      | nil => simp at h
      | cons b y =>
        simp only [List.length_cons, Nat.add_right_cancel_iff] at h
        simp only [List.zip_cons_cons, List.any_cons, Bool.or_eq_false_iff, List.cons.injEq]
        have ih := ih y h
        constructor
        · rintro ⟨h1, h2⟩; exact ⟨by simpa using h1, ih.1 h2⟩
        · rintro ⟨h1, h2⟩; exact ⟨by simpa using h1, ih.2 h2⟩

/-- C12, announcements: a room is announced as newly subscribed by a request exactly
when it is subscribed afterwards and either was not before, or its required state
or timeline limit changed. -/
theorem C12_announced (reqs : List Req) (r : Req) (room : String) :
    (applyDelta (muxed reqs) r).2.subs room = true ↔
      ∃ new, lastAsked room (reqs ++ [r]) = some new ∧
        (lastAsked room reqs = none ∨ ∃ old, lastAsked room reqs = some old ∧
          (old.reqState.getD [] ≠ new.reqState.getD [] ∨ old.limit ≠ new.limit)) := by
  have h1 : (applyDelta (muxed reqs) r).2.subs room
      = announced (muxed reqs).subs (applyDelta (muxed reqs) r).1.subs room := rfl
  rw [h1, ← C12_subscription, ← C12_subscription, muxed_append]
  unfold announced
  cases hn : (applyDelta (muxed reqs) r).1.subs room with
  | none => simp
  | some new =>
    cases ho : (muxed reqs).subs room with
    | none => simp
    | some old =>
      have := requiredStateChanged_iff old.toBase new.toBase
      simp only [Bool.or_eq_true, decide_eq_true_eq, Option.some.injEq, reduceCtorEq, false_or, exists_eq_left']
      constructor
      · rintro (h | h)
        · left; intro e; rw [this.2 e] at h; cases h
        · exact Or.inr h
      · rintro (h | h)
        · left
          cases hh : requiredStateChanged old.toBase new.toBase with
          | true => rfl
          | false => exact absurd (this.1 hh) h
        · exact Or.inr h

theorem active_append (reqs : List (Req × (String → Bool))) (x : Req × (String → Bool)) :
    active (reqs ++ [x]) = ((applyDelta (active reqs).1 x.1).1,
      activate x.2 (active reqs).2 (applyDelta (active reqs).1 x.1).1 (applyDelta (active reqs).1 x.1).2) := by
  simp [active]

theorem active_fst (reqs : List (Req × (String → Bool))) : (active reqs).1 = muxed (reqs.map (·.1)) := by
  induction reqs using Verif.Util.snocRec with
  | nil => rfl
  | append_singleton reqs x ih => rw [active_append, List.map_append, List.map_cons, List.map_nil, muxed_append, ← ih]

/-- C12 at the connection, partial: if no request both subscribes to and unsubscribes from
the room, a room that the last request mentioning it did not subscribe to has no
active subscription.  Missing: requests that do both (`C12_violated`). -/
theorem C12_active_partial (reqs : List (Req × (String → Bool))) (room : String)
    (hboth : ∀ x ∈ reqs, ¬ (room ∈ x.1.unsubs ∧ x.1.subs room ≠ none))
    (h : lastAsked room (reqs.map (·.1)) = none) : (active reqs).2 room = none := by
  induction reqs using Verif.Util.snocRec with
  | nil => rfl
  | append_singleton reqs x ih =>
    have ih := ih (fun y hy => hboth y (by simp [hy]))
    rw [active_append]
    simp only [activate]
    have hu : (active reqs).1.unsubs = [] := by rw [active_fst, muxed_unsubs]
    have hsub : (active reqs).1.subs room = lastAsked room (reqs.map (·.1)) := by
      rw [active_fst, C12_subscription]
    have hm : (applyDelta (active reqs).1 x.1).1.subs room = none := by
      rw [active_fst, ← muxed_append, C12_subscription]
      simpa using h
    have hx := hboth x (by simp)
    split
    · rfl
    · rename_i hnu
      have hns : (applyDelta (active reqs).1 x.1).2.subs room = false := by
        show announced (active reqs).1.subs (applyDelta (active reqs).1 x.1).1.subs room = false
        unfold announced
        rw [hm]
      rw [hns]
      simp only [Bool.false_and, Bool.false_eq_true, if_false]
      apply ih
      rw [← hsub]
      rw [applyDelta_unsubs _ _ hu] at hnu
      rw [applyDelta_subs _ _ hu] at hm
      split at hm
      · rename_i hin
        have hsn : x.1.subs room = none := by
          apply Classical.byContradiction
          intro hne; exact hx ⟨hin, hne⟩
        cases hs : (active reqs).1.subs room with
        | none => rfl
        | some s => exact absurd ⟨hin, hsn, by simp [hs]⟩ hnu
      · cases hs2 : x.1.subs room with
        | none => rw [hs2] at hm; exact hm
        | some s => rw [hs2] at hm; cases hm

/-- An active subscription was only ever made for a room the user was joined to when
some request was processed, and is one that a request asked for. -/
theorem C12_active_asked (reqs : List (Req × (String → Bool))) (room : String) (s : Sub)
    (h : (active reqs).2 room = some s) : ∃ x ∈ reqs, x.2 room = true ∧ ∃ y ∈ reqs, y.1.subs room = some s := by
  induction reqs using Verif.Util.snocRec with
  | nil => cases h
  | append_singleton reqs x ih =>
    rw [active_append] at h
    simp only [activate] at h
    have old : (active reqs).2 room = some s →
        ∃ z ∈ reqs ++ [x], z.2 room = true ∧ ∃ y ∈ reqs ++ [x], y.1.subs room = some s := by
      intro h'
      obtain ⟨z, hz, hj, y, hy, hs⟩ := ih h'
      exact ⟨z, by simp [hz], hj, y, by simp [hy], hs⟩
    split at h
    · cases h
    · split at h
      · rename_i hc
        simp only [Bool.and_eq_true] at hc
        split at h
        · rename_i s' hs'
          simp only [Option.some.injEq] at h
          subst h
          refine ⟨x, by simp, hc.2, ?_⟩
          have hs2 : lastAsked room ((reqs ++ [x]).map (·.1)) = some s' := by
            rw [← C12_subscription, List.map_append, List.map_cons, List.map_nil, muxed_append, ← active_fst]
            exact hs'
          clear hs' ih old hc
          generalize reqs ++ [x] = rs at hs2
          induction rs using Verif.Util.snocRec with
          | nil => cases hs2
          | append_singleton rs z ih =>
            simp only [List.map_append, List.map_cons, List.map_nil, lastAsked, List.foldl_append, List.foldl_cons,
              List.foldl_nil] at hs2
            split at hs2
            · cases hs2
            · split at hs2
              · rename_i s'' hz
                exact ⟨z, by simp, by rw [hz, hs2]⟩
              · obtain ⟨y, hy, hs⟩ := ih hs2
                exact ⟨y, by simp [hy], hs⟩
        · exact old h
      · exact old h

/-- C12 is violated at the connection: a request that both updates and removes an
existing subscription leaves it active although the parameters no longer contain it. -/
theorem C12_violated : ∃ (reqs : List (Req × (String → Bool))) (room : String),
    lastAsked room (reqs.map (·.1)) = none ∧ (active reqs).2 room ≠ none := by
  refine ⟨[({ subs := fun r => if r = "!a" then some {} else none }, fun _ => true),
           ({ subs := fun r => if r = "!a" then some {} else none, unsubs := ["!a"] }, fun _ => true)], "!a", ?_, ?_⟩ <;>
    decide +kernel

example :
    let r1 : Req := { subs := fun r => if r = "!a" then some { limit := 5 } else none }
    let r2 : Req := { subs := fun r => if r = "!a" then some { limit := 6 } else none }
    (muxed [r1, r2, {}]).subs "!a" = some { limit := 6 } ∧
    (applyDelta (muxed [r1]) r2).2.subs "!a" = true ∧ (applyDelta (muxed [r1]) r1).2.subs "!a" = false ∧
    (muxed [r1, r2, { unsubs := ["!a"] }]).subs "!a" = none ∧
    (active [(r1, fun _ => true), ({ unsubs := ["!a"] }, fun _ => true)]).2 "!a" = none := by
  decide +kernel

/-! ## C14: specification of required state -/

/-- An entry with `$ME` replaced. -/
def resolve (user : String) (t : String × String) : String × String := (t.1, if t.2 = "$ME" then user else t.2)

/-- An entry (other than `[*,*]`) matches an event. -/
def Matches (user : String) (e : String × String) (type key : String) : Prop :=
  (e.1 = "*" ∨ e.1 = type) ∧ ((resolve user e).2 = "*" ∨ (resolve user e).2 = key)

/-- The entry is `[*,*]`. -/
def AllState (e : String × String) : Prop := e = ("*", "*")

/-- With `[*,*]`, the entries with a plain type and key restrict their type. -/
def Restricts (user : String) (e : String × String) (type : String) : Prop :=
  e.1 = type ∧ e.1 ≠ "*" ∧ (resolve user e).2 ≠ "*"

/-- The meaning of `required_state`. -/
def Selects (user : String) (rs : List (String × String)) (type key : String) : Prop :=
  ((∀ e ∈ rs, ¬ AllState e) ∧ ∃ e ∈ rs, Matches user e type key) ∨
  ((∃ e ∈ rs, AllState e) ∧
    ((∀ e ∈ rs, ¬ Restricts user e type) ∨ ∃ e ∈ rs, Restricts user e type ∧ (resolve user e).2 = key))

structure RSMSpec (user : String) (rs : List (String × String)) (m : RSM) : Prop where
  all : m.allState = true ↔ ∃ e ∈ rs, e.1 = "*" ∧ (resolve user e).2 = "*"
  keysWild : ∀ k, k ∈ m.keysWild ↔ k ≠ "*" ∧ ∃ e ∈ rs, e.1 = "*" ∧ (resolve user e).2 = k
  typesWild : ∀ t, t ∈ m.typesWild ↔ t ≠ "*" ∧ ∃ e ∈ rs, e.1 = t ∧ (resolve user e).2 = "*"
  exact : ∀ t k, (t, k) ∈ m.exact ↔ t ≠ "*" ∧ k ≠ "*" ∧ ∃ e ∈ rs, e.1 = t ∧ (resolve user e).2 = k

theorem rsm_fold_spec (user : String) (rs : List (String × String)) : RSMSpec user rs (rs.foldl (rsmStep user) {}) := by
  induction rs using Verif.Util.snocRec with
  | nil => exact ⟨by simp, by simp, by simp, by simp⟩
  | append_singleton rs e ih =>
    rw [List.foldl_append]
    simp only [List.foldl_cons, List.foldl_nil]
    generalize hm : rs.foldl (rsmStep user) {} = m at ih
    obtain ⟨ih1, ih2, ih3, ih4⟩ := ih
    have hres : (if e.2 = "$ME" then user else e.2) = (resolve user e).2 := rfl
    unfold rsmStep
    simp only [hres]
    generalize hk : (resolve user e).2 = key
    split
    · rename_i ht
      split
      · rename_i hks
        refine ⟨?_, ?_, ?_, ?_⟩
        · simp only [List.mem_append, List.mem_singleton, true_iff]
          exact ⟨e, Or.inr rfl, ht, hk.trans hks⟩
        · intro k
          rw [ih2]
          simp only [List.mem_append, List.mem_singleton, or_and_right, exists_or, exists_eq_left, ht, hk, hks, true_and]
          constructor
          · rintro ⟨a, b⟩; exact ⟨a, Or.inl b⟩
          · rintro ⟨a, b | b⟩
            · exact ⟨a, b⟩
            · exact absurd b.symm a
        · intro t
          rw [ih3]
          simp only [List.mem_append, List.mem_singleton, or_and_right, exists_or, exists_eq_left, ht, hk, hks, and_true]
          constructor
          · rintro ⟨a, b⟩; exact ⟨a, Or.inl b⟩
          · rintro ⟨a, b | b⟩
            · exact ⟨a, b⟩
            · exact absurd b.symm a
        · intro t k
          rw [ih4]
          simp only [List.mem_append, List.mem_singleton, or_and_right, exists_or, exists_eq_left, ht, hk, hks]
          constructor
          · rintro ⟨a, b, c⟩; exact ⟨a, b, Or.inl c⟩
          · rintro ⟨a, b, c | c⟩
            · exact ⟨a, b, c⟩
            · exact absurd c.1.symm a
      · rename_i hks
        refine ⟨?_, ?_, ?_, ?_⟩
        · simp only [List.mem_append, List.mem_singleton, or_and_right, exists_or, exists_eq_left, ht, hk, hks, and_false,
            or_false]
          exact ih1
        · intro k
          simp only [List.mem_append, List.mem_singleton, or_and_right, exists_or, exists_eq_left, ht, hk, true_and]
          rw [ih2]
          constructor
          · rintro (⟨a, b⟩ | rfl)
            · exact ⟨a, Or.inl b⟩
            · exact ⟨hks, Or.inr rfl⟩
          · rintro ⟨a, b | b⟩
            · exact Or.inl ⟨a, b⟩
            · exact Or.inr b.symm
        · intro t
          rw [ih3]
          simp only [List.mem_append, List.mem_singleton, or_and_right, exists_or, exists_eq_left, ht, hk, hks, and_false,
            or_false]
        · intro t k
          rw [ih4]
          simp only [List.mem_append, List.mem_singleton, or_and_right, exists_or, exists_eq_left, ht, hk]
          constructor
          · rintro ⟨a, b, c⟩; exact ⟨a, b, Or.inl c⟩
          · rintro ⟨a, b, c | c⟩
            · exact ⟨a, b, c⟩
            · exact absurd c.1.symm a
    · rename_i ht
      split
      · rename_i hks
        refine ⟨?_, ?_, ?_, ?_⟩
        · simp only [List.mem_append, List.mem_singleton, or_and_right, exists_or, exists_eq_left, ht, false_and, or_false]
          exact ih1
        · intro k
          rw [ih2]
          simp only [List.mem_append, List.mem_singleton, or_and_right, exists_or, exists_eq_left, ht, false_and, or_false]
        · intro t
          have : t ∈ (if e.1 ∈ m.typesWild then m.typesWild else m.typesWild ++ [e.1]) ↔ t ∈ m.typesWild ∨ t = e.1 := by
            split
            · rename_i hin
              constructor
              · exact Or.inl
              · rintro (h | rfl)
                · exact h
                · exact hin
            · simp
          rw [this, ih3]
          simp only [List.mem_append, List.mem_singleton, or_and_right, exists_or, exists_eq_left, hk, hks, and_true]
          constructor
          · rintro (⟨a, b⟩ | rfl)
            · exact ⟨a, Or.inl b⟩
            · exact ⟨ht, Or.inr rfl⟩
          · rintro ⟨a, b | b⟩
            · exact Or.inl ⟨a, b⟩
            · exact Or.inr b.symm
        · intro t k
          rw [ih4]
          simp only [List.mem_append, List.mem_singleton, or_and_right, exists_or, exists_eq_left, hk, hks]
          constructor
          · rintro ⟨a, b, c⟩; exact ⟨a, b, Or.inl c⟩
          · rintro ⟨a, b, c | c⟩
            · exact ⟨a, b, c⟩
            · exact absurd c.2.symm b
      · rename_i hks
        refine ⟨?_, ?_, ?_, ?_⟩
        · simp only [List.mem_append, List.mem_singleton, or_and_right, exists_or, exists_eq_left, ht, false_and, or_false]
          exact ih1
        · intro k
          rw [ih2]
          simp only [List.mem_append, List.mem_singleton, or_and_right, exists_or, exists_eq_left, ht, false_and, or_false]
        · intro t
          rw [ih3]
          simp only [List.mem_append, List.mem_singleton, or_and_right, exists_or, exists_eq_left, hk, hks, and_false,
            or_false]
        · intro t k
          simp only [List.mem_append, List.mem_singleton, or_and_right, exists_or, exists_eq_left, hk, Prod.mk.injEq]
          rw [ih4]
          constructor
          · rintro (⟨a, b, c⟩ | ⟨rfl, rfl⟩)
            · exact ⟨a, b, Or.inl c⟩
            · exact ⟨ht, hks, Or.inr ⟨rfl, rfl⟩⟩
          · rintro ⟨a, b, c | c⟩
            · exact Or.inl ⟨a, b, c⟩
            · exact Or.inr ⟨c.1.symm, c.2.symm⟩

theorem rsm_spec (user : String) (rs : List (String × String)) : RSMSpec user rs (rsm rs user) := by
  obtain ⟨a, b, c, d⟩ := rsm_fold_spec user rs
  exact ⟨a, b, c, d⟩

theorem keys_mem (m : RSM) (t k : String) : k ∈ m.keys t ↔ (t, k) ∈ m.exact := by
  unfold RSM.keys
  simp only [List.mem_map, List.mem_filter, decide_eq_true_eq]
  constructor
  · rintro ⟨⟨a, b⟩, ⟨h1, h2⟩, h3⟩
    simp only at h2 h3
    subst h2; subst h3; exact h1
  · intro h; exact ⟨(t, k), ⟨h, rfl⟩, rfl⟩

/-- C14, selection: an event is selected exactly as `required_state` says.  (User ids
start with `@`, so the user is not the wildcard; event types are not `*`.) -/
theorem C14_selection (rs : List (String × String)) (user type key : String) (hu : user ≠ "*") (ht : type ≠ "*") :
    (rsm rs user).include type key = true ↔ Selects user rs type key := by
  obtain ⟨ha, hk, htw, hex⟩ := rsm_spec user rs
  have hall : (∃ e ∈ rs, AllState e) ↔ ∃ e ∈ rs, e.1 = "*" ∧ (resolve user e).2 = "*" := by
    constructor
    · rintro ⟨e, he, h⟩
      refine ⟨e, he, ?_⟩
      unfold AllState at h; subst h
      simp [resolve]
    · rintro ⟨e, he, h1, h2⟩
      refine ⟨e, he, ?_⟩
      obtain ⟨x, y⟩ := e
      simp only at h1
      simp only [resolve] at h2
      unfold AllState
      split at h2
      · exact absurd h2 hu
      · rw [h1, h2]
  have hkeys : ∀ k, k ∈ (rsm rs user).keys type ↔ k ≠ "*" ∧ ∃ e ∈ rs, e.1 = type ∧ (resolve user e).2 = k := by
    intro k
    rw [keys_mem, hex]
    exact ⟨fun h => h.2, fun h => ⟨ht, h⟩⟩
  unfold RSM.include Selects
  by_cases hA : (rsm rs user).allState = true
  · rw [if_pos hA]
    have hex1 := hall.2 (ha.1 hA)
    have hno : ¬ ∀ e ∈ rs, ¬ AllState e := fun h => by obtain ⟨e, he, h'⟩ := hex1; exact h e he h'
    simp only [hno, false_and, false_or, hex1, true_and]
    have hres : (∀ e ∈ rs, ¬ Restricts user e type) ↔ (rsm rs user).keys type = [] := by
      rw [List.eq_nil_iff_forall_not_mem]
      constructor
      · intro h k hkm
        obtain ⟨h1, e, he, h2, h3⟩ := (hkeys k).1 hkm
        exact h e he ⟨h2, by rw [h2]; exact ht, by rw [h3]; exact h1⟩
      · rintro h e he ⟨h1, _, h3⟩
        exact h (resolve user e).2 ((hkeys _).2 ⟨h3, e, he, h1, rfl⟩)
    rw [hres]
    split
    · rename_i hlen
      have hne : (rsm rs user).keys type ≠ [] := List.length_pos_iff.1 hlen
      simp only [hne, false_or, List.any_eq_true, decide_eq_true_eq, exists_eq_right]
      rw [hkeys]
      constructor
      · rintro ⟨h1, e, he, h2, h3⟩
        exact ⟨e, he, ⟨h2, by rw [h2]; exact ht, by rw [h3]; exact h1⟩, h3⟩
      · rintro ⟨e, he, ⟨h1, _, h3⟩, h4⟩
        exact ⟨by rw [← h4]; exact h3, e, he, h1, h4⟩
    · rename_i hlen
      have : (rsm rs user).keys type = [] := by
        apply Classical.byContradiction
        intro h; exact hlen (List.length_pos_iff.2 h)
      simp [this]
  · rw [if_neg hA]
    have hno : ¬ ∃ e ∈ rs, AllState e := fun h => hA (ha.2 (hall.1 h))
    have hno' : ∀ e ∈ rs, ¬ AllState e := fun e he h => hno ⟨e, he, h⟩
    have hnoR : ∀ e ∈ rs, ¬ (e.1 = "*" ∧ (resolve user e).2 = "*") :=
      fun e he h => hA (ha.2 ⟨e, he, h⟩)
    rw [show (((∀ e ∈ rs, ¬ AllState e) ∧ ∃ e ∈ rs, Matches user e type key) ∨ ((∃ e ∈ rs, AllState e) ∧
        ((∀ e ∈ rs, ¬ Restricts user e type) ∨ ∃ e ∈ rs, Restricts user e type ∧ (resolve user e).2 = key))) ↔
        ∃ e ∈ rs, Matches user e type key from
      ⟨fun h => h.elim (·.2) (fun h => absurd h.1 hno), fun h => Or.inl ⟨hno', h⟩⟩]
    have e1 : ((rsm rs user).keysWild.any fun sk => sk = key || sk = "*") = true ↔
        key ≠ "*" ∧ ∃ e ∈ rs, e.1 = "*" ∧ (resolve user e).2 = key := by
      rw [← hk, List.any_eq_true]
      constructor
      · rintro ⟨x, hx, h⟩
        simp only [Bool.or_eq_true, decide_eq_true_eq] at h
        rcases h with rfl | rfl
        · exact hx
        · exact absurd rfl ((hk "*").1 hx).1
      · intro h; exact ⟨key, h, by simp⟩
    have e2 : ((rsm rs user).typesWild.any (· = type)) = true ↔ ∃ e ∈ rs, e.1 = type ∧ (resolve user e).2 = "*" := by
      simp only [List.any_eq_true, decide_eq_true_eq, exists_eq_right, htw]
      exact ⟨fun h => h.2, fun h => ⟨ht, h⟩⟩
    have e3 : ((rsm rs user).keys type).any (· = key) = true ↔
        key ≠ "*" ∧ ∃ e ∈ rs, e.1 = type ∧ (resolve user e).2 = key := by
      simp only [List.any_eq_true, decide_eq_true_eq, exists_eq_right, hkeys]
    have goal_ : ((key ≠ "*" ∧ ∃ e ∈ rs, e.1 = "*" ∧ (resolve user e).2 = key) ∨
        (∃ e ∈ rs, e.1 = type ∧ (resolve user e).2 = "*") ∨
        (key ≠ "*" ∧ ∃ e ∈ rs, e.1 = type ∧ (resolve user e).2 = key)) ↔ ∃ e ∈ rs, Matches user e type key := by
      constructor
      · rintro (⟨_, e, he, h1, h2⟩ | ⟨e, he, h1, h2⟩ | ⟨_, e, he, h1, h2⟩)
        · exact ⟨e, he, Or.inl h1, Or.inr h2⟩
        · exact ⟨e, he, Or.inr h1, Or.inl h2⟩
        · exact ⟨e, he, Or.inr h1, Or.inr h2⟩
      · rintro ⟨e, he, h1 | h1, h2 | h2⟩
        · exact absurd ⟨h1, h2⟩ (hnoR e he)
        · left
          refine ⟨?_, e, he, h1, h2⟩
          intro hs; exact hnoR e he ⟨h1, by rw [h2, hs]⟩
        · exact Or.inr (Or.inl ⟨e, he, h1, h2⟩)
        · by_cases hs : key = "*"
          · right; left; exact ⟨e, he, h1, by rw [h2, hs]⟩
          · exact Or.inr (Or.inr ⟨hs, e, he, h1, h2⟩)
    rw [← goal_, ← e1, ← e2, ← e3]
    split
    · rename_i h; exact ⟨fun _ => Or.inl h, fun _ => rfl⟩
    · rename_i h
      split
      · rename_i h'; exact ⟨fun _ => Or.inr (Or.inl h'), fun _ => rfl⟩
      · rename_i h'
        exact ⟨fun x => Or.inr (Or.inr x), fun x => x.elim (fun y => absurd y h) fun x => x.elim (fun y => absurd y h') id⟩

theorem lookup_append {α} (a b : List (String × α)) (k : String) :
    (a ++ b).lookup k = match a.lookup k with | some x => some x | none => b.lookup k := by
  induction a with
  | nil => rfl
  | cons p a ih =>
    obtain ⟨x, y⟩ := p
    rw [List.cons_append, List.lookup_cons, List.lookup_cons]
    cases h : (k == x)
    · exact ih
    · rfl

theorem lookup_typesWild (ts : List String) (t : String) :
    (ts.map fun t => (t, ([] : List String))).lookup t = if t ∈ ts then some [] else none := by
  induction ts with
  | nil => rfl
  | cons x ts ih =>
    rw [List.map_cons, List.lookup_cons]
    cases h : (t == x)
    · have : t ≠ x := by simpa using h
      simp only [ih, List.mem_cons, this, false_or]
    · have : t = x := by simpa using h
      simp [this]

theorem lookup_exact (m : RSM) (l : List (String × String)) (t : String) :
    (l.map fun p => if p.1 = "m.room.member" ∧ m.lazy then (p.1, ([] : List String)) else (p.1, m.keys p.1)).lookup t =
      if t ∈ l.map (·.1) then some (if t = "m.room.member" ∧ m.lazy then [] else m.keys t) else none := by
  induction l with
  | nil => rfl
  | cons p l ih =>
    obtain ⟨x, y⟩ := p
    rw [List.map_cons]
    have e : (if (x, y).1 = "m.room.member" ∧ m.lazy = true then ((x, y).1, ([] : List String)) else ((x, y).1, m.keys (x, y).1))
        = (x, if x = "m.room.member" ∧ m.lazy = true then [] else m.keys x) := by
      split
      · rename_i h; rfl
      · rename_i h; rfl
    rw [e, List.lookup_cons]
    cases h : (t == x)
    · have : t ≠ x := by simpa using h
      simp only [ih, List.map_cons, List.mem_cons, this, false_or]
    · have : t = x := by simpa using h
      simp [this]

/-- C14, loading: every selected event is among those the database query fetches; and with
lazy loading so is every member event. -/
theorem C14_query (rs : List (String × String)) (user type key : String)
    (h : (rsm rs user).include type key = true ∨ (lazyLoadMembers rs = true ∧ type = "m.room.member")) :
    fetched (rsm rs user).query type key = true := by
  obtain ⟨ha, hk, htw, hex⟩ := rsm_spec user rs
  have hlazy : (rsm rs user).lazy = lazyLoadMembers rs := rfl
  generalize hm : rsm rs user = m at *
  unfold RSM.query
  by_cases hA : m.allState = true
  · rw [if_pos hA]; rfl
  rw [if_neg hA]
  split
  · rename_i hkw
    have hkw : m.keysWild = [] := List.length_eq_zero_iff.1 hkw
    unfold fetched
    split
    · rfl
    · rw [lookup_append, lookup_typesWild]
      by_cases hw : type ∈ m.typesWild
      · rw [if_pos hw]; rfl
      · rw [if_neg hw]
        simp only
        rw [lookup_exact]
        rcases h with h | ⟨h1, h2⟩
        · unfold RSM.include at h
          rw [if_neg hA, hkw] at h
          simp only [List.any_nil, Bool.false_eq_true, if_false] at h
          split at h
          · rename_i hh
            simp only [List.any_eq_true, decide_eq_true_eq, exists_eq_right] at hh
            exact absurd hh hw
          · have hin := h
            simp only [List.any_eq_true, decide_eq_true_eq, exists_eq_right, keys_mem] at hin
            rw [if_pos (List.mem_map.2 ⟨_, hin, rfl⟩)]
            simp only
            split
            · rfl
            · rw [h]; simp
        · subst h2
          have hl : ("m.room.member", "$LAZY") ∈ m.exact := by
            rw [hex]
            unfold lazyLoadMembers at h1
            rw [List.any_eq_true] at h1
            obtain ⟨e, he, h⟩ := h1
            simp only [Bool.and_eq_true, decide_eq_true_eq] at h
            refine ⟨by decide, by decide, e, he, h.1, ?_⟩
            unfold resolve
            rw [if_neg (by rw [h.2]; decide)]
            exact h.2
          rw [if_pos (List.mem_map.2 ⟨_, hl, rfl⟩)]
          simp [hlazy, h1]
  · rfl

/-- The query fetches nothing but what was asked for when no wildcard type is used. -/
theorem C14_query_tight (rs : List (String × String)) (user type key : String)
    (hwild : ∀ e ∈ rs, e.1 ≠ "*") (hne : rs ≠ [])
    (h : fetched (rsm rs user).query type key = true) :
    (rsm rs user).include type key = true ∨ (lazyLoadMembers rs = true ∧ type = "m.room.member") := by
  obtain ⟨ha, hk, htw, hex⟩ := rsm_spec user rs
  have hlazy : (rsm rs user).lazy = lazyLoadMembers rs := rfl
  generalize hm : rsm rs user = m at *
  have hA : ¬ m.allState = true := fun h => by
    obtain ⟨e, he, h1, _⟩ := ha.1 h; exact hwild e he h1
  have hkw : m.keysWild = [] := by
    rw [List.eq_nil_iff_forall_not_mem]
    intro k hkm
    obtain ⟨_, e, he, h1, _⟩ := (hk k).1 hkm
    exact hwild e he h1
  unfold RSM.query at h
  rw [if_neg hA, hkw] at h
  simp only [List.length_nil, if_true] at h
  unfold fetched at h
  split at h
  · rename_i hl
    exfalso
    cases rs with
    | nil => exact hne rfl
    | cons e rs =>
      by_cases hw : (resolve user e).2 = "*"
      · have : e.1 ∈ m.typesWild := (htw _).2 ⟨hwild e (by simp), e, by simp, rfl, hw⟩
        have := List.length_pos_of_mem this
        simp at hl; rw [hl.1] at this; simp at this
      · have : (e.1, (resolve user e).2) ∈ m.exact := (hex _ _).2 ⟨hwild e (by simp), hw, e, by simp, rfl, rfl⟩
        simp at hl; rw [hl.2] at this; simp at this
  · rw [lookup_append, lookup_typesWild] at h
    unfold RSM.include
    rw [if_neg hA, hkw]
    simp only [List.any_nil, Bool.false_eq_true, if_false]
    by_cases hw : type ∈ m.typesWild
    · left; simp [hw]
    · rw [if_neg hw] at h
      simp only at h
      rw [lookup_exact] at h
      by_cases hex' : type ∈ m.exact.map (·.1)
      · rw [if_pos hex'] at h
        simp only at h
        split at h
        · rename_i hh
          right; exact ⟨by rw [← hlazy]; exact hh.2, hh.1⟩
        · left
          simp only [Bool.or_eq_true, decide_eq_true_eq] at h
          rcases h with h | h
          · exfalso
            have hnil := List.length_eq_zero_iff.1 h
            obtain ⟨⟨a, b⟩, hab, e⟩ := List.mem_map.1 hex'
            simp only at e
            subst e
            have := (keys_mem m a b).2 hab
            rw [hnil] at this; cases this
          · rw [h]; simp
      · rw [if_neg hex'] at h
        cases h

example :
    let rs := [("m.room.member", "$LAZY"), ("m.room.member", "$ME"), ("*", ""), ("m.room.topic", "*")]
    (rsm rs "@u").include "m.room.member" "@u" = true ∧ (rsm rs "@u").include "m.room.name" "" = true ∧
    (rsm rs "@u").include "m.room.member" "@v" = false ∧ fetched (rsm rs "@u").query "m.room.member" "@v" = true ∧
    (rsm [("*", "*"), ("m.room.member", "$ME")] "@u").include "m.room.member" "@v" = false ∧
    (rsm [("*", "*"), ("m.room.member", "$ME")] "@u").include "m.room.name" "" = true := by
  decide +kernel

/-! ## C13 -/

/-- The required state of a subscription (nil is empty). -/
def Base.rs (b : Base) : List (String × String) := b.reqState.getD []

theorem combine_rs (a b : Sub) : (combine a b).rs = a.rs ++ b.rs := by
  unfold combine combineBase Base.rs
  simp only
  cases a.reqState with
  | none =>
    cases b.reqState with
    | none => rfl
    | some l => cases l <;> rfl
  | some l => rfl

/-- C13, timeline limit. -/
theorem C13_limit (a b : Sub) : a.limit ≤ (combine a b).limit ∧ b.limit ≤ (combine a b).limit ∧
    ((combine a b).limit = a.limit ∨ (combine a b).limit = b.limit) := by
  unfold combine combineBase
  simp only
  split <;> omega

/-- C13, associativity up to what is selected: the state selected and the limit are the same. -/
theorem C13_assoc (a b c : Sub) :
    (combine (combine a b) c).rs = (combine a (combine b c)).rs ∧
    (combine (combine a b) c).limit = (combine a (combine b c)).limit := by
  refine ⟨by simp [combine_rs], ?_⟩
  unfold combine combineBase
  simp only
  repeat' split
  all_goals omega

/-- C13, partial: without `[*,*]`, the combination selects exactly the events that one of the
two selects.  Missing: subscriptions with `[*,*]`, whose other entries restrict
instead of adding (`C13_violated`). -/
theorem C13_state_partial (a b : Sub) (user type key : String)
    (ha : ∀ e ∈ a.rs, ¬ AllState e) (hb : ∀ e ∈ b.rs, ¬ AllState e) :
    Selects user (combine a b).rs type key ↔ Selects user a.rs type key ∨ Selects user b.rs type key := by
  rw [combine_rs]
  unfold Selects
  have h1 : ¬ ∃ e ∈ a.rs, AllState e := fun ⟨e, he, h⟩ => ha e he h
  have h2 : ¬ ∃ e ∈ b.rs, AllState e := fun ⟨e, he, h⟩ => hb e he h
  have h3 : ¬ ∃ e ∈ a.rs ++ b.rs, AllState e := by
    rintro ⟨e, he, h⟩
    rcases List.mem_append.1 he with he | he
    · exact ha e he h
    · exact hb e he h
  have h4 : ∀ e ∈ a.rs ++ b.rs, ¬ AllState e := fun e he h => h3 ⟨e, he, h⟩
  simp only [h1, h2, h3, false_and, or_false]
  constructor
  · rintro ⟨_, e, he, hm⟩
    rcases List.mem_append.1 he with he | he
    · exact Or.inl ⟨ha, e, he, hm⟩
    · exact Or.inr ⟨hb, e, he, hm⟩
  · rintro (⟨_, e, he, hm⟩ | ⟨_, e, he, hm⟩)
    · exact ⟨h4, e, by simp [he], hm⟩
    · exact ⟨h4, e, by simp [he], hm⟩

/-- The combination treats both arguments alike, and adds nothing when combining with itself. -/
theorem C13_comm (a b : Sub) (user type key : String) :
    (Selects user (combine a b).rs type key ↔ Selects user (combine b a).rs type key) ∧
    (combine a b).limit = (combine b a).limit := by
  constructor
  · rw [combine_rs, combine_rs]
    unfold Selects
    simp only [List.mem_append, or_comm]
  · unfold combine combineBase
    simp only
    split <;> split <;> omega

/-- C13 is violated with `[*,*]`: the combination of "all state" and "my own member event"
no longer selects other member events. -/
theorem C13_violated : ∃ (a b : Sub) (user type key : String),
    Selects user a.rs type key ∧ ¬ Selects user (combine a b).rs type key := by
  refine ⟨{ reqState := some [("*", "*")] }, { reqState := some [("m.room.member", "$ME")] }, "@u", "m.room.member", "@v", ?_, ?_⟩
  · rw [← C14_selection _ _ _ _ (by decide) (by decide)]; decide +kernel
  · rw [← C14_selection _ _ _ _ (by decide) (by decide)]; decide +kernel

example : Selects "@u" (combine { reqState := some [("m.room.name", "")], limit := 3 } { reqState := some [("m.room.member", "$ME")] }).rs
    "m.room.member" "@u" := by
  rw [← C14_selection _ _ _ _ (by decide) (by decide)]; decide +kernel

/-! ## C62: old rooms and heroes in a combination -/

/-- C62, partial: the combination includes old rooms if the second subscription does, or the
first does and the second asks for old rooms too.  Missing: the first alone
(`C62_violated`), and heroes, which are always dropped. -/
theorem C62_old_partial (a b : Sub) :
    ((combine a b).old.isSome = true ↔ b.old.isSome = true) ∧
    (∀ x y, a.old = some x → b.old = some y → ∃ z, (combine a b).old = some z ∧
      z.rs = x.rs ++ y.rs ∧ x.limit ≤ z.limit ∧ y.limit ≤ z.limit) ∧
    (a.old = none → (combine a b).old = b.old) ∧ (combine a b).heroes = none := by
  refine ⟨?_, ?_, ?_, rfl⟩
  · unfold combine; cases a.old <;> cases b.old <;> simp
  · intro x y hx hy
    refine ⟨combineBase x y, by unfold combine; simp [hx, hy], ?_, ?_, ?_⟩
    · exact combine_rs ⟨x, none⟩ ⟨y, none⟩
    · exact (C13_limit ⟨x, none⟩ ⟨y, none⟩).1
    · exact (C13_limit ⟨x, none⟩ ⟨y, none⟩).2.1
  · intro h; unfold combine; simp [h]

/-- C62 is violated: combining a subscription that wants old rooms (or heroes) with a plain one
drops that, and which one is dropped depends on the order. -/
theorem C62_violated : ∃ a b : Sub, a.old ≠ none ∧ (combine a b).old = none ∧ (combine b a).old ≠ none ∧
    a.heroes = some true ∧ b.heroes = some true ∧ (combine a b).heroes = none := by
  refine ⟨{ old := some {}, heroes := some true }, { heroes := some true }, ?_⟩
  decide

end Verif.Request
