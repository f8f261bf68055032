import Verif.ConnLists
import Verif.RangesProps
/-! # C28, C29, C63, C64 -/
namespace Verif.ConnLists
open Verif.Ranges Verif.Request

/-! ## C28 -/

theorem mem_syncs (xs : List String) (rs : Ranges) (ss : List (ROp × List String)) (h : syncs xs rs = some ss)
    (x : ROp × List String) (hx : x ∈ ss) : ∃ r, x.1 = .sync r x.2 := by
  induction rs generalizing ss with
  | nil => simp only [syncs, Option.some.injEq] at h; subst h; cases hx
  | cons r rs ih =>
    simp only [syncs] at h
    split at h
    · cases h
    · exact ih ss h hx
    · cases hs : syncs xs rs with
      | none => rw [hs] at h; cases h
      | some ss' =>
        rw [hs] at h
        simp only [Option.map_some, Option.some.injEq] at h
        subst h
        rcases List.mem_cons.1 hx with rfl | hx
        · exact ⟨_, rfl⟩
        · exact ih ss' hs hx

/-- C28: the rooms a list request adds are rooms of the list named in one of its SYNC operations, or joined
rooms. -/
theorem C28_lists (joined : String → Bool) (isNew : Bool) (cur re : List String) (prev : Option RList) (next : RList)
    (res : Result) (h : onListRequest joined isNew cur re prev next = some res) (a : Add) (ha : a ∈ res.adds)
    (room : String) (hr : room ∈ a.2) : joined room = true ∨ ∃ r ids, .sync r ids ∈ res.ops ∧ room ∈ ids := by
  unfold onListRequest at h
  split at h
  · simp only [Option.some.injEq] at h
    subst h
    simp only [List.mem_singleton] at ha
    subst ha
    exact Or.inr ⟨_, cur, List.mem_singleton.2 rfl, hr⟩
  · simp only at h
    split at h
    · cases h
    · rename_i added removed _
      split at h
      · cases h
      · rename_i ss hss
        rw [Option.map_eq_some_iff] at h
        obtain ⟨chg, hchg, rfl⟩ := h
        simp only [List.mem_append, List.mem_map] at ha
        rcases ha with ⟨x, hx, rfl⟩ | ha
        · obtain ⟨r, hr'⟩ := mem_syncs _ _ _ hss x hx
          refine Or.inr ⟨r, x.2, ?_, hr⟩
          simp only [List.mem_append, List.mem_map]
          exact Or.inr ⟨x, hx, hr'⟩
        · left
          split at hchg
          · simp only [Option.some.injEq] at hchg; subst hchg; cases ha
          · split at hchg
            · unfold changedAdds at hchg
              simp only at hchg
              split at hchg
              · rw [Option.map_eq_some_iff] at hchg
                obtain ⟨ids, _, rfl⟩ := hchg
                simp only [List.mem_map] at ha
                obtain ⟨y, _, rfl⟩ := ha
                exact (List.mem_filter.1 hr).2
              · simp only [Option.some.injEq] at hchg; subst hchg; cases ha
            · simp only [Option.some.injEq] at hchg; subst hchg; cases ha

theorem subscribe_inv (joined : String → Bool) (wanted active : String → Option Sub) (subs : List String) (s : SubState)
    (h1 : ∀ a ∈ s.adds, ∀ r ∈ a.2, joined r = true ∧ wanted r = some a.1)
    (h2 : ∀ r sub, s.active r = some sub → (joined r = true ∧ wanted r = some sub) ∨ active r = some sub) :
    (∀ a ∈ (subs.foldl (subscribe1 joined wanted) s).adds, ∀ r ∈ a.2, joined r = true ∧ wanted r = some a.1) ∧
    (∀ r sub, (subs.foldl (subscribe1 joined wanted) s).active r = some sub →
      (joined r = true ∧ wanted r = some sub) ∨ active r = some sub) := by
  induction subs generalizing s with
  | nil => exact ⟨h1, h2⟩
  | cons x subs ih =>
    rw [List.foldl_cons]
    apply ih
    · unfold subscribe1
      split
      · exact h1
      · rename_i hj
        split
        · exact h1
        · rename_i sub hw
          intro a ha r hr
          simp only [List.mem_append, List.mem_singleton] at ha
          rcases ha with ha | rfl
          · exact h1 a ha r hr
          · simp only [List.mem_singleton] at hr
            subst hr
            exact ⟨by simpa using hj, hw⟩
    · unfold subscribe1
      split
      · exact h2
      · rename_i hj
        split
        · exact h2
        · rename_i sub hw
          intro r sub' hr
          simp only at hr
          split at hr
          · rename_i e; subst e
            simp only [Option.some.injEq] at hr
            subst hr
            exact Or.inl ⟨by simpa using hj, hw⟩
          · exact h2 r sub' hr

/-- C28: room data is added through a room subscription only for joined rooms, with the subscription the client
asked for; and a subscription becomes active only for a joined room. -/
theorem C28_subs (joined : String → Bool) (wanted active : String → Option Sub) (subs unsubs : List String) :
    (∀ a ∈ (buildRoomSubs joined wanted active subs unsubs).adds, ∀ r ∈ a.2, joined r = true ∧ wanted r = some a.1) ∧
    (∀ r sub, (buildRoomSubs joined wanted active subs unsubs).active r = some sub →
      (joined r = true ∧ wanted r = some sub) ∨ active r = some sub) := by
  have h := subscribe_inv joined wanted active subs ⟨active, []⟩ nofun (fun r sub h => Or.inr h)
  refine ⟨h.1, ?_⟩
  intro r sub hr
  unfold buildRoomSubs at hr
  simp only at hr
  split at hr
  · cases hr
  · exact h.2 r sub hr

/-- C28: conversely every announced subscription to a joined room adds the room. -/
theorem C28_subs_complete (joined : String → Bool) (wanted active : String → Option Sub) (subs unsubs : List String)
    (r : String) (hr : r ∈ subs) (hj : joined r = true) (sub : Sub) (hw : wanted r = some sub) :
    (sub, [r]) ∈ (buildRoomSubs joined wanted active subs unsubs).adds := by
  have keep : ∀ (subs : List String) (s : SubState) (a : Add), a ∈ s.adds → a ∈ (subs.foldl (subscribe1 joined wanted) s).adds := by
    intro subs
    induction subs with
    | nil => intro s a h; exact h
    | cons x subs ih =>
      intro s a h
      rw [List.foldl_cons]
      apply ih
      unfold subscribe1
      split
      · exact h
      · split
        · exact h
        · exact List.mem_append_left _ h
  have main : ∀ (subs : List String) (s : SubState), r ∈ subs → (sub, [r]) ∈ (subs.foldl (subscribe1 joined wanted) s).adds := by
    intro subs
    induction subs with
    | nil => intro s h; cases h
    | cons x subs ih =>
      intro s h
      rw [List.foldl_cons]
      rcases List.mem_cons.1 h with rfl | h
      · apply keep
        simp [subscribe1, hj, hw]
      · exact ih _ h
  exact main subs _ hr

theorem subscribe_active (joined : String → Bool) (wanted : String → Option Sub) (r : String) (subs : List String) (s : SubState) :
    (subs.foldl (subscribe1 joined wanted) s).active r =
      if r ∈ subs ∧ joined r = true ∧ (wanted r).isSome = true then wanted r else s.active r := by
  induction subs generalizing s with
  | nil => simp
  | cons x subs ih =>
    rw [List.foldl_cons, ih]
    by_cases h : r ∈ subs ∧ joined r = true ∧ (wanted r).isSome = true
    · rw [if_pos h, if_pos ⟨List.mem_cons_of_mem _ h.1, h.2⟩]
    · rw [if_neg h]
      by_cases hx : r = x ∧ joined r = true ∧ (wanted r).isSome = true
      · obtain ⟨rfl, hj, hw⟩ := hx
        rw [if_pos ⟨List.mem_cons_self, hj, hw⟩]
        obtain ⟨sub, hw⟩ := Option.isSome_iff_exists.1 hw
        simp [subscribe1, hj, hw]
      · rw [if_neg]
        · unfold subscribe1
          split
          · rfl
          · rename_i hj
            split
            · rfl
            · rename_i sub hw
              show (if r = x then some sub else s.active r) = s.active r
              rw [if_neg]
              rintro rfl
              exact hx ⟨rfl, by simpa using hj, by rw [hw]; rfl⟩
        · rintro ⟨hm, hr⟩
          rcases List.mem_cons.1 hm with e | hm
          · exact hx ⟨e, hr⟩
          · exact h ⟨hm, hr⟩

/-- C28: which subscriptions are active after a request. A subscription the client ended is not; one it announced for
a joined room is, as announced; any other stays as it was. -/
theorem C28_active (joined : String → Bool) (wanted active : String → Option Sub) (subs unsubs : List String) (r : String) :
    (r ∈ unsubs → (buildRoomSubs joined wanted active subs unsubs).active r = none) ∧
    (r ∉ unsubs → r ∈ subs → joined r = true → ∀ sub, wanted r = some sub →
      (buildRoomSubs joined wanted active subs unsubs).active r = some sub) ∧
    (r ∉ unsubs → r ∉ subs ∨ joined r = false → (buildRoomSubs joined wanted active subs unsubs).active r = active r) := by
  have ha : (buildRoomSubs joined wanted active subs unsubs).active r = if r ∈ unsubs then none else
      (subs.foldl (subscribe1 joined wanted) ⟨active, []⟩).active r := rfl
  rw [ha, subscribe_active]
  refine ⟨fun h => by rw [if_pos h], fun h hs hj sub hw => by rw [if_neg h, if_pos ⟨hs, hj, by rw [hw]; rfl⟩, hw], fun h ho => ?_⟩
  rw [if_neg h, if_neg]
  rintro ⟨hs, hj, _⟩
  rcases ho with ho | ho
  · exact ho hs
  · rw [ho] at hj; cases hj

example : (["!a", "!b", "!c", "!d"].map
    (buildRoomSubs (fun r => r = "!a" ∨ r = "!c") (fun _ => some {}) (fun r => if r = "!d" ∨ r = "!c" then some {} else none)
      ["!a", "!b"] ["!c"]).active).map (·.isSome) = [true, false, false, true] := by
  decide

example : ((buildRoomSubs (fun r => r = "!a") (fun _ => some {}) (fun _ => none) ["!a", "!b"] []).adds).map (·.2) = [["!a"]] := by
  decide

/-! ## C29 -/

theorem predLoop_none (joined : String → Bool) (room : String → Option (Option String)) (bad : String → Prop)
    (hj : ∀ x, bad x → joined x = true) (hs : ∀ x, bad x → ∃ y, predStep joined room x = some y ∧ bad y)
    (n : Nat) (x : String) (hx : bad x) (acc : List String) : predLoop joined room n x acc = none := by
  induction n generalizing x acc with
  | zero => rfl
  | succ n ih =>
    obtain ⟨y, h1, h2⟩ := hs x hx
    simp only [predLoop, hj x hx, Bool.not_true, Bool.false_eq_true, if_false, h1]
    exact ih y h2 _

/-- C29 is violated by two rooms that name each other as predecessor: however many iterations, the loop is not
finished. -/
theorem C29_violated_cycle : ∃ (joined : String → Bool) (room : String → Option (Option String)) (x : String),
    ∀ n, predLoop joined room n x [] = none := by
  refine ⟨fun _ => true, fun x => if x = "!a" then some (some "!b") else some (some "!a"), "!a", fun n => ?_⟩
  refine predLoop_none _ _ (fun _ => True) (fun _ _ => rfl) ?_ n _ trivial _
  intro x _
  by_cases h : x = "!a"
  · exact ⟨"!b", by simp [predStep, h], trivial⟩
  · exact ⟨"!a", by simp [predStep, h], trivial⟩

/-- C29 is violated without any cycle: a predecessor the user is joined to but which the connection does not
know (its join was not processed yet) is visited forever. -/
theorem C29_violated_unknown : ∃ (joined : String → Bool) (room : String → Option (Option String)) (x : String),
    (∀ y p, room y = some (some p) → y = "!new" ∧ p = "!old") ∧ room "!new" = some (some x) ∧ ∀ n, predLoop joined room n x [] = none := by
  refine ⟨fun x => x = "!old", fun x => if x = "!new" then some (some "!old") else none, "!old", ?_, by simp, ?_⟩
  · intro y p h
    by_cases hy : y = "!new"
    · simp [hy] at h; exact ⟨hy, h.symm⟩
    · simp [hy] at h
  · intro n
    refine predLoop_none _ _ (fun x => x = "!old") (by intro x h; simp [h]) ?_ n _ rfl _
    intro x h
    subst h
    exact ⟨"!old", by simp [predStep], rfl⟩

/-- The chain of predecessors starting at `x` as far as the user is joined. -/
inductive Chain (joined : String → Bool) (room : String → Option (Option String)) : String → List String → Prop
  | stop (x) : joined x = false → Chain joined room x []
  | last (x) : joined x = true → room x = some none → Chain joined room x [x]
  | more (x y l) : joined x = true → room x = some (some y) → Chain joined room y l → Chain joined room x (x :: l)

/-- C29, exactly: the loop ends if and only if there is a finite chain of joined known predecessors, and then it
collects that chain. -/
theorem C29_exact (joined : String → Bool) (room : String → Option (Option String)) (x : String) (l : List String) :
    (∃ n, predLoop joined room n x [] = some l) ↔ Chain joined room x l := by
  have acc : ∀ (n : Nat) (x : String) (acc l : List String), predLoop joined room n x acc = some l →
      ∃ l', l = acc ++ l' ∧ Chain joined room x l' := by
    intro n
    induction n with
    | zero => intro x acc l h; cases h
    | succ n ih =>
      intro x acc l h
      simp only [predLoop] at h
      cases hj : joined x with
      | false =>
        rw [hj] at h
        simp only [Bool.not_false, if_true, Option.some.injEq] at h
        exact ⟨[], by simp [h], .stop x hj⟩
      | true =>
        rw [hj] at h
        simp only [Bool.not_true, Bool.false_eq_true, if_false] at h
        cases hr : room x with
        | none =>
          -- the room stays the same forever
          have hbad : ∀ n acc, predLoop joined room n x acc = none := by
            intro n acc
            refine predLoop_none joined room (fun y => y = x) (by intro y hy; rw [hy, hj]) ?_ n x rfl acc
            intro y hy
            subst hy
            exact ⟨y, by simp [predStep, hj, hr], rfl⟩
          have hp : predStep joined room x = some x := by simp [predStep, hj, hr]
          rw [hp] at h
          simp only at h
          rw [hbad] at h; cases h
        | some p =>
          have hp : predStep joined room x = p := by simp [predStep, hj, hr]
          rw [hp] at h
          cases p with
          | none =>
            simp only [Option.some.injEq] at h
            exact ⟨[x], h.symm, .last x hj hr⟩
          | some y =>
            simp only at h
            obtain ⟨l', h1, h2⟩ := ih y _ _ h
            exact ⟨x :: l', by rw [h1, List.append_assoc]; rfl, .more x y l' hj hr h2⟩
  constructor
  · rintro ⟨n, h⟩
    obtain ⟨l', h1, h2⟩ := acc n x [] l h
    rw [List.nil_append] at h1
    rw [h1]; exact h2
  · have gen : ∀ x l, Chain joined room x l → ∀ acc, ∃ n, predLoop joined room n x acc = some (acc ++ l) := by
      intro x l h
      induction h with
      | stop x hj => intro acc; exact ⟨1, by simp [predLoop, hj]⟩
      | last x hj hr => intro acc; exact ⟨1, by simp [predLoop, hj, predStep, hr]⟩
      | more x y l hj hr _ ih =>
        intro acc
        obtain ⟨n, hn⟩ := ih (acc ++ [x])
        refine ⟨n + 1, ?_⟩
        simp only [predLoop, hj, predStep, hr, Bool.not_true, Bool.false_eq_true, if_false]
        rw [hn, List.append_assoc]; rfl
    intro h
    obtain ⟨n, hn⟩ := gen x l h []
    exact ⟨n, by simpa using hn⟩

/-- C29, partial: if the connection knows every joined room and predecessors are older (by any measure), the loop
ends.  Missing: cycles and unknown rooms (`C29_violated_cycle`, `C29_violated_unknown`). -/
theorem C29_partial (joined : String → Bool) (room : String → Option (Option String)) (age : String → Nat)
    (hk : ∀ x, joined x = true → room x ≠ none) (ha : ∀ x y, room x = some (some y) → age y < age x) (x : String) :
    ∃ n l, predLoop joined room n x [] = some l := by
  have : ∀ k x, age x < k → ∃ l, Chain joined room x l := by
    intro k
    induction k with
    | zero => intro x h; omega
    | succ k ih =>
      intro x h
      cases hj : joined x with
      | false => exact ⟨[], .stop x hj⟩
      | true =>
        cases hr : room x with
        | none => exact absurd hr (hk x hj)
        | some p =>
          cases p with
          | none => exact ⟨[x], .last x hj hr⟩
          | some y =>
            obtain ⟨l, hl⟩ := ih y (by have := ha x y hr; omega)
            exact ⟨x :: l, .more x y l hj hr hl⟩
  obtain ⟨l, hl⟩ := this (age x + 1) x (by omega)
  obtain ⟨n, hn⟩ := (C29_exact joined room x l).2 hl
  exact ⟨n, l, hn⟩

example : predLoop (fun x => x ≠ "!0") (fun x => if x = "!2" then some (some "!1") else if x = "!1" then some (some "!0") else some none)
    5 "!2" [] = some ["!2", "!1"] := by decide

/-! ## C63: the client's view of a list after a request -/

/-- The room at an index. -/
def at_ (xs : List String) (i : Int) : Option String := if 0 ≤ i then xs[i.toNat]? else none

/-- A client applies an operation to its map from index to room. -/
def applyOp (v : Int → Option String) : ROp → Int → Option String
  | .invalidate r => fun i => if r.1 ≤ i ∧ i ≤ r.2 then none else v i
  | .sync r ids => fun i => if r.1 ≤ i ∧ i ≤ r.2 then at_ ids (i - r.1) else v i

def applyOps (v : Int → Option String) (ops : List ROp) : Int → Option String := ops.foldl applyOp v

/-- At index `i` the client shows what the windows cover, and nothing else. -/
def Shows (rs : Ranges) (xs : List String) (v : Int → Option String) (i : Int) : Prop :=
  (Covers rs i → v i = at_ xs i) ∧ (¬ Covers rs i → v i = none)

instance (rs : Ranges) (i : Int) : Decidable (Covers rs i) := by unfold Covers; infer_instance

theorem applyOps_append (v : Int → Option String) (a b : List ROp) : applyOps v (a ++ b) = applyOps (applyOps v a) b := by
  simp [applyOps]

theorem apply_invalidates (n : Nat) (rs : Ranges) (v : Int → Option String) (i : Int) :
    applyOps v (invalidates n rs) i = if Covers rs i ∧ i < n then none else v i := by
  induction rs generalizing v with
  | nil => simp [invalidates, applyOps, Covers]
  | cons r rs ih =>
    by_cases hr : r.1 < n
    · have e : invalidates n (r :: rs) = .invalidate (clamp r n) :: invalidates n rs := by simp [invalidates, hr]
      have e2 : applyOps v (invalidates n (r :: rs)) i = applyOps (applyOp v (.invalidate (clamp r n))) (invalidates n rs) i := by
        rw [e]; rfl
      rw [e2, ih]
      have hc : (clamp r n).1 ≤ i ∧ i ≤ (clamp r n).2 ↔ (r.1 ≤ i ∧ i ≤ r.2) ∧ i < n := by
        unfold clamp; split <;> (try simp only) <;> omega
      have hcov : Covers (r :: rs) i ↔ (r.1 ≤ i ∧ i ≤ r.2) ∨ Covers rs i := by
        simp [Covers]
      simp only [applyOp, hc, hcov]
      by_cases h1 : r.1 ≤ i ∧ i ≤ r.2 <;> by_cases h2 : i < (n : Int) <;> by_cases h3 : Covers rs i <;>
        simp only [h1, h2, h3, and_self, and_true, and_false, true_and, false_and, or_true, or_false, true_or, false_or, if_true, if_false]
    · have e : invalidates n (r :: rs) = invalidates n rs := by simp [invalidates, hr]
      rw [e, ih]
      have hcov : Covers (r :: rs) i ↔ (r.1 ≤ i ∧ i ≤ r.2) ∨ Covers rs i := by
        simp [Covers]
      by_cases h3 : Covers rs i
      · simp [hcov, h3]
      · have : ¬ ((Covers (r :: rs) i) ∧ i < (n : Int)) := by rw [hcov]; rintro ⟨h | h, h'⟩ <;> first | omega | exact h3 h
        rw [if_neg this, if_neg (fun h => h3 h.1)]

/-- A range that `SliceInto` accepts: possibly empty by one. -/
def Sane (r : Range) : Prop := 0 ≤ r.1 ∧ r.1 ≤ r.2 + 1

theorem at_slice (xs : List String) (a b i : Int) (ha : 0 ≤ a) (h1 : a ≤ i) (h2 : i < b) :
    at_ ((xs.drop a.toNat).take (b - a).toNat) (i - a) = at_ xs i := by
  have e1 : 0 ≤ i - a := by omega
  have e2 : 0 ≤ i := by omega
  simp only [at_, e1, e2, if_true]
  rw [List.getElem?_take, if_pos (by omega), List.getElem?_drop]
  congr 1
  omega

theorem apply_syncs (xs : List String) (rs : Ranges) (hs : ∀ r ∈ rs, Sane r) :
    ∃ ss, syncs xs rs = some ss ∧ ∀ (v : Int → Option String) (i : Int),
      applyOps v (ss.map (·.1)) i = if Covers rs i ∧ i < xs.length then at_ xs i else v i := by
  induction rs with
  | nil => exact ⟨[], rfl, by intro v i; simp [applyOps, Covers]⟩
  | cons r rs ih =>
    obtain ⟨ss, h1, h2⟩ := ih (fun a ha => hs a (by simp [ha]))
    have hr := hs r (by simp)
    unfold Sane at hr
    have hcov : ∀ i, Covers (r :: rs) i ↔ (r.1 ≤ i ∧ i ≤ r.2) ∨ Covers rs i := by
      intro i; simp [Covers]
    simp only [syncs]
    by_cases hn : (xs.length : Int) = 0
    · have e : sliceInto xs [r] = some [] := by simp [sliceInto, hn]
      rw [e]
      refine ⟨ss, h1, ?_⟩
      intro v i
      rw [h2]
      by_cases hi : i < (xs.length : Int)
      · have hx : xs = [] := List.length_eq_zero_iff.1 (by omega)
        simp only [hcov]
        by_cases h3 : Covers rs i
        · simp [h3]
        · -- a negative index is not covered
          have h4 : ¬ (r.1 ≤ i ∧ i ≤ r.2) := by omega
          rw [if_neg (by simp [h3]), if_neg (by simp [h3, h4])]
      · rw [if_neg (fun h => hi h.2), if_neg (fun h => hi h.2)]
    · by_cases hge : r.1 ≥ (xs.length : Int) ∧ r.2 ≥ (xs.length : Int)
      · have e : sliceInto xs [r] = some [] := by simp [sliceInto, hn, hge]
        rw [e]
        refine ⟨ss, h1, ?_⟩
        intro v i
        rw [h2]
        simp only [hcov]
        by_cases h3 : Covers rs i
        · simp [h3]
        · rw [if_neg (by simp [h3])]
          rw [if_neg]
          rintro ⟨h4 | h4, h5⟩
          · omega
          · exact h3 h4
      · have hb : ∃ a b : Int, sliceInto xs [r] = some [(xs.drop a.toNat).take (b - a).toNat] ∧
            (r.1 < xs.length → a = r.1 ∧ b = (clamp r xs.length).2 + 1) := by
          refine ⟨if r.1 ≥ (xs.length : Int) then (xs.length : Int) - 1 else r.1,
            (if r.2 ≥ (xs.length : Int) then (xs.length : Int) - 1 else r.2) + 1, ?_, ?_⟩
          · simp only [sliceInto, hn, if_false, hge]
            unfold goSlice
            rw [if_pos]
            · rfl
            · refine ⟨?_, ?_, ?_⟩ <;> split <;> first | omega | (split <;> omega)
          · intro hlt
            rw [if_neg (by omega)]
            refine ⟨rfl, ?_⟩
            unfold clamp
            split <;> split <;> (try simp only) <;> omega
        obtain ⟨a, b, e, hab⟩ := hb
        rw [e]
        simp only [h1, Option.map_some]
        refine ⟨_, rfl, ?_⟩
        intro v i
        have e2 : applyOps v (((ROp.sync (clamp r xs.length) ((xs.drop a.toNat).take (b - a).toNat),
            (xs.drop a.toNat).take (b - a).toNat) :: ss).map (·.1)) i =
          applyOps (applyOp v (.sync (clamp r xs.length) ((xs.drop a.toNat).take (b - a).toNat))) (ss.map (·.1)) i := rfl
        rw [e2, h2]
        simp only [hcov]
        have hc : (clamp r xs.length).1 ≤ i ∧ i ≤ (clamp r xs.length).2 ↔ (r.1 ≤ i ∧ i ≤ r.2) ∧ i < xs.length := by
          unfold clamp; split <;> (try simp only) <;> omega
        have hc1 : (clamp r xs.length).1 = r.1 := by unfold clamp; split <;> rfl
        by_cases h3 : Covers rs i ∧ i < (xs.length : Int)
        · rw [if_pos h3, if_pos ⟨Or.inr h3.1, h3.2⟩]
        · rw [if_neg h3]
          simp only [applyOp]
          by_cases h4 : (r.1 ≤ i ∧ i ≤ r.2) ∧ i < (xs.length : Int)
          · rw [if_pos (hc.2 h4), if_pos ⟨Or.inl h4.1, h4.2⟩, hc1]
            obtain ⟨rfl, rfl⟩ := hab (by omega)
            exact at_slice xs r.1 _ i hr.1 h4.1.1 (by have := (hc.2 h4).2; omega)
          · rw [if_neg (fun h => h4 (hc.1 h)), if_neg]
            rintro ⟨h5 | h5, h6⟩
            · exact h4 ⟨h5, h6⟩
            · exact h3 ⟨h5, h6⟩

theorem createRange_sane (p l : Pt) (m : Option Range) (r : Range) (hl : 0 ≤ l.x) (h : createRange p l m = some r) : Sane r := by
  unfold createRange at h
  simp only at h
  unfold Sane
  split at h
  · cases h
  · have hst : ∀ st : Int, (st = l.x ∨ st = l.x + 1) → (if p.op = true then some (st, p.x - 1) else some (st, p.x)) = some r →
        0 ≤ r.1 ∧ r.1 ≤ r.2 + 1 := by
      intro st hst hr
      split at hr <;> simp only [Option.some.injEq] at hr <;> subst hr <;> simp only <;> omega
    refine hst _ ?_ h
    (repeat' split) <;> simp

def SweepSane (s : Sweep) : Prop := (∀ p, s.last = some p → 0 ≤ p.x) ∧ ∀ r ∈ s.added, Sane r

theorem sweepStep_sane (s s' : Sweep) (p : Pt) (hp : 0 ≤ p.x) (h : SweepSane s) (hs : sweepStep s p = some s') : SweepSane s' := by
  unfold sweepStep at hs
  split at hs
  · simp only [Option.some.injEq] at hs; subst hs; exact h
  · cases he : emit s p with
    | none => rw [he] at hs; cases hs
    | some s1 =>
      rw [he] at hs
      simp only [Option.bind_some] at hs
      have h1 : ∀ r ∈ s1.added, Sane r := by
        unfold emit at he
        split at he
        · cases hl : s.last with
          | none => rw [hl] at he; cases he
          | some l =>
            rw [hl] at he
            simp only [Option.some.injEq] at he; subst he; exact h.2
        · split at he
          · cases hl : s.last with
            | none => rw [hl] at he; cases he
            | some l =>
              rw [hl] at he
              simp only at he
              cases hc : createRange p l s.merged with
              | none => rw [hc] at he; simp only [Option.some.injEq] at he; subst he; exact h.2
              | some m =>
                rw [hc] at he; simp only [Option.some.injEq] at he; subst he
                intro r hr
                simp only [List.mem_append, List.mem_singleton] at hr
                rcases hr with hr | rfl
                · exact h.2 r hr
                · exact createRange_sane p l s.merged _ (h.1 l hl) hc
          · split at he
            · cases hl : s.last with
              | none => rw [hl] at he; cases he
              | some l =>
                rw [hl] at he
                simp only at he
                cases hc : createRange p l s.merged with
                | none => rw [hc] at he; simp only [Option.some.injEq] at he; subst he; exact h.2
                | some m => rw [hc] at he; simp only [Option.some.injEq] at he; subst he; exact h.2
            · simp only [Option.some.injEq] at he; subst he; exact h.2
      unfold remember at hs
      split at hs <;> split at hs <;> (try cases hs) <;> split at hs <;> simp only [Option.some.injEq] at hs <;> subst hs <;>
        exact ⟨by intro q hq; simp only [Option.some.injEq] at hq; subst hq; exact hp, h1⟩

theorem sweep_sane (ps : List Pt) (hps : ∀ p ∈ ps, 0 ≤ p.x) (s s' : Sweep) (h : SweepSane s) (hs : ps.foldlM sweepStep s = some s') :
    SweepSane s' := by
  induction ps generalizing s with
  | nil => simp only [List.foldlM_nil] at hs; cases hs; exact h
  | cons p ps ih =>
    rw [List.foldlM_cons] at hs
    cases h1 : sweepStep s p with
    | none => rw [h1] at hs; cases hs
    | some s1 =>
      rw [h1] at hs
      exact ih (fun q hq => hps q (by simp [hq])) s1 (sweepStep_sane s s1 p (hps p (by simp)) h h1) hs

theorem delta_sane (old next : Ranges) (ho : valid old = true) (hn : valid next = true) (d : DeltaResult) (h : delta old next = some d) :
    ∀ r ∈ d.added, Sane r := by
  unfold delta at h
  split at h
  · simp only [Option.some.injEq] at h; subst h; intro r hr; cases hr
  · simp only at h
    rw [Option.map_eq_some_iff] at h
    obtain ⟨s, hs, rfl⟩ := h
    refine (sweep_sane _ ?_ {} s ⟨nofun, nofun⟩ hs).2
    intro p hp
    rw [(Util.isort_perm _ _).mem_iff, List.mem_append] at hp
    have : ∀ b (rs : Ranges), valid rs = true → p ∈ pts b rs → 0 ≤ p.x := by
      intro b rs hv hp
      unfold pts at hp
      rw [List.mem_flatMap] at hp
      obtain ⟨r, hr, hp⟩ := hp
      have := valid_le hv r hr
      simp only [List.mem_cons, List.not_mem_nil, or_false] at hp
      rcases hp with rfl | rfl <;> simp only <;> omega
    rcases hp with hp | hp
    · exact this _ _ ho hp
    · exact this _ _ hn hp

theorem shows_none_out (rs : Ranges) (hv : valid rs = true) (xs : List String) (v : Int → Option String) (i : Int) (h : Shows rs xs v i) (hi : (xs.length : Int) ≤ i) :
    v i = none := by
  by_cases hc : Covers rs i
  · rw [h.1 hc]
    unfold at_
    split
    · exact List.getElem?_eq_none (by omega)
    · rfl
  · exact h.2 hc

/-- C63, partial: for a list that is not sent as a whole, if at an index the client shows its window on the list, it
does so after applying the operations of the response to a request that changes ranges, sort order and
filters in any way.  (No panic either.)  Missing: an index that is a one-index range of the old or new request
(`C63_violated`). -/
theorem C63_partial (joined : String → Bool) (cur re : List String) (p next : RList) (pr nr : Ranges)
    (hpr : p.ranges = some pr) (hnr : next.ranges = some nr) (vp : valid pr = true) (vn : valid nr = true)
    (hg : getsAll next = false) :
    ∃ res, onListRequest joined false cur re (some p) next = some res ∧
      ∀ (v : Int → Option String) (i : Int), (i, i) ∉ pr → (i, i) ∉ nr → Shows pr cur v i →
        Shows nr res.rooms (applyOps v res.ops) i := by
  obtain ⟨d, hd, hdx⟩ := C02_delta_exact vp vn
  have hsane : ∀ r ∈ nr, Sane r := by
    intro r hr
    have := valid_le vn r hr
    unfold Sane; omega
  unfold onListRequest
  simp only [hg, Bool.false_and, Bool.false_eq_true, if_false, Option.bind_some, hpr, hnr, Option.getD_some, hd, Option.map_some,
    Option.isSome_some, Bool.and_true]
  cases hch : (sortChanged (some p) next || filtersChanged (some p) next) with
  | true =>
    simp only [if_true]
    obtain ⟨ss, h1, h2⟩ := apply_syncs re nr hsane
    rw [h1]
    have hno : (!sortChanged (some p) next && !filtersChanged (some p) next) = false := by
      rw [Bool.or_eq_true] at hch
      rcases hch with h | h <;> simp [h]
    simp only [hno, Bool.false_eq_true, if_false, Option.map_some]
    refine ⟨_, rfl, ?_⟩
    intro v i _ _ hsh
    simp only [applyOps_append]
    unfold Shows
    simp only [h2, apply_invalidates]
    have hcl : (if Covers pr i ∧ i < (cur.length : Int) then none else v i) = none := by
      split
      · rfl
      · rename_i hn
        by_cases hc : Covers pr i
        · exact shows_none_out pr vp cur v i hsh (by
            rcases Int.lt_or_le i (cur.length : Int) with h' | h'
            · exact absurd ⟨hc, h'⟩ hn
            · exact h')
        · exact hsh.2 hc
    have e : ¬ (Covers [] i ∧ i < (re.length : Int)) := fun h => covers_nil i |>.1 h.1
    rw [if_neg e, hcl]
    constructor
    · intro hc
      by_cases hi : i < (re.length : Int)
      · rw [if_pos ⟨hc, hi⟩]
      · rw [if_neg (fun h => hi h.2)]
        unfold at_
        split
        · exact (List.getElem?_eq_none (by omega)).symm
        · rfl
    · intro hc
      rw [if_neg (fun h => hc h.1)]
  | false =>
    simp only [Bool.false_eq_true, if_false]
    obtain ⟨ss, h1, h2⟩ := apply_syncs cur d.added (delta_sane pr nr vp vn d hd)
    rw [h1]
    have hchg : ∃ chg, (if (!sortChanged (some p) next && !filtersChanged (some p) next) = true then changedAdds joined cur p next else some []) = some chg := by
      split
      · unfold changedAdds
        simp only
        split
        · rw [hnr]
          obtain ⟨x, hx, _⟩ := C03_sliceInto cur vn
          simp only [Option.getD_some, hx, Option.map_some]
          exact ⟨_, rfl⟩
        · exact ⟨_, rfl⟩
      · exact ⟨_, rfl⟩
    obtain ⟨chg, hchg⟩ := hchg
    simp only [hchg, Option.map_some]
    refine ⟨_, rfl, ?_⟩
    intro v i hip hin hsh
    simp only [applyOps_append]
    have hx := hdx i
    simp only [hip, hin, not_false_eq_true, and_true] at hx
    have e0 : applyOps v [] = v := rfl
    rw [e0]
    unfold Shows
    simp only [h2, apply_invalidates]
    constructor
    · intro hc
      by_cases hi : i < (cur.length : Int)
      · by_cases ha : Covers d.added i
        · rw [if_pos ⟨ha, hi⟩]
        · rw [if_neg (fun h => ha h.1)]
          have hrm : ¬ Covers d.removed i := by rw [hx.2.2]; exact fun h => h.2 hc
          rw [if_neg (fun h => hrm h.1)]
          have hpc : Covers pr i := by
            by_cases hpc : Covers pr i
            · exact hpc
            · exact absurd (hx.2.1.2 ⟨hc, hpc⟩) ha
          exact hsh.1 hpc
      · rw [if_neg (fun h => hi h.2), if_neg (fun h => hi h.2), shows_none_out pr vp cur v i hsh (by omega)]
        unfold at_
        split
        · exact (List.getElem?_eq_none (by omega)).symm
        · rfl
    · intro hc
      have ha : ¬ Covers d.added i := by rw [hx.2.1]; exact fun h => hc h.1
      rw [if_neg (fun h => ha h.1)]
      split
      · rfl
      · rename_i hn
        by_cases hpc : Covers pr i
        · have hr : Covers d.removed i := hx.2.2.2 ⟨hpc, hc⟩
          exact shows_none_out pr vp cur v i hsh (by
            rcases Int.lt_or_le i (cur.length : Int) with h' | h'
            · exact absurd ⟨hr, h'⟩ hn
            · exact h')
        · exact hsh.2 hpc

/-- C63 for the first request of a list: the client starts with nothing. -/
theorem C63_first (joined : String → Bool) (cur re : List String) (next : RList) (nr : Ranges) (hnr : next.ranges = some nr)
    (vn : valid nr = true) (hg : getsAll next = false) :
    ∃ res, onListRequest joined true cur re none next = some res ∧ ∀ i, Shows nr res.rooms (applyOps (fun _ => none) res.ops) i := by
  have hsane : ∀ r ∈ nr, Sane r := by
    intro r hr
    have := valid_le vn r hr
    unfold Sane; omega
  obtain ⟨ss, h1, h2⟩ := apply_syncs re nr hsane
  unfold onListRequest
  simp only [hg, Bool.false_and, Bool.false_eq_true, if_false, Option.bind_none, hnr, Option.getD_some, sortChanged, Bool.true_or, if_true, h1,
    Option.map_some, Option.isSome_none, Bool.and_false]
  refine ⟨_, rfl, ?_⟩
  intro i
  simp only [applyOps_append]
  have e0 : applyOps (fun _ => none) [] = fun _ => none := rfl
  rw [e0]
  unfold Shows
  simp only [h2, apply_invalidates]
  constructor
  · intro hc
    by_cases hi : i < (re.length : Int)
    · rw [if_pos ⟨hc, hi⟩]
    · rw [if_neg (fun h => hi h.2)]
      have e1 : at_ re i = none := by
        unfold at_
        split
        · exact List.getElem?_eq_none (by omega)
        · rfl
      rw [e1]
      split <;> rfl
  · intro hc
    rw [if_neg (fun h => hc h.1)]
    split <;> rfl

/-- C63 is violated: adding the one-index range [1,1] sends nothing, so the client does not see the room. -/
theorem C63_violated : ∃ (cur : List String) (p next : RList) (pr nr : Ranges) (v : Int → Option String) (res : Result),
    p.ranges = some pr ∧ next.ranges = some nr ∧ valid pr = true ∧ valid nr = true ∧ getsAll next = false ∧
    (∀ i, Shows pr cur v i) ∧
    onListRequest (fun _ => true) false cur cur (some p) next = some res ∧ ¬ Shows nr res.rooms (applyOps v res.ops) 1 := by
  refine ⟨["!a", "!b"], { ranges := some [(0, 0)], sort := some ["by_name"] }, { ranges := some [(0, 0), (1, 1)], sort := some ["by_name"] },
    [(0, 0)], [(0, 0), (1, 1)], fun i => if i = 0 then some "!a" else none, ⟨[], [], ["!a", "!b"]⟩, rfl, rfl, by decide, by decide, by decide, ?_, by decide +kernel, ?_⟩
  · intro i
    constructor
    · rintro ⟨r, hr, h⟩
      simp only [List.mem_singleton] at hr
      subst hr
      simp only at h
      have : i = 0 := by omega
      subst this
      simp [at_]
    · intro h
      have : i ≠ 0 := by
        intro h'; subst h'; exact h ⟨(0, 0), by simp, by decide⟩
      simp [this]
  · intro h
    have := h.1 ⟨(1, 1), by simp, by decide⟩
    simp [applyOps, at_] at this

/-- A SYNC operation may come with an inverted range and a room that is not at that place: merging the adjacent
windows [0,3],[4,10] of a list of four rooms sends SYNC [4,3] with the fourth room. -/
theorem C63_inverted : ∃ (cur : List String) (p next : RList) (res : Result),
    onListRequest (fun _ => true) false cur cur (some p) next = some res ∧ res.ops = [.sync (4, 3) ["!d"]] := by
  refine ⟨["!a", "!b", "!c", "!d"], { ranges := some [(0, 3), (4, 10)], sort := some ["by_name"] }, { ranges := some [(0, 10)], sort := some ["by_name"] },
    ⟨[.sync (4, 3) ["!d"]], [({}, ["!d"])], ["!a", "!b", "!c", "!d"]⟩, by decide +kernel, rfl⟩

/-- The hypotheses of `C63_partial` are satisfiable with a non-trivial change. -/
example : (onListRequest (fun _ => true) false ["!a", "!b", "!c"] ["!a", "!b", "!c"]
    (some { ranges := some [(0, 1)], sort := some ["by_name"] }) { ranges := some [(1, 5)], sort := some ["by_name"] }).map (·.ops)
    = some [.invalidate (0, 0), .sync (2, 2) ["!c"]] := by decide +kernel

/-! ## C64: the rooms of a list after a change of filters -/

/-- C64, partial: for a list that is not sent as a whole, a change of filters or sort order makes the re-created
list the one in use.  Missing: lists sent as a whole (`C64_violated`). -/
theorem C64_partial (joined : String → Bool) (isNew : Bool) (cur re : List String) (prev : Option RList) (next : RList)
    (hg : getsAll next = false) (hc : filtersChanged prev next = true) (res : Result)
    (h : onListRequest joined isNew cur re prev next = some res) : res.rooms = re := by
  unfold onListRequest at h
  simp only [hg, Bool.false_and, Bool.false_eq_true, if_false, hc, Bool.or_true, if_true] at h
  split at h
  · cases h
  · split at h
    · cases h
    · rw [Option.map_eq_some_iff] at h
      obtain ⟨_, _, rfl⟩ := h
      rfl

/-- C64 is violated for a list sent as a whole: the rooms sent after a change of filters are those of the old list,
whatever the new filters select. -/
theorem C64_violated (joined : String → Bool) (cur re : List String) (p next : RList)
    (hg : getsAll next = true) (hc : filtersChanged (some p) next = true) :
    ∃ res, onListRequest joined false cur re (some p) next = some res ∧ res.rooms = cur ∧
      res.ops = [.sync (0, (cur.length : Int) - 1) cur] := by
  refine ⟨⟨[.sync (0, (cur.length : Int) - 1) cur], [(next.toSub, cur)], cur⟩, ?_, rfl, rfl⟩
  simp only [onListRequest, hg, hc, Bool.or_true, Bool.and_true, if_true]

example : filtersChanged (some { getAll := some true, filters := some {} }) { getAll := some true, filters := none } = true := by decide

end Verif.ConnLists
