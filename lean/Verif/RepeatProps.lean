import Verif.Repeat
import Verif.RequestProps
/-!
# Saying the same again changes nothing (C144)
-/
namespace Verif.Repeat
open Verif.Request Verif.ConnLists

/-- No list of the request is marked as deleted, or comes with an empty sort order. -/
def Plain (r : Req) : Prop := ∀ k l, r.lists k = some l → l.deleted = false ∧ l.sort ≠ some []

/-- The connection is asked for nothing: no subscription, no list is removed, and the lists have no operations and no rooms to send. -/
def Nothing (cur : String → List String) (a : Asked) : Prop :=
  (∀ room, a.subs room = false) ∧ a.unsubs = [] ∧ (∀ k, a.gone k = false) ∧ ∀ k x, a.lists k = some x → x = some ⟨[], [], cur k⟩

theorem orElse_self {α} (a b : Option α) : orElse a (orElse a b) = orElse a b := by cases a <;> rfl

theorem orElse_id {α} (a : Option α) : orElse a a = a := by cases a <;> rfl

theorem merge_again (e n : RList) : mergeList (mergeList e n) n = mergeList e n := by
  unfold mergeList
  simp only [orElse_self]
  congr 2
  by_cases h : n.limit = 0 <;> simp [h]

theorem merge_first {n : RList} (hd : n.deleted = false) (x : Option (List String)) (h : orElse n.sort x = x) :
    mergeList { n with sort := x } n = { n with sort := x } := by
  obtain ⟨⟨⟨a, b, c⟩, d⟩, e, f, g, i, j, k⟩ := n
  simp only at hd h
  subst hd
  unfold mergeList
  simp only [h, orElse_id]
  by_cases hb : b = 0 <;> simp [hb]

theorem applyList_again (e : Option RList) (n : Option RList) (h : ∀ l, n = some l → l.deleted = false ∧ l.sort ≠ some []) :
    applyList (applyList e n) n = applyList e n := by
  cases n with
  | none => rfl
  | some n =>
    obtain ⟨hd, hs⟩ := h n rfl
    cases e with
    | some e => simp [applyList, hd, merge_again]
    | none =>
      by_cases hl : (n.sort.getD []).length = 0
      · have : n.sort = none := by
          cases hx : n.sort with
          | none => rfl
          | some s =>
            rw [hx] at hl hs
            simp only [Option.getD_some, List.length_eq_zero_iff] at hl
            rw [hl] at hs
            exact absurd rfl hs
        have key := merge_first (n := n) hd (some ["by_recency"]) (by rw [this]; rfl)
        simp only [applyList, if_pos hl, hd, Bool.false_eq_true, if_false]
        rw [hd] at key
        exact congrArg some key
      · have key := merge_first (n := n) hd n.sort (by cases n.sort <;> rfl)
        simp only [applyList, if_neg hl, hd, Bool.false_eq_true, if_false]
        exact congrArg some key

theorem subs_again (m r : Req) (hu : m.unsubs = []) (room : String) :
    (applyDelta (applyDelta m r).1 r).1.subs room = (applyDelta m r).1.subs room := by
  rw [applyDelta_subs _ _ rfl, applyDelta_subs _ _ hu]
  by_cases h : room ∈ r.unsubs
  · rw [if_pos h, if_pos h]
  · rw [if_neg h, if_neg h]
    cases r.subs room <;> rfl

theorem state_same (b : Base) : requiredStateChanged b b = false := by
  unfold requiredStateChanged
  simp only [ne_eq, not_true_eq_false, if_false]
  rw [List.any_eq_false]
  intro p h
  have : ∀ (l : List (String × String)), ∀ p ∈ l.zip l, p.1 = p.2 := by
    intro l
    induction l with
    | nil => intro p m; cases m
    | cons a l ih =>
      intro p m
      rcases List.mem_cons.1 m with rfl | m
      · rfl
      · exact ih p m
  simp [this _ p h]

theorem list_same (joined : String → Bool) (isNew : Bool) (cur re : List String) (l : RList) (h : getsAll l = true → isNew = false) :
    onListRequest joined isNew cur re (some l) l = some ⟨[], [], cur⟩ := by
  have hf : filtersChanged (some l) l = false := by simp [filtersChanged]
  have hs : sortChanged (some l) l = false := by simp [sortChanged]
  have hg : (getsAll l && (isNew || filtersChanged (some l) l)) = false := by
    rw [hf]
    cases hl : getsAll l with
    | false => rfl
    | true => rw [h hl]; rfl
  unfold onListRequest
  rw [hg, hf, hs]
  cases hr : l.ranges with
  | none => simp [changedAdds, state_same, syncs, invalidates, hr]
  | some rs => simp [changedAdds, state_same, syncs, invalidates, hr, Ranges.delta]

theorem again (joined isNew : String → Bool) (cur re : String → List String) (m r : Req) (hu : m.unsubs = []) (plain : Plain r)
    (hn : ∀ k l, (applyDelta m r).1.lists k = some l → getsAll l = true → isNew k = false) :
    (handle joined isNew cur re (applyDelta m r).1 r).1.lists = (applyDelta m r).1.lists ∧
    (handle joined isNew cur re (applyDelta m r).1 r).1.subs = (applyDelta m r).1.subs ∧
    Nothing cur (handle joined isNew cur re (applyDelta m r).1 r).2 := by
  have hl : (applyDelta (applyDelta m r).1 r).1.lists = (applyDelta m r).1.lists := by
    funext k
    exact applyList_again _ _ fun l e => plain k l e
  have hsub : (applyDelta (applyDelta m r).1 r).1.subs = (applyDelta m r).1.subs := funext fun room => subs_again m r hu room
  refine ⟨hl, hsub, ?_, ?_, ?_, ?_⟩
  · intro room
    show announced (applyDelta m r).1.subs (applyDelta (applyDelta m r).1 r).1.subs room = false
    rw [hsub]
    unfold announced
    cases (applyDelta m r).1.subs room with
    | none => rfl
    | some s => simp [state_same]
  · refine List.eq_nil_iff_forall_not_mem.2 fun room h => ?_
    have := (applyDelta_unsubs _ _ rfl room).1 h
    rw [applyDelta_subs _ _ hu, if_pos this.1] at this
    cases this.2.2
  · intro k
    show (((applyDelta m r).1.lists k).isSome && ((applyDelta (applyDelta m r).1 r).1.lists k).isNone) = false
    rw [hl]
    cases (applyDelta m r).1.lists k <;> rfl
  · intro k x h
    have h : (((applyDelta (applyDelta m r).1 r).1.lists k).map fun l =>
        onListRequest joined (isNew k) (cur k) (re k) ((applyDelta m r).1.lists k) l) = some x := h
    rw [hl] at h
    cases e : (applyDelta m r).1.lists k with
    | none => rw [e] at h; cases h
    | some l =>
      rw [e] at h
      simp only [Option.map_some, Option.some.injEq] at h
      rw [← h]
      exact list_same _ _ _ _ l (hn k l e)

/-- **C144.** A client that sends the same parameters with every request, as most do, gets nothing because of that, whatever it sent before:
the parameters in force stay the same, no subscription is new, and no list has operations or rooms. (All lists exist; none is marked as
deleted or comes with an empty sort order.) -/
theorem C144_same_partial (reqs : List Req) (r : Req) (joined : String → Bool) (cur re : String → List String) (plain : Plain r) :
    let m := muxed (reqs ++ [r])
    let h := handle joined (fun _ => false) cur re m r
    h.1.lists = m.lists ∧ h.1.subs = m.subs ∧ Nothing cur h.2 := by
  intro m h
  have e : m = (applyDelta (muxed reqs) r).1 := muxed_append reqs r
  have := again joined (fun _ => false) cur re (muxed reqs) r (muxed_unsubs reqs) plain fun _ _ _ _ => rfl
  rw [← e] at this
  exact this

/-- The other side of it: a request that fails (panics) after its parameters were merged is not remembered, so the client sends it again and it
is handled again (C18). But then nothing in it is new: whatever it asked for, rooms and windows, is not sent, neither now nor later,
although the client never got it. `isNew` may say anything here, as the lists may not have been made yet, but for lists that get
all rooms. -/
theorem C144_violated_failed (reqs : List Req) (r : Req) (joined isNew : String → Bool) (cur re : String → List String) (plain : Plain r)
    (hn : ∀ k l, (muxed (reqs ++ [r])).lists k = some l → getsAll l = true → isNew k = false) :
    Nothing cur (handle joined isNew cur re (muxed (reqs ++ [r])) r).2 := by
  have e : muxed (reqs ++ [r]) = (applyDelta (muxed reqs) r).1 := muxed_append reqs r
  rw [e] at hn ⊢
  exact (again joined isNew cur re (muxed reqs) r (muxed_unsubs reqs) plain hn).2.2

/-- A first request with a window and a subscription. -/
def first : Req :=
  { lists := fun k => if k = "l" then some { ranges := some [(0, 9)], limit := 5 } else none
    subs := fun x => if x = "!a" then some { limit := 20 } else none }

theorem first_plain : Plain first := by
  intro k l h
  simp only [first] at h
  split at h
  · cases h; exact ⟨rfl, by decide⟩
  · cases h

/-- Such a request asks for rooms, when it is handled for the first time. -/
example : (handle (fun _ => true) (fun _ => true) (fun _ => ["!a", "!b"]) (fun _ => ["!b", "!a"]) (muxed []) first).2.subs "!a" = true ∧
    (handle (fun _ => true) (fun _ => true) (fun _ => ["!a", "!b"]) (fun _ => ["!b", "!a"]) (muxed []) first).2.lists "l" =
      some (some ⟨[.sync (0, 1) ["!b", "!a"]], [({ limit := 5 }, ["!b", "!a"])], ["!b", "!a"]⟩) := by
  decide +kernel

/-- And the second time for nothing. -/
example : Nothing (fun _ => ["!b", "!a"])
    (handle (fun _ => true) (fun _ => false) (fun _ => ["!b", "!a"]) (fun _ => ["!b", "!a"]) (muxed [first]) first).2 :=
  C144_violated_failed [] first _ _ _ _ first_plain fun _ _ _ _ => rfl

/-- A client that keeps sending that a list is deleted gets it back with every second request: the mark is looked at only for lists that exist. -/
theorem C144_violated_deleted (reqs : List Req) (k : String) (r : Req) (l : RList) (h : r.lists k = some l) (hd : l.deleted = true)
    (he : ((muxed reqs).lists k).isSome = true) :
    (muxed (reqs ++ [r])).lists k = none ∧ ((muxed (reqs ++ [r, r])).lists k).isSome = true := by
  have e : muxed (reqs ++ [r]) = (applyDelta (muxed reqs) r).1 := muxed_append reqs r
  have e' : muxed (reqs ++ [r, r]) = (applyDelta (muxed (reqs ++ [r])) r).1 := by
    rw [show reqs ++ [r, r] = (reqs ++ [r]) ++ [r] by simp]
    exact muxed_append (reqs ++ [r]) r
  obtain ⟨x, hx⟩ := Option.isSome_iff_exists.1 he
  have h₁ : (muxed (reqs ++ [r])).lists k = none := by
    rw [e]
    show applyList ((muxed reqs).lists k) (r.lists k) = none
    rw [h, hx]
    simp [applyList, hd]
  refine ⟨h₁, ?_⟩
  rw [e']
  show (applyList ((muxed (reqs ++ [r])).lists k) (r.lists k)).isSome = true
  rw [h, h₁]
  simp only [applyList]
  split <;> rfl

example : ((muxed [first]).lists "l").isSome = true := by decide +kernel

/-- A first request with a window and an empty sort order. -/
def unsorted : Req :=
  { lists := fun k => if k = "l" then some { ranges := some [(0, 9)], limit := 5, sort := some [] } else none }

/-- A client that sends an empty sort order gets a list by recency first; with the second request the list is no longer sorted by anything. For
`unsorted`, all windows are sent again. -/
theorem C144_violated_sort :
    (∀ (k : String) (r : Req) (l : RList), r.lists k = some l → l.deleted = false → l.sort = some [] →
      ((muxed [r]).lists k).map (·.sort) = some (some ["by_recency"]) ∧ ((muxed [r, r]).lists k).map (·.sort) = some (some [])) ∧
    (handle (fun _ => true) (fun _ => false) (fun _ => ["!b", "!a"]) (fun _ => ["!a", "!b"]) (muxed [unsorted]) unsorted).2.lists "l" =
      some (some ⟨[.invalidate (0, 1), .sync (0, 1) ["!a", "!b"]], [({ limit := 5 }, ["!a", "!b"])], ["!a", "!b"]⟩) := by
  refine ⟨?_, by decide +kernel⟩
  intro k r l h hd hs
  have h₁ : (muxed [r]).lists k = some { l with sort := some ["by_recency"] } := by
    show applyList none (r.lists k) = _
    rw [h]
    simp [applyList, hs]
  have h₂ : (muxed [r, r]).lists k = some (mergeList { l with sort := some ["by_recency"] } l) := by
    show applyList ((muxed [r]).lists k) (r.lists k) = _
    rw [h₁, h]
    simp [applyList, hd]
  exact ⟨by rw [h₁]; rfl, by rw [h₂]; simp [mergeList, hs, orElse]⟩

end Verif.Repeat
