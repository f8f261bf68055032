import Verif.ConnListsProps
import Verif.RequestProps
/-! # C118: a changed timeline limit or required state reaches the rooms of the list -/
namespace Verif.ConnLists
open Verif.Ranges Verif.Request

/-! ## Specification -/

/-- The order and the rooms of the list stay: same sort order, same filters. -/
def SameRooms (p next : RList) : Prop := p.sort.getD [] = next.sort.getD [] ∧ p.filters = next.filters

def LimitChanged (p next : RList) : Prop := p.limit ≠ next.limit

def StateChanged (p next : RList) : Prop := p.reqState.getD [] ≠ next.reqState.getD []

/-- The room is sent with what changed. -/
def SentAgain (p next : RList) (res : Result) (room : String) : Prop :=
  ∃ a ∈ res.adds, room ∈ a.2 ∧ (LimitChanged p next → a.1.limit = next.limit) ∧
    (StateChanged p next → a.1.reqState.getD [] = next.reqState.getD [])

/-! ## Proofs -/

theorem same_flags {p next : RList} (h : SameRooms p next) :
    sortChanged (some p) next = false ∧ filtersChanged (some p) next = false := by
  refine ⟨?_, ?_⟩
  · simp [sortChanged, h.1]
  · simp [filtersChanged, h.2]

/-- What the response has for an existing list whose rooms stay. -/
theorem same_result {joined : String → Bool} {isNew : Bool} {cur re : List String} {p next : RList} {res : Result}
    (h : onListRequest joined isNew cur re (some p) next = some res) (hsame : SameRooms p next)
    (hall : getsAll next = false ∨ isNew = false) :
    ∃ added ss chg, syncs cur added = some ss ∧ changedAdds joined cur p next = some chg ∧
      res.adds = ss.map (fun x => (next.toSub, x.2)) ++ chg ∧ res.rooms = cur ∧
      ∀ x ∈ ss, ∃ r, ROp.sync r x.2 ∈ res.ops := by
  obtain ⟨hs, hf⟩ := same_flags hsame
  unfold onListRequest at h
  rw [if_neg (by rw [hf]; rcases hall with h | h <;> simp [h])] at h
  simp only [hs, hf, Bool.or_self, Bool.false_and, Bool.false_eq_true, if_false, Bool.not_false, Bool.and_self, if_true] at h
  split at h
  · cases h
  · rename_i added removed _
    split at h
    · cases h
    · rename_i ss hss
      rw [Option.map_eq_some_iff] at h
      obtain ⟨chg, hchg, rfl⟩ := h
      refine ⟨added, ss, chg, hss, hchg, rfl, rfl, fun x hx => ?_⟩
      obtain ⟨r, hr⟩ := mem_syncs _ _ _ hss x hx
      refine ⟨r, ?_⟩
      simp only [List.mem_append, List.mem_map]
      exact Or.inr ⟨x, hx, hr⟩

theorem mem_visible {xs : List String} {rs : Ranges} {i : Int} {room : String} (hc : Covers rs i) (ha : at_ xs i = some room) :
    room ∈ rs.flatMap (visibleIn xs) := by
  obtain ⟨r, hr, h1, h2⟩ := hc
  refine List.mem_flatMap.2 ⟨r, hr, ?_⟩
  unfold at_ at ha
  split at ha
  · rename_i h0
    unfold visibleIn
    refine List.mem_map.2 ⟨(room, i.toNat), List.mem_filter.2 ⟨?_, ?_⟩, rfl⟩
    · exact List.mem_zipIdx_iff_getElem?.2 ha
    · have : ((i.toNat : Nat) : Int) = i := Int.toNat_of_nonneg h0
      simp only [this, Bool.and_eq_true, decide_eq_true_eq]
      exact ⟨h1, h2⟩
  · cases ha

theorem of_visible {xs : List String} {rs : Ranges} {room : String} (h : room ∈ rs.flatMap (visibleIn xs)) :
    ∃ i, Covers rs i ∧ at_ xs i = some room := by
  obtain ⟨r, hr, h⟩ := List.mem_flatMap.1 h
  unfold visibleIn at h
  obtain ⟨⟨y, k⟩, hy, rfl⟩ := List.mem_map.1 h
  obtain ⟨hk, hb⟩ := List.mem_filter.1 hy
  simp only [Bool.and_eq_true, decide_eq_true_eq] at hb
  refine ⟨(k : Int), ⟨r, hr, hb.1, hb.2⟩, ?_⟩
  unfold at_
  rw [if_pos (Int.natCast_nonneg k)]
  exact List.mem_zipIdx_iff_getElem?.1 hk

/-- C118 (partial: for the rooms in the ranges of the request): when the timeline limit or the required state of a list
changes, every joined room in the window is sent with the new limit and the new required state. Missing: lists that ask for
all rooms and have no ranges (`C118_violated_all`). -/
theorem C118_changed_partial (joined : String → Bool) (isNew : Bool) (cur re : List String) (p next : RList) (res : Result)
    (h : onListRequest joined isNew cur re (some p) next = some res) (hsame : SameRooms p next)
    (hall : getsAll next = false ∨ isNew = false) (hch : LimitChanged p next ∨ StateChanged p next)
    (nr : Ranges) (hnr : next.ranges = some nr) (hv : valid nr = true)
    (i : Int) (room : String) (hi : Covers nr i) (hr : at_ cur i = some room) (hj : joined room = true) :
    SentAgain p next res room := by
  obtain ⟨added, ss, chg, _, hchg, hadds, _, _⟩ := same_result h hsame hall
  obtain ⟨sl, hsl, hfl⟩ := C03_sliceInto cur hv
  have hst : requiredStateChanged p.toBase next.toBase = false ↔ p.reqState.getD [] = next.reqState.getD [] :=
    requiredStateChanged_iff p.toBase next.toBase
  have hcond : (decide (p.limit ≠ next.limit) || requiredStateChanged p.toBase next.toBase) = true := by
    rcases hch with hc | hc
    · have : decide (p.limit ≠ next.limit) = true := decide_eq_true hc
      rw [this]; rfl
    · cases hq : requiredStateChanged p.toBase next.toBase with
      | true => simp
      | false => exact absurd (hst.1 hq) hc
  unfold changedAdds at hchg
  rw [if_pos hcond, hnr, Option.getD_some, hsl, Option.map_some, Option.some.injEq] at hchg
  have hmem : room ∈ sl.flatten := by rw [hfl]; exact mem_visible hi hr
  obtain ⟨ids, hids, hrm⟩ := List.mem_flatten.1 hmem
  refine ⟨_, by rw [hadds]; exact List.mem_append_right _ (by rw [← hchg]; exact List.mem_map.2 ⟨ids, hids, rfl⟩),
    List.mem_filter.2 ⟨hrm, hj⟩, fun hl => ?_, fun hs => ?_⟩
  · have : decide (p.limit ≠ next.limit) = true := decide_eq_true hl
    simp only [this, if_true]
  · cases hq : requiredStateChanged p.toBase next.toBase with
    | false => exact absurd (hst.1 hq) hs
    | true => simp only [if_true]

/-- C118: a room is sent only with a SYNC operation of the response or because it is joined and in the windows of this
request. A room that has left the windows is not sent again. In the second case a timeline is asked for only if the limit
changed, and state only if the required state changed. -/
theorem C118_only (joined : String → Bool) (isNew : Bool) (cur re : List String) (p next : RList) (res : Result)
    (h : onListRequest joined isNew cur re (some p) next = some res) (hsame : SameRooms p next)
    (hall : getsAll next = false ∨ isNew = false)
    (nr : Ranges) (hnr : next.ranges = some nr) (hv : valid nr = true)
    (a : Add) (ha : a ∈ res.adds) (room : String) (hroom : room ∈ a.2) :
    (∃ r, ROp.sync r a.2 ∈ res.ops) ∨
      (joined room = true ∧ (∃ i, Covers nr i ∧ at_ cur i = some room) ∧
        (a.1.limit ≠ 0 → LimitChanged p next) ∧ (a.1.reqState ≠ none → StateChanged p next)) := by
  obtain ⟨added, ss, chg, _, hchg, hadds, _, hops⟩ := same_result h hsame hall
  rw [hadds] at ha
  rcases List.mem_append.1 ha with ha | ha
  · obtain ⟨x, hx, rfl⟩ := List.mem_map.1 ha
    exact Or.inl (hops x hx)
  · right
    obtain ⟨sl, hsl, hfl⟩ := C03_sliceInto cur hv
    unfold changedAdds at hchg
    simp only at hchg
    split at hchg
    · rw [hnr, Option.getD_some, hsl, Option.map_some, Option.some.injEq] at hchg
      subst hchg
      obtain ⟨ids, hids, rfl⟩ := List.mem_map.1 ha
      obtain ⟨hm, hj⟩ := List.mem_filter.1 hroom
      refine ⟨hj, of_visible (by rw [← hfl]; exact List.mem_flatten.2 ⟨ids, hids, hm⟩), fun hl => ?_, fun hs => ?_⟩
      · intro he
        exact hl (by simp [he])
      · intro he
        have := (requiredStateChanged_iff p.toBase next.toBase).2 he
        exact hs (by simp only [this, Bool.false_eq_true, if_false])
    · simp only [Option.some.injEq] at hchg
      subst hchg
      cases ha

/-- C118: when neither changes, rooms are sent only with the SYNC operations for newly shown ranges. -/
theorem C118_unchanged (joined : String → Bool) (isNew : Bool) (cur re : List String) (p next : RList) (res : Result)
    (h : onListRequest joined isNew cur re (some p) next = some res) (hsame : SameRooms p next)
    (hall : getsAll next = false ∨ isNew = false) (hch : ¬ LimitChanged p next ∧ ¬ StateChanged p next)
    (a : Add) (ha : a ∈ res.adds) : a.1 = next.toSub ∧ ∃ r, ROp.sync r a.2 ∈ res.ops := by
  obtain ⟨hs, hf⟩ := same_flags hsame
  have hcond : (decide (p.limit ≠ next.limit) || requiredStateChanged p.toBase next.toBase) = false := by
    have h1 : decide (p.limit ≠ next.limit) = false := decide_eq_false hch.1
    have h2 : requiredStateChanged p.toBase next.toBase = false := by
      refine (requiredStateChanged_iff p.toBase next.toBase).2 ?_
      exact Classical.byContradiction hch.2
    rw [h1, h2]; rfl
  unfold onListRequest at h
  rw [if_neg (by rw [hf]; rcases hall with h | h <;> simp [h])] at h
  simp only [hs, hf, Bool.or_self, Bool.false_and, Bool.false_eq_true, if_false, Bool.not_false, Bool.and_self, if_true] at h
  split at h
  · cases h
  · split at h
    · cases h
    · rename_i ss hss
      unfold changedAdds at h
      simp only [hcond, Bool.false_eq_true, if_false, Option.map_some, Option.some.injEq] at h
      subst h
      simp only [List.append_nil, List.mem_map] at ha
      obtain ⟨x, hx, rfl⟩ := ha
      obtain ⟨r, hr⟩ := mem_syncs _ _ _ hss x hx
      refine ⟨rfl, r, ?_⟩
      simp only [List.mem_append, List.mem_map]
      exact Or.inr ⟨x, hx, hr⟩

private def p0 : RList := { ranges := some [(0, 1)], sort := some ["by_name"], limit := 1, reqState := some [("m.room.name", "")] }
private def n0 : RList := { p0 with limit := 20 }

/-- The hypotheses of `C118_only` can hold, with a room that leaves the window: from 0-2 to 0-1 with a new limit `!c` is not sent. -/
example : ∃ res, onListRequest (fun _ => true) false ["!a", "!b", "!c"] [] (some { p0 with ranges := some [(0, 2)] }) n0 = some res ∧
    SameRooms { p0 with ranges := some [(0, 2)] } n0 ∧ getsAll n0 = false ∧ valid [(0, 1)] = true ∧
    res.adds = [({ limit := 20 }, ["!a", "!b"])] := by
  refine ⟨⟨[.invalidate (2, 2)], [({ limit := 20 }, ["!a", "!b"])], ["!a", "!b", "!c"]⟩, by decide +kernel, ⟨rfl, rfl⟩, rfl, by decide, rfl⟩

/-- The hypotheses of `C118_changed_partial` can hold: the limit changes from 1 to 20. -/
example : ∃ res, onListRequest (fun r => r != "!b") false ["!a", "!b", "!c"] [] (some p0) n0 = some res ∧
    SameRooms p0 n0 ∧ getsAll n0 = false ∧ LimitChanged p0 n0 ∧ valid [(0, 1)] = true ∧ Covers [(0, 1)] 0 ∧
    at_ ["!a", "!b", "!c"] 0 = some "!a" ∧ res.adds = [({ limit := 20 }, ["!a"])] := by
  refine ⟨⟨[], [({ limit := 20 }, ["!a"])], ["!a", "!b", "!c"]⟩, by decide +kernel, ⟨rfl, rfl⟩, rfl, by unfold LimitChanged; decide, by decide,
    ⟨(0, 1), by simp, by decide, by decide⟩, by decide, rfl⟩

private def p1 : RList := { sort := some ["by_name"], limit := 1, getAll := some true }
private def n1 : RList := { p1 with limit := 20, reqState := some [("m.room.topic", "")] }

/-- C118 is violated for lists that ask for all rooms (`slow_get_all_rooms`): a change of the timeline limit or the required state
goes by the ranges of the list (`connstate.go:402`), of which there are none, so nothing is sent although the client was sent
every room of the list. -/
theorem C118_violated_all :
    ∃ res, onListRequest (fun _ => true) false ["!a"] [] (some p1) n1 = some res ∧ SameRooms p1 n1 ∧ LimitChanged p1 n1 ∧
      StateChanged p1 n1 ∧ res.rooms = ["!a"] ∧ ¬ SentAgain p1 n1 res "!a" := by
  refine ⟨⟨[], [], ["!a"]⟩, by decide +kernel, ⟨rfl, rfl⟩, by unfold LimitChanged; decide, by unfold StateChanged; decide, rfl, ?_⟩
  rintro ⟨a, ha, _⟩
  cases ha

end Verif.ConnLists
