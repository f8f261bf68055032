import Verif.LiveRoomsProps
/-!
# C130: the client hears of every event of the rooms it follows
-/
namespace Verif.LiveRooms
open Verif.Ranges Verif.ListOps

variable {α : Type} [DecidableEq α]

/-! ### Specification -/

/-- A room is added only to a list it is not in, and sorting permutes the list. -/
def Sorts (sort : List α → List α) (accept : Bool) (before : List α) (room : α) : LOp → Prop
  | .add => accept = true ∧ room ∉ before ∧ (sort (before ++ [room])).Perm (before ++ [room])
  | .change => (sort before).Perm before
  | .del => True

/-- What `SetRoom` (`sync3/lists.go:93-153`) and sorting guarantee: each list the room is in has a change, only lists it is not in have
an addition, and sorting permutes. -/
structure Told (s : St α) (u : Update α) : Prop where
  ranges : ∀ l ∈ s.lists, valid l.ranges = true
  nodup : ∀ l ∈ s.lists, l.order.Nodup
  change : ∀ (i : Nat) (l : RoomList α), s.lists[i]? = some l → u.room ∈ l.order → ∃ d, u.deltas[i]? = some (some d)
  adm : ∀ (i : Nat) (l : RoomList α) (d : Delta α), s.lists[i]? = some l → u.deltas[i]? = some (some d) →
    Sorts d.sort d.accept l.order u.room d.op

/-! ### The operations of a list -/

omit [DecidableEq α] in
theorem getI_mem {l : List α} {i : Int} {x : α} (h : getI l i = some x) : x ∈ l := by
  unfold getI at h
  split at h
  · cases h
  · exact List.mem_of_getElem? h

theorem getI_idxOf {l : List α} (hn : l.Nodup) {i : Int} {x : α} (h : getI l i = some x) : indexOf l x = some i := by
  have hm := getI_mem h
  unfold getI at h
  split at h
  · cases h
  · rename_i hi
    rw [indexOf_mem hm]
    obtain ⟨hlt, he⟩ := List.getElem?_eq_some_iff.1 h
    have : l.idxOf x = i.toNat := by rw [← he]; exact hn.idxOf_getElem _ hlt
    rw [this]
    congr 1
    omega

/-- Each move makes an operation, unless the room stays where it is. -/
theorem loop_ops {c : Ctx α} {ps : List (Int × Int)} {os : List (Op α)} {ss : List α} (h : loop c ps = some (os, ss)) (hne : ps ≠ []) :
    os ≠ [] ∨ (c.op = .change ∧ ∃ p ∈ ps, getI c.after p.2 = some c.room) := by
  cases ps with
  | nil => exact absurd rfl hne
  | cons p ps =>
    unfold loop at h
    cases h1 : loopBody c p with
    | none => rw [h1] at h; cases h
    | some x =>
      obtain ⟨o, s⟩ := x
      rw [h1] at h
      simp only [Option.bind_eq_bind, Option.bind_some] at h
      cases h2 : loop c ps with
      | none => rw [h2] at h; cases h
      | some y =>
        obtain ⟨os', ss'⟩ := y
        rw [h2] at h
        simp at h
        obtain ⟨rfl, rfl⟩ := h
        unfold loopBody at h1
        cases h3 : getI c.after p.2 with
        | none => simp [h3] at h1
        | some y =>
          simp only [h3, Option.bind_eq_bind, Option.bind_some] at h1
          split at h1
          · rename_i hc
            right
            exact ⟨hc.2.2.1, p, by simp, by rw [h3, hc.1]⟩
          · left
            split at h1
            · simp at h1
              intro e
              simp [← h1.1] at e
            · simp [writeSwapOp] at h1
              intro e
              simp [← h1.1] at e

/-- If the room was in a window, there are operations or the room is in a window still. -/
theorem finish_ops {rs : Ranges} (hv : valid rs = true) {after : List α} {room : α} {op : LOp} {f t : Int} {w : Bool} {res : Result α}
    (h : calculateListOps.finish rs after room op f t w = some res) (hf : Covers rs f) : res.ops ≠ [] ∨ (op = .change ∧ Visible rs after room) := by
  unfold calculateListOps.finish at h
  obtain ⟨ps, k1, k2, k3⟩ := C04_move_indexes hv f t
  rw [k1] at h
  simp only [Option.bind_eq_bind, Option.bind_some] at h
  cases h2 : loop ⟨rs, room, op, w, t, after, ps.length⟩ ps with
  | none => rw [h2] at h; cases h
  | some x =>
    rw [h2] at h
    simp at h
    subst h
    obtain ⟨r, hr, h1, h1'⟩ := hf
    have ht : touches f t r := ⟨Or.inl h1, Or.inl h1'⟩
    have hne : ps ≠ [] := by
      intro e
      have : clip f t r ∈ ps := k2.mem_iff.2 (List.mem_map.2 ⟨r, List.mem_filter.2 ⟨hr, by simpa using ht⟩, rfl⟩)
      rw [e] at this
      cases this
    rcases loop_ops h2 hne with hl | ⟨hop, p, hp, hg⟩
    · exact Or.inl hl
    · right
      refine ⟨hop, p.2, ?_, hg⟩
      obtain ⟨q, hq, rfl⟩ := List.mem_map.1 (k2.mem_iff.1 hp)
      obtain ⟨q1, q2⟩ := List.mem_filter.1 hq
      exact ⟨q, q1, ((k3 q q1 (by simpa using q2)).2.1)⟩

/-- A room that is in a window before or after the update: there are operations, or it is in a window after. -/
theorem calc_ops {rs : Ranges} (hv : valid rs = true) {sort : List α → List α} {accept : Bool} {before : List α} {room : α} {op : LOp}
    {res : Result α} (h : calculateListOps rs sort accept before room op = some res) (hn : before.Nodup)
    (hadm : Sorts sort accept before room op) (hb : Visible rs before room) :
    res.ops ≠ [] ∨ Visible rs res.after room := by
  obtain ⟨i, hi, hg⟩ := hb
  have hm := getI_mem hg
  have hidx := getI_idxOf hn hg
  unfold calculateListOps at h
  rw [hidx] at h
  cases op with
  | add => exact absurd hm hadm.2.1
  | change =>
    simp only [Option.getD_some] at h
    rcases finish_ops hv h hi with h1 | ⟨_, h1⟩
    · exact Or.inl h1
    · right; rw [(finish_some h).1]; exact h1
  | del =>
    simp only [Option.getD_some] at h
    split at h
    · simp only [Option.some.injEq] at h
      subst h
      left; simp
    · rcases finish_ops hv h hi with h1 | ⟨h1, _⟩
      · exact Or.inl h1
      · cases h1

theorem calc_after {rs : Ranges} {sort : List α → List α} {accept : Bool} {before : List α} {room : α} {op : LOp}
    {res : Result α} (h : calculateListOps rs sort accept before room op = some res) (hn : before.Nodup)
    (hadm : Sorts sort accept before room op) : res.after.Nodup := by
  unfold calculateListOps at h
  cases op with
  | add =>
    obtain ⟨a1, a2, a3⟩ := hadm
    rw [indexOf_not_mem a2] at h
    have := (finish_some h).1
    rw [this, if_pos ⟨a1, a2⟩]
    exact a3.nodup_iff.2 (by
      rw [List.nodup_append]
      exact ⟨hn, by simp, fun a ha b hb => by rw [List.mem_singleton.1 hb]; exact fun e => a2 (e ▸ ha)⟩)
  | change =>
    cases hi : indexOf before room with
    | none => rw [hi] at h; simp only [Option.some.injEq] at h; subst h; exact hn
    | some i =>
      rw [hi] at h
      rw [(finish_some h).1]
      exact hadm.nodup_iff.2 hn
  | del =>
    cases hi : indexOf before room with
    | none => rw [hi] at h; simp only [Option.some.injEq] at h; subst h; exact hn
    | some i =>
      rw [hi] at h
      simp only at h
      split at h
      · simp only [Option.some.injEq] at h; subst h; exact hn.erase _
      · rw [(finish_some h).1]; exact hn.erase _

/-! ### One list -/

theorem inView_of {rs : Ranges} {l : List α} {x : α} (hn : l.Nodup) (h : Visible rs l x) : inView rs l x = true := by
  obtain ⟨i, hi, hg⟩ := h
  unfold inView
  rw [getI_idxOf hn hg]
  exact inside_isSome_iff.2 hi

/-- A list in which the client sees the room before or after the update has updates. -/
theorem forList_updates {u : Update α} {l : RoomList α} {d : Delta α} (hv : valid l.ranges = true) (hn : l.order.Nodup)
    (hadm : Sorts d.sort d.accept l.order u.room d.op) {r : ListRes α} (h : forList u l (some d) = some r)
    (hs : Shown l u.room ∨ Shown r.list u.room) : r.updates = true := by
  unfold forList at h
  simp only at h
  cases hres : resort l u.room d with
  | none => rw [hres] at h; cases h
  | some p =>
    obtain ⟨q, ops⟩ := p
    rw [hres] at h
    simp only [Option.some.injEq] at h
    subst h
    simp only at hs ⊢
    unfold resort at hres
    by_cases hg : l.getAll = true
    · rw [if_pos hg] at hres
      cases hop : d.op with
      | add => rw [hop] at hres; cases hres; rfl
      | del => rw [hop] at hres; cases hres; rfl
      | change => rw [hop] at hres; cases hres; rfl
    · rw [if_neg hg] at hres
      have hg' : l.getAll = false := by simpa using hg
      cases hc : calculateListOps l.ranges d.sort d.accept l.order u.room d.op with
      | none => rw [hc] at hres; cases hres
      | some res =>
        rw [hc] at hres
        simp only [Option.some.injEq, Prod.mk.injEq] at hres
        obtain ⟨rfl, rfl⟩ := hres
        simp only [Shown, hg', Bool.false_eq_true, if_false] at hs ⊢
        have key : res.ops ≠ [] ∨ Visible l.ranges res.after u.room := by
          rcases hs with hs | hs
          · exact calc_ops hv hc hn hadm hs
          · exact Or.inr hs
        rcases key with hk | hk
        · cases ho : res.ops with
          | nil => exact absurd ho hk
          | cons a b => simp
        · rw [inView_of (calc_after hc hn hadm) hk]; simp

/-! ### An update -/

theorem mem_addNews {s : St α} {room : α} : room ∈ (addNews s room true).full ∨ room ∈ (addNews s room true).news := by
  unfold addNews
  rw [if_pos rfl]
  split
  · assumption
  · exact Or.inr (by simp)

theorem addNews_keeps {s : St α} {room x : α} {b : Bool} (h : x ∈ s.full ∨ x ∈ s.news) :
    x ∈ (addNews s room b).full ∨ x ∈ (addNews s room b).news := by
  unfold addNews
  split
  · split
    · exact h
    · rcases h with h | h
      · exact Or.inl h
      · exact Or.inr (List.mem_cons_of_mem _ h)
  · exact h

/-- Whatever happens to the lists of the connection, an event of a room which the client follows before or after it is in the response,
with the full data of the room or as news. -/
theorem C130_heard {s s' : St α} {u : Update α} (ht : Told s u) (he : u.isEvent = true) (hk : u.skip = false) (h : update s u = some s')
    (hf : Follows s u.room ∨ Follows s' u.room) : u.room ∈ s'.full ∨ u.room ∈ s'.news := by
  unfold update at h
  rw [if_neg (by simp [hk])] at h
  cases hr : forLists u s.lists u.deltas with
  | none => rw [hr] at h; cases h
  | some rs =>
    rw [hr] at h
    simp only [Option.some.injEq] at h
    subst h
    apply addNews_keeps
    have hup : ((forSubs s u).1 || rs.any (·.updates)) = true := by
      obtain ⟨hlen, hspec⟩ := forLists_spec u _ _ _ hr
      -- a list in which the room is seen before or after
      have hlist : ∀ (i : Nat) (r : ListRes α) (l : RoomList α), rs[i]? = some r → s.lists[i]? = some l →
          (Shown l u.room ∨ Shown r.list u.room) → ((forSubs s u).1 || rs.any (·.updates)) = true := by
        intro i r l hi hl hs
        obtain ⟨l', hl', hfl⟩ := hspec i r hi
        rw [hl] at hl'
        cases hl'
        have hmem := List.mem_of_getElem? hl
        cases hd : (u.deltas[i]?).join with
        | none =>
          rw [hd] at hfl
          simp only [forList, Option.some.injEq] at hfl
          subst hfl
          have hin : u.room ∈ l.order := by
            have hs : Shown l u.room := by rcases hs with h | h <;> exact h
            unfold Shown at hs
            split at hs
            · exact hs
            · obtain ⟨j, _, hg⟩ := hs
              exact getI_mem hg
          obtain ⟨d, hd'⟩ := ht.change i l hl hin
          rw [hd'] at hd
          cases hd
        | some d =>
          rw [hd] at hfl
          have hd' : u.deltas[i]? = some (some d) := by
            cases he : u.deltas[i]? with
            | none => rw [he] at hd; cases hd
            | some y => rw [he] at hd; simp only [Option.join_some] at hd; rw [hd]
          have := forList_updates (ht.ranges l hmem) (ht.nodup l hmem) (ht.adm i l d hl hd') hfl hs
          rw [Bool.or_eq_true]
          exact Or.inr (List.any_eq_true.2 ⟨r, List.mem_of_getElem? hi, this⟩)
      have hsub : u.room ∈ s.subs → ((forSubs s u).1 || rs.any (·.updates)) = true := by
        intro hm; simp [forSubs, hm]
      rcases hf with (hm | ⟨l, hl, hs⟩) | (hm | ⟨l, hl, hs⟩)
      · exact hsub hm
      · obtain ⟨i, hi⟩ := List.getElem?_of_mem hl
        have hlt : i < rs.length := by rw [hlen]; exact (List.getElem?_eq_some_iff.1 hi).1
        exact hlist i rs[i] l (List.getElem?_eq_getElem hlt) hi (Or.inl hs)
      · rw [(addNews_same _ _ _).2.1, (addNews_same _ _ _).2.1] at hm
        simp only at hm
        split at hm
        · rename_i h2
          have : (forSubs s u).1 = true := by
            unfold forSubs at h2 ⊢
            split at h2
            · cases h2
            · rename_i h3
              split at h2
              · rename_i h4; rw [if_neg h3, if_pos h4]; exact h2
              · cases h2
          simp [this]
        · exact hsub hm
      · rw [(addNews_same _ _ _).2.2, (addNews_same _ _ _).2.2] at hl
        obtain ⟨r, hrm, rfl⟩ := List.mem_map.1 hl
        obtain ⟨i, hi⟩ := List.getElem?_of_mem hrm
        obtain ⟨l, hl', _⟩ := hspec i r hi
        exact hlist i r l hi hl' (Or.inr hs)
    rw [hup, he]
    exact mem_addNews

/-- An event that asks for the full data (the user has just joined) brings it, if the room is in a list or comes into one. Missing: rooms
which the client has only subscribed to (`C130_violated_subscription`). -/
theorem C130_full_partial {s s' : St α} {u : Update α} (he : u.isEvent = true) (hk : u.skip = false) (hforce : u.force = true)
    (h : update s u = some s') {i : Nat} {l : RoomList α} {d : Delta α} (hl : s.lists[i]? = some l) (hd : u.deltas[i]? = some (some d)) :
    u.room ∈ s'.full := by
  unfold update at h
  rw [if_neg (by simp [hk])] at h
  cases hr : forLists u s.lists u.deltas with
  | none => rw [hr] at h; cases h
  | some rs =>
    rw [hr] at h
    simp only [Option.some.injEq] at h
    subst h
    rw [(addNews_same _ _ _).1, (addNews_same _ _ _).1]
    obtain ⟨hlen, hspec⟩ := forLists_spec u _ _ _ hr
    have hlt : i < rs.length := by rw [hlen]; exact (List.getElem?_eq_some_iff.1 hl).1
    obtain ⟨l', hl', hfl⟩ := hspec i rs[i] (List.getElem?_eq_getElem hlt)
    rw [hl] at hl'
    cases hl'
    rw [hd] at hfl
    simp only [Option.join_some] at hfl
    simp only [List.mem_append, List.mem_flatMap]
    refine Or.inl (Or.inr ⟨rs[i], List.getElem_mem hlt, ?_⟩)
    unfold forList at hfl
    simp only at hfl
    cases hres : resort l u.room d with
    | none => rw [hres] at hfl; cases hfl
    | some p =>
      obtain ⟨q, ops⟩ := p
      rw [hres] at hfl
      simp only [Option.some.injEq] at hfl
      rw [← hfl]
      simp [he, hforce]

/-! ### Where the code disagrees -/

/-- The user comes back to a room that the client has subscribed to and that is in no list: the join is sent as news, not with the full
data. What happened in the meantime is not in the response. -/
theorem C130_violated_subscription : ∃ s1 : St Nat,
    update (request ⟨[exList false], [7], [7], [1, 2]⟩) { exUp 7 id with force := true, deltas := [none] } = some s1 ∧
    Follows s1 7 ∧ 7 ∉ s1.full ∧ s1.news = [7] :=
  ⟨_, rfl, Or.inl (by decide +kernel), by decide +kernel, by decide +kernel⟩

/-! ### Example -/

/-- The hypotheses can be met: the last room of the window leaves it, and its event is sent. -/
example : ∃ s1 : St Nat, update { lists := [exList false] } (exUp 2 fun _ => [1, 3, 4, 2]) = some s1 ∧ s1.full = [3] ∧
    (2 ∈ s1.full ∨ 2 ∈ s1.news) := by
  have hu : update { lists := [exList false] } (exUp 2 fun _ => [1, 3, 4, 2]) =
      some ⟨[⟨[(0, 1)], false, [1, 3, 4, 2], true⟩], [], [], [3], [2]⟩ := by decide +kernel
  refine ⟨_, hu, rfl, C130_heard ⟨?_, ?_, ?_, ?_⟩ rfl rfl hu (Or.inl (Or.inr ⟨exList false, by simp, 1, ⟨(0, 1), by simp [exList], by decide⟩, by decide⟩))⟩
  · intro l hl; rw [List.mem_singleton.1 hl]; decide
  · intro l hl; rw [List.mem_singleton.1 hl]; decide
  · intro i l hi _
    cases i with
    | zero => exact ⟨_, rfl⟩
    | succ i => simp at hi
  · intro i l d hi hd
    cases i with
    | zero =>
      simp only [exUp, List.getElem?_cons_zero, Option.some.injEq] at hi hd
      subst hi; subst hd
      exact List.Perm.cons 1 ((List.perm_append_comm (l₁ := [3, 4]) (l₂ := [2])))
    | succ i => simp at hi

/-- An event that moves room 4 to the front and asks for the full data. -/
example : ∃ s1 : St Nat, update { lists := [exList false] } { exUp 4 (fun _ => [4, 1, 2, 3]) with force := true } = some s1 ∧ 4 ∈ s1.full := by
  refine ⟨_, rfl, C130_full_partial (s := { lists := [exList false] }) (u := { exUp 4 (fun _ => [4, 1, 2, 3]) with force := true }) rfl rfl rfl rfl (i := 0) rfl rfl⟩

end Verif.LiveRooms
