import Verif.ListOpsRun
/-! # C04, C05, C06: list operations -/
namespace Verif.ListOps
open Verif.Ranges

variable {α : Type _} [DecidableEq α]

/-! ## C04 -/

/-- C04. For valid ranges there is exactly one pair per touched window, the
move clipped to it; both ends lie in that window; an end of the move that lies
in the window is kept. -/
theorem C04_move_indexes {rs : Ranges} (hv : valid rs = true) (a b : Int) :
    ∃ ps, calculateMoveIndexes rs a b = some ps ∧
      ps.Perm ((rs.filter fun r => decide (touches a b r)).map (clip a b)) ∧
      (∀ r ∈ rs, touches a b r →
        (r.1 ≤ (clip a b r).1 ∧ (clip a b r).1 ≤ r.2) ∧ (r.1 ≤ (clip a b r).2 ∧ (clip a b r).2 ≤ r.2) ∧
        (r.1 ≤ a → a ≤ r.2 → (clip a b r).1 = a) ∧ (r.1 ≤ b → b ≤ r.2 → (clip a b r).2 = b) ∧
        (¬ (r.1 ≤ a ∧ a ≤ r.2) → (clip a b r).1 = if a ≤ b then r.1 else r.2) ∧
        (¬ (r.1 ≤ b ∧ b ≤ r.2) → (clip a b r).2 = if a ≤ b then r.2 else r.1)) := by
  obtain ⟨L, h1, h2, _⟩ := move_ranges hv a b
  refine ⟨_, h1, h2.map _, ?_⟩
  intro r hr ht
  have hle := (valid_le hv r hr).2
  obtain ⟨c1, c2, _, _⟩ := clip_in hle ht
  refine ⟨c1, c2, ?_⟩
  unfold touches at ht
  unfold clip
  split
  · refine ⟨?_, ?_, ?_, ?_⟩ <;> intros <;> simp <;> omega
  · refine ⟨?_, ?_, ?_, ?_⟩ <;> intros <;> simp <;> omega

/-- Non-vacuity: a move across three windows. -/
example : valid [(0, 2), (4, 5), (7, 9)] = true ∧
    calculateMoveIndexes [(0, 2), (4, 5), (7, 9)] 8 1 = some [(8, 7), (2, 1), (5, 4)] := by
  decide +kernel

/-! ## C05 -/

/-- The client's map shows the list at every index inside the windows. -/
def Shows (rs : Ranges) (l : List α) (m : CMap α) : Prop :=
  ∀ i, Covers rs i → i < l.length → m.get i = getI l i

/-- Sorting `l` moves at most the given room. -/
def OneMove (sort : List α → List α) (l : List α) (room : α) : Prop :=
  (sort l).Perm l ∧ (sort l).erase room = l.erase room

/-- What the callers guarantee: a room is added only if absent, and resorting
after an update to one room moves at most that room. -/
def Admissible (sort : List α → List α) (accept : Bool) (before : List α) (room : α) : LOp → Prop
  | .add => accept = true ∧ room ∉ before ∧ OneMove sort (before ++ [room]) room
  | .change => OneMove sort before room
  | .del => True

/-- The layout in which the code reads past the end of the list: the last of
several rooms is deleted and its index is the first index of a window. -/
def PanicLayout (rs : Ranges) (before : List α) (room : α) (op : LOp) : Prop :=
  op = .del ∧ 2 ≤ before.length ∧ before.getLast? = some room ∧ ∃ r ∈ rs, r.1 = (before.length : Int) - 1

/-- The layout in which a `null` operation is sent: the only room is deleted
and index 0 is in no window. -/
def NullLayout (rs : Ranges) (before : List α) (room : α) (op : LOp) : Prop :=
  op = .del ∧ before = [room] ∧ ¬ Covers rs 0

theorem shows_some {rs : Ranges} {l : List α} {m : CMap α} (h : Shows rs l m) :
    ∀ i, Covers rs i → (getI l i).isSome → m.get i = getI l i := by
  intro i hi hs
  exact h i hi (getI_isSome.1 hs).2

theorem add_facts {before after : List α} {room : α} (hnb : room ∉ before)
    (hp : after.Perm (before ++ [room])) (he : after.erase room = (before ++ [room]).erase room) :
    ∃ b, indexOf after room = some b ∧ 0 ≤ b ∧ b ≤ before.length ∧
      MoveFacts (getI before) (getI after) before.length b after.length room .add := by
  have hmem : room ∈ after := hp.mem_iff.2 (by simp)
  obtain ⟨l1, l2, e1, e2, e3⟩ := split_at hmem
  have hbase : before = l1 ++ l2 := by
    rw [← e2, he, List.erase_append_right _ hnb]; simp
  have hlen : l1.length + l2.length = before.length := by rw [hbase]; simp
  have hlenA : after.length = before.length + 1 := by rw [hp.length_eq]; simp
  refine ⟨l1.length, e3, by omega, by omega, ?_⟩
  have hA : ∀ i, getI after i = _ := fun i => by rw [e1, getI_insert, ← hbase]
  refine ⟨?_, ?_, ?_, ?_, by simp⟩
  · intro i h1 h2; omega
  · intro i h1 h2
    rw [hA, if_neg (by omega), if_neg (by omega)]
    exact ⟨rfl, getI_isSome.2 (by omega)⟩
  · intro i h0 h1 h2
    rw [hA, if_pos (by omega)]
    exact ⟨rfl, getI_isSome.2 (by omega)⟩
  · intro i h0 h1
    exact getI_isSome.2 (by omega)

theorem change_facts {before after : List α} {room : α} (hb : room ∈ before)
    (hp : after.Perm before) (he : after.erase room = before.erase room) :
    ∃ a b, indexOf before room = some a ∧ indexOf after room = some b ∧ 0 ≤ a ∧ a < before.length ∧
      0 ≤ b ∧ b < before.length ∧
      MoveFacts (getI before) (getI after) a b after.length room .change := by
  have hmem : room ∈ after := hp.mem_iff.2 hb
  obtain ⟨l1, l2, e1, e2, e3⟩ := split_at hmem
  obtain ⟨k1, k2, f1, f2, f3⟩ := split_at hb
  have hbase : k1 ++ k2 = l1 ++ l2 := by rw [← e2, he, f2]
  have hlen : after.length = before.length := hp.length_eq
  have hlb : before.length = k1.length + k2.length + 1 := by rw [f1]; simp; omega
  have hla : after.length = l1.length + l2.length + 1 := by rw [e1]; simp; omega
  refine ⟨k1.length, l1.length, f3, e3, by omega, by omega, by omega, by omega, ?_⟩
  have hA : ∀ i, getI after i = _ := fun i => by rw [e1, getI_insert, ← hbase]
  have hO : ∀ i, getI before i = _ := fun i => by rw [f1, getI_insert]
  refine ⟨?_, ?_, ?_, ?_, ?_⟩
  · intro i h1 h2
    refine ⟨?_, getI_isSome.2 (by omega)⟩
    rw [hA, hO, if_pos (by omega), if_neg (by omega), if_neg (by omega)]
    congr 1; omega
  · intro i h1 h2
    refine ⟨?_, getI_isSome.2 (by omega)⟩
    rw [hA, hO, if_neg (by omega), if_neg (by omega), if_pos (by omega)]
  · intro i h0 h1 h2
    refine ⟨?_, getI_isSome.2 (by omega)⟩
    rw [hA, hO]
    rcases h2 with h2 | h2
    · rw [if_pos (by omega), if_pos (by omega)]
    · rw [if_neg (by omega), if_neg (by omega), if_neg (by omega), if_neg (by omega)]
  · intro i h0 h1
    exact getI_isSome.2 (by omega)
  · intro _
    rw [hO, if_neg (by omega), if_pos rfl]

theorem del_facts {before : List α} {room : α} (hb : room ∈ before) (h2 : 2 ≤ before.length) :
    ∃ a, indexOf before room = some a ∧
      DelFacts (getI before) (getI (before.erase room)) a (before.erase room).length ∧
      (before.erase room).length + 1 = before.length ∧
      (a = (before.erase room).length → before.getLast? = some room) := by
  obtain ⟨k1, k2, f1, f2, f3⟩ := split_at hb
  have hlb : before.length = k1.length + k2.length + 1 := by rw [f1]; simp; omega
  have hle : (before.erase room).length = k1.length + k2.length := by rw [f2]; simp
  refine ⟨k1.length, f3, ?_, by omega, ?_⟩
  · have hO : ∀ i, getI before i = _ := fun i => by rw [f1, getI_insert, ← f2]
    refine ⟨by omega, by omega, ?_, ?_⟩
    · intro i h1 h2
      refine ⟨?_, getI_isSome.2 (by omega)⟩
      rw [hO, if_neg (by omega), if_neg (by omega)]
      congr 1; omega
    · intro i h1 h2
      refine ⟨?_, getI_isSome.2 (by omega)⟩
      rw [hO, if_pos (by omega)]
  · intro h
    have : k2 = [] := List.length_eq_zero_iff.1 (by omega)
    rw [f1, this]; simp

theorem nodup_not_mem_erase {l : List α} {x : α} (h : l.Nodup) : x ∉ l.erase x := by
  intro hm
  exact (h.mem_erase_iff.1 hm).1 rfl

/-- In the middle of a response: the client would show the list if the response ended now. -/
def ShowsNow (rs : Ranges) (l : List α) (c : Client α) : Prop :=
  (c.gap = -1 ∨ 0 ≤ c.gap) ∧ ∀ i, Covers rs i → i < l.length → c.view i = getI l i

/-- One update in the middle of a response. -/
theorem replay_step {rs : Ranges} (hv : valid rs = true) (sort : List α → List α) (accept : Bool)
    {before : List α} (hnd : before.Nodup) (room : α) (op : LOp)
    (hadm : Admissible sort accept before room op)
    (hnp : ¬ PanicLayout rs before room op) (hnn : ¬ NullLayout rs before room op)
    {c : Client α} (hm : ShowsNow rs before c) :
    ∃ res, calculateListOps rs sort accept before room op = some res ∧
      (Follows c.gap res.ops → ∃ c', res.ops.foldlM (clientOp rs) c = some c' ∧ ShowsNow rs res.after c') := by
  have hm' : ∀ i, Covers rs i → (getI before i).isSome → c.view i = getI before i :=
    fun i hi hs => hm.2 i hi (getI_isSome.1 hs).2
  cases op with
  | add =>
    obtain ⟨hacc, hnb, hp, he⟩ := hadm
    obtain ⟨b, i1, i2, i3, hf⟩ := add_facts hnb hp he
    have hidx : indexOf before room = none := by unfold indexOf; rw [if_neg hnb]
    obtain ⟨L, l1, l2, l3⟩ := move_ranges hv (before.length : Int) b
    obtain ⟨ops, subs, r1, r2⟩ := move_run hv (c := c)
      (ctx := ⟨rs, room, .add, false, b, sort (before ++ [room]), (L.map (clip before.length b)).length⟩)
      rfl (by simp) (by simp) hf hm' l2 (by simp)
    refine ⟨⟨ops, subs, sort (before ++ [room])⟩, ?_, r2⟩
    simp [calculateListOps, hidx, hacc, hnb, calculateListOps.finish, i1, l1]
    simp at r1
    rw [r1]; rfl
  | change =>
    by_cases hb : room ∈ before
    · obtain ⟨a, b, i1, i2, a1, a2, b1, b2, hf⟩ := change_facts hb hadm.1 hadm.2
      obtain ⟨L, l1, l2, l3⟩ := move_ranges hv a b
      obtain ⟨ops, subs, r1, r2⟩ := move_run hv (c := c)
        (ctx := ⟨rs, room, .change, (inside rs a).isSome, b, sort before, (L.map (clip a b)).length⟩)
        rfl (by simp) (fun h => inside_isSome_iff.1 h) hf hm' l2 (by simp)
      refine ⟨⟨ops, subs, sort before⟩, ?_, r2⟩
      simp [calculateListOps, i1, calculateListOps.finish, i2, l1]
      simp at r1
      rw [r1]; rfl
    · have hidx : indexOf before room = none := by unfold indexOf; rw [if_neg hb]
      refine ⟨⟨[], [], before⟩, ?_, fun _ => ⟨c, rfl, hm⟩⟩
      simp [calculateListOps, hidx]
  | del =>
    by_cases hb : room ∈ before
    · by_cases hlen : 2 ≤ before.length
      · obtain ⟨a, i1, hf, hl, hlast⟩ := del_facts hb hlen
        obtain ⟨L, l1, l2, l3⟩ := move_ranges hv a (((before.erase room).length : Int) - 1)
        have hx : ¬ (a = (before.erase room).length ∧ ∃ r ∈ rs, r.1 = (before.erase room).length) := by
          rintro ⟨e, r, hr, hr2⟩
          exact hnp ⟨rfl, hlen, hlast e, r, hr, by omega⟩
        obtain ⟨ops, subs, r1, r2⟩ := del_run hv (c := c)
          (ctx := ⟨rs, room, .del, (inside rs a).isSome, ((before.erase room).length : Int) - 1, before.erase room,
            (L.map (clip a (((before.erase room).length : Int) - 1))).length⟩)
          rfl rfl rfl (nodup_not_mem_erase hnd) hf hx hm' l2 l3
        refine ⟨⟨ops, subs, before.erase room⟩, ?_, r2⟩
        have hne : ¬ (((before.erase room).length : Int) - 1 = -1) := by omega
        simp only [calculateListOps, i1, Option.getD_some, hne, if_false, calculateListOps.finish, l1,
          Option.bind_eq_bind, Option.bind_some, r1]
        rfl
      · -- the only room
        obtain ⟨x, hx⟩ : ∃ x, before = [x] := by
          match before, hb, hlen with
          | [x], _, _ => exact ⟨x, rfl⟩
          | x :: y :: t, _, h => simp at h
        subst hx
        have : room = x := by simpa using hb
        subst this
        have hc : Covers rs 0 := by
          apply Classical.byContradiction
          intro h; exact hnn ⟨rfl, rfl, h⟩
        have hs := inside_isSome_iff.2 hc
        have hw : writeDeleteOp rs 0 = (Op.delete 0 : Op α) := by
          unfold writeDeleteOp
          rw [if_neg (by omega), if_neg]
          intro h
          rw [Option.isNone_iff_eq_none] at h
          rw [h] at hs; cases hs
        have hidx : indexOf [room] room = some 0 := by simp [indexOf]
        refine ⟨⟨[.delete 0], [], []⟩, ?_, ?_⟩
        · simp [calculateListOps, hidx, hw]
        · intro hfo
          obtain ⟨c', d1, d2, d3⟩ := delete_view (rs := rs) (c := c) (f := 0) (by
            rcases hfo with h | h
            · exact Or.inl h
            · exact Or.inr ⟨h.1, h.1⟩) (by omega)
          refine ⟨c', by simp [d1], Or.inr (by omega), ?_⟩
          intro i ⟨r, hr, hri⟩ hi
          have := valid_le hv r hr
          simp at hi
          omega
    · have hidx : indexOf before room = none := by unfold indexOf; rw [if_neg hb]
      refine ⟨⟨[], [], before⟩, ?_, fun _ => ⟨c, rfl, hm⟩⟩
      simp [calculateListOps, hidx]

/-- C05, for every layout but the two broken ones: the operations are computed
without panicking, the client can apply them, and afterwards shows the new
list. Missing: the layouts `PanicLayout` and `NullLayout`, where the claim is
false (`C05_replay_violated`, `C05_panic_iff`). -/
theorem C05_replay_partial {rs : Ranges} (hv : valid rs = true) (sort : List α → List α) (accept : Bool)
    {before : List α} (hnd : before.Nodup) (room : α) (op : LOp)
    (hadm : Admissible sort accept before room op)
    (hnp : ¬ PanicLayout rs before room op) (hnn : ¬ NullLayout rs before room op)
    {m : CMap α} (hm : Shows rs before m) :
    ∃ res m', calculateListOps rs sort accept before room op = some res ∧
      clientReplay rs m res.ops = some m' ∧ Shows rs res.after m' := by
  obtain ⟨res, h1, h2⟩ := replay_step hv sort accept hnd room op hadm hnp hnn (c := ⟨m, -1⟩) ⟨Or.inl rfl, by
    intro i hi hl; exact hm i hi hl⟩
  obtain ⟨c', h3, h4, h5⟩ := h2 (Or.inl rfl)
  obtain ⟨m', r1, r2⟩ := replay_view h3 h4
  exact ⟨res, m', h1, r1, fun i hi hl => by rw [r2 i hi]; exact h5 i hi hl⟩

/-- The computation panics exactly in `PanicLayout`. -/
theorem C05_panic_iff {rs : Ranges} (hv : valid rs = true) (sort : List α → List α) (accept : Bool)
    {before : List α} (hnd : before.Nodup) (room : α) (op : LOp)
    (hadm : Admissible sort accept before room op) :
    calculateListOps rs sort accept before room op = none ↔ PanicLayout rs before room op := by
  constructor
  · intro h
    apply Classical.byContradiction
    intro hp
    by_cases hn : NullLayout rs before room op
    · obtain ⟨rfl, rfl, _⟩ := hn
      simp [calculateListOps, indexOf] at h
    · -- any client showing the list will do
      have : ∃ m : CMap α, Shows rs before m := by
        refine ⟨before.zipIdx.map fun p => ((p.2 : Int), some p.1), ?_⟩
        intro i ⟨r, hr, hri⟩ hi
        have := valid_le hv r hr
        obtain ⟨n, rfl⟩ := Int.eq_ofNat_of_zero_le (by omega : 0 ≤ i)
        have key : ∀ (l : List α) (k n : Nat),
            ((l.zipIdx k).map fun p => ((p.2 : Int), some p.1)).lookup ((k + n : Nat) : Int) =
              l[n]?.map some := by
          intro l
          induction l with
          | nil => simp
          | cons x l ih =>
            intro k n
            simp only [List.zipIdx_cons, List.map_cons, List.lookup_cons]
            cases n with
            | zero => simp
            | succ n =>
              have h1 : (((k + (n + 1) : Nat) : Int) == (k : Int)) = false := by
                rw [beq_eq_false_iff_ne]; omega
              have h2 := ih (k + 1) n
              rw [h1]
              rw [show k + 1 + n = k + (n + 1) by omega] at h2
              simpa using h2
        have := key before 0 n
        rw [Nat.zero_add] at this
        unfold CMap.get
        rw [this, getI_nonneg (by omega)]
        simp only [Int.toNat_natCast]
        cases before[n]? <;> rfl
      obtain ⟨m, hm⟩ := this
      obtain ⟨res, m', h1, _⟩ := C05_replay_partial hv sort accept hnd room op hadm hp hn hm
      rw [h1] at h; cases h
  · rintro ⟨rfl, h2, hlast, r, hr, hr1⟩
    have hb : room ∈ before := List.mem_of_getLast? hlast
    obtain ⟨a, i1, hf, hl, _⟩ := del_facts hb h2
    have ha : a = (before.erase room).length := by
      obtain ⟨k1, k2, f1, f2, f3⟩ := split_at hb
      rw [f3] at i1
      cases i1
      have : k2 = [] := by
        cases hk : k2.reverse with
        | nil => simpa using hk
        | cons y t =>
          exfalso
          have hk2 : k2 = t.reverse ++ [y] := by
            have := congrArg List.reverse hk; simpa using this
          rw [f1, hk2] at hlast
          have hy : y = room := by
            rw [show k1 ++ room :: (t.reverse ++ [y]) = (k1 ++ room :: t.reverse) ++ [y] by simp,
              List.getLast?_append] at hlast
            simpa using hlast
          subst hy
          rw [f1, hk2] at hnd
          have := (List.nodup_append.1 hnd).2.1
          simp at this
      rw [f2, this]; simp
    obtain ⟨L, l1, l2, l3⟩ := move_ranges hv a (((before.erase room).length : Int) - 1)
    have hne : ¬ (((before.erase room).length : Int) - 1 = -1) := by omega
    have hrL : r ∈ L := by
      rw [l2.mem_iff]
      simp only [List.mem_filter, decide_eq_true_eq]
      have := valid_le hv r hr
      refine ⟨hr, touches_of (i := a) (by omega) (by omega)⟩
    have hclip : (clip a (((before.erase room).length : Int) - 1) r).2 = a := by
      have := valid_le hv r hr
      unfold clip
      rw [if_neg (by omega)]; simp; omega
    have hloop : ∀ (ctx : Ctx α), ctx.after = before.erase room →
        loop ctx (L.map (clip a (((before.erase room).length : Int) - 1))) = none := by
      intro ctx hctx
      obtain ⟨L1, L2, hL⟩ := List.append_of_mem hrL
      have hbody : loopBody ctx (clip a (((before.erase room).length : Int) - 1) r) = none := by
        have hg : getI ctx.after (clip a (((before.erase room).length : Int) - 1) r).2 = none := by
          rw [hclip, hctx, getI_nonneg (by omega), ha]; simp
        unfold loopBody
        simp [hg]
      rw [hL, List.map_append, loop_append, List.map_cons]
      simp [loop, hbody]
    simp only [calculateListOps, i1, Option.getD_some, hne, if_false, calculateListOps.finish, l1,
      Option.bind_eq_bind, Option.bind_some]
    rw [hloop _ rfl]
    rfl

/-- C05 is violated: a panic (two rooms, window [1,1], the second is
deleted), and a `null` operation that makes the client throw (one room, window
[1,2], it is deleted). -/
theorem C05_replay_violated :
    (∃ (rs : Ranges) (before : List Nat) (room : Nat), valid rs = true ∧ before.Nodup ∧ room ∈ before ∧
      calculateListOps rs id true before room .del = none) ∧
    (∃ (rs : Ranges) (before : List Nat) (room : Nat) (res : Result Nat) (m : CMap Nat),
      valid rs = true ∧ before.Nodup ∧ room ∈ before ∧ Shows rs before m ∧
      calculateListOps rs id true before room .del = some res ∧ clientReplay rs m res.ops = none) := by
  refine ⟨⟨[(1, 1)], [10, 20], 20, by decide +kernel, by decide, by decide, by decide +kernel⟩,
    ⟨[(1, 2)], [10], 10, ⟨[.null], [], []⟩, [], by decide +kernel, by decide, by decide, ?_,
      by decide +kernel, by decide +kernel⟩⟩
  intro i ⟨r, hr, hri⟩ hi
  simp at hr
  subst hr
  simp at hri hi
  omega

/-- A realistic panic: windows `[0,20],[21,40]`, the last of 22 rooms is removed. -/
example : calculateListOps [(0, 20), (21, 40)] id true (List.range 22) 21 .del = none := by
  decide +kernel

/-- Non-vacuity of `C05_replay_partial`: an add, a move, a removal. -/
example : let rs : Ranges := [(0, 1), (3, 4)]
    let srt := Util.isort (fun a b : Nat => decide (a ≤ b))
    valid rs = true ∧ Admissible srt true [1, 3, 5, 7, 9] 4 .add ∧
    Admissible (fun _ => [3, 5, 7, 1, 9]) true [1, 3, 5, 7, 9] 1 .change ∧
    ¬ PanicLayout rs [1, 3, 5, 7, 9] 3 .del ∧ ¬ NullLayout rs [1, 3, 5, 7, 9] 3 .del ∧
    Shows rs [1, 3, 5, 7, 9] [(0, some 1), (1, some 3), (3, some 7), (4, some 9)] := by
  refine ⟨by decide +kernel, ⟨rfl, by decide, by unfold OneMove; decide +kernel⟩,
    by unfold Admissible OneMove; decide +kernel, ?_, ?_, ?_⟩
  · rintro ⟨_, _, h, _⟩; revert h; decide
  · rintro ⟨_, h, _⟩; cases h
  · intro i ⟨r, hr, hri⟩ hi
    simp at hr
    rcases hr with rfl | rfl
    · simp at hri
      have : i = 0 ∨ i = 1 := by omega
      rcases this with rfl | rfl <;> decide
    · simp at hri
      have : i = 3 ∨ i = 4 := by omega
      rcases this with rfl | rfl <;> decide

/-! ## C06 -/

/-- The room is shown somewhere in the windows. -/
def Visible (rs : Ranges) (l : List α) (x : α) : Prop := ∃ i, Covers rs i ∧ getI l i = some x

/-- The layout of the missing subscription: a room inside a window (and not
the last room) is deleted, the new last index is in a window and the old last
one is not. -/
def MissedSub (rs : Ranges) (before : List α) (room : α) (op : LOp) : Prop :=
  op = .del ∧ before.getLast? ≠ some room ∧ (∃ i, indexOf before room = some i ∧ Covers rs i) ∧
    Covers rs ((before.length : Int) - 2) ∧ ¬ Covers rs ((before.length : Int) - 1)

theorem loop_subs {ctx : Ctx α} {ps : List (Int × Int)} {ops : List (Op α)} {subs : List α}
    (h : loop ctx ps = some (ops, subs)) {p : Int × Int} (hp : p ∈ ps) :
    ∃ o s, loopBody ctx p = some (o, s) ∧ ∀ x ∈ s, x ∈ subs := by
  induction ps generalizing ops subs with
  | nil => cases hp
  | cons q ps ih =>
    simp only [loop, Option.bind_eq_bind, Option.pure_def] at h
    cases hb : loopBody ctx q with
    | none => rw [hb] at h; cases h
    | some os =>
      rw [hb] at h
      simp only [Option.bind_some] at h
      cases hl : loop ctx ps with
      | none => rw [hl] at h; cases h
      | some os2 =>
        rw [hl] at h
        simp only [Option.bind_some, Option.some.injEq, Prod.mk.injEq] at h
        rcases List.mem_cons.1 hp with rfl | hp
        · exact ⟨os.1, os.2, hb, fun x hx => by rw [← h.2]; simp [hx]⟩
        · obtain ⟨o, s, h1, h2⟩ := ih (ops := os2.1) (subs := os2.2) hl hp
          exact ⟨o, s, h1, fun x hx => by rw [← h.2]; simp [h2 x hx]⟩

/-- For adds and changes. -/
theorem subs_move {rs : Ranges} (hv : valid rs = true) {ctx : Ctx α} {before : List α} {a : Int}
    (hop : ctx.op ≠ .del)
    (hwi : ctx.wasInside = true → Covers rs a ∧ getI before a = some ctx.room)
    (hroomto : getI ctx.after ctx.toIndex = some ctx.room)
    (hf : MoveFacts (getI before) (getI ctx.after) a ctx.toIndex ctx.after.length ctx.room ctx.op)
    {L : Ranges} (hL : L.Perm (rs.filter fun r => decide (touches a ctx.toIndex r)))
    {ops : List (Op α)} {subs : List α} (hloop : loop ctx (L.map (clip a ctx.toIndex)) = some (ops, subs))
    {x : α} (hx : Visible rs ctx.after x) (hnx : ¬ Visible rs before x) : x ∈ subs := by
  obtain ⟨i, ⟨r, hr, hri⟩, hxi⟩ := hx
  have h0 := valid_le hv r hr
  have hin := getI_isSome.1 (by rw [hxi]; rfl : (getI ctx.after i).isSome)
  have memL : ∀ r, r ∈ L ↔ r ∈ rs ∧ touches a ctx.toIndex r := by
    intro r; rw [hL.mem_iff]; simp
  by_cases hb : (a ≤ i ∧ i ≤ ctx.toIndex) ∨ (ctx.toIndex ≤ i ∧ i ≤ a)
  · have ht := touches_of hri hb
    have hrL := (memL r).2 ⟨hr, ht⟩
    obtain ⟨c1, c2, c3, c4⟩ := clip_in h0.2 ht
    have hs := seg_of hri hb
    unfold seg at hs
    by_cases hit : i = (clip a ctx.toIndex r).2
    · obtain ⟨o, s, e1, e2⟩ := loop_subs hloop (List.mem_map_of_mem hrL)
      apply e2
      unfold loopBody at e1
      rw [hit] at hxi
      simp only [hxi, Option.bind_eq_bind, Option.bind_some, Option.pure_def] at e1
      have hvis : ctx.wasInside = true → x = ctx.room → False := by
        intro h1 h2
        obtain ⟨w1, w2⟩ := hwi h1
        exact hnx ⟨a, w1, by rw [w2, h2]⟩
      split at e1
      · rename_i h1; exact (hvis h1.2.2.2.1 h1.1).elim
      · split at e1
        · rename_i h1; exact absurd h1.2.1 hop
        · simp only [Option.some.injEq, Prod.mk.injEq] at e1
          rw [← e1.2]
          by_cases hti : (clip a ctx.toIndex r).2 = ctx.toIndex
          · have hxr : x = ctx.room := by rw [hti, hroomto] at hxi; cases hxi; rfl
            have : ctx.wasInside = false := by
              cases h : ctx.wasInside
              · rfl
              · exact (hvis h hxr).elim
            simp [this]
          · simp [hti]
    · exfalso
      by_cases hlt : a ≤ ctx.toIndex
      · have := c3 hlt
        have hh := hf.sl i (by omega) (by omega)
        exact hnx ⟨i + 1, ⟨r, hr, by omega⟩, by rw [← hh.1, hxi]⟩
      · have := c4 (by omega)
        have hh := hf.sr i (by omega) (by omega)
        exact hnx ⟨i - 1, ⟨r, hr, by omega⟩, by rw [← hh.1, hxi]⟩
  · exfalso
    have := hf.out i (by omega) hin.2 (by omega)
    exact hnx ⟨i, ⟨r, hr, hri⟩, by rw [← this.1, hxi]⟩

theorem subs_del {rs : Ranges} (hv : valid rs = true) {ctx : Ctx α} {before : List α} {a : Int}
    (hrs : ctx.rs = rs) (hop : ctx.op = .del) (hto : ctx.toIndex = (ctx.after.length : Int) - 1)
    (hf : DelFacts (getI before) (getI ctx.after) a ctx.after.length)
    (hwi : ctx.wasInside = true → ¬ (Covers rs a ∧ a < ctx.after.length ∧
      Covers rs ctx.toIndex ∧ ¬ Covers rs ctx.after.length))
    (hwi2 : ctx.wasInside = true → Covers rs a)
    (hroom : ctx.room ∉ ctx.after)
    {L : Ranges} (hL : L.Perm (rs.filter fun r => decide (touches a ctx.toIndex r)))
    {ops : List (Op α)} {subs : List α} (hloop : loop ctx (L.map (clip a ctx.toIndex)) = some (ops, subs))
    {x : α} (hx : Visible rs ctx.after x) (hnx : ¬ Visible rs before x) : x ∈ subs := by
  obtain ⟨i, ⟨r, hr, hri⟩, hxi⟩ := hx
  have h0 := valid_le hv r hr
  have hin := getI_isSome.1 (by rw [hxi]; rfl : (getI ctx.after i).isSome)
  have memL : ∀ r, r ∈ L ↔ r ∈ rs ∧ touches a ctx.toIndex r := by
    intro r; rw [hL.mem_iff]; simp
  have ha := hf.ha
  by_cases hlt : i < a
  · exfalso
    have := hf.out i (by omega) hlt
    exact hnx ⟨i, ⟨r, hr, hri⟩, by rw [← this.1, hxi]⟩
  · have hh := hf.sl i (by omega) hin.2
    have hsucc : ¬ Covers rs (i + 1) := by
      intro hc
      exact hnx ⟨i + 1, hc, by rw [← hh.1, hxi]⟩
    have hb : (a ≤ i ∧ i ≤ ctx.toIndex) ∨ (ctx.toIndex ≤ i ∧ i ≤ a) := by omega
    have ht := touches_of hri hb
    have hrL := (memL r).2 ⟨hr, ht⟩
    have hir : i = (clip a ctx.toIndex r).2 := by
      have : ¬ (i + 1 ≤ r.2) := fun h => hsucc ⟨r, hr, by omega, h⟩
      unfold clip
      rw [if_pos (by omega)]; simp; omega
    obtain ⟨o, s, e1, e2⟩ := loop_subs hloop (List.mem_map_of_mem hrL)
    apply e2
    unfold loopBody at e1
    rw [hir] at hxi
    simp only [hxi, Option.bind_eq_bind, Option.bind_some, Option.pure_def] at e1
    rw [if_neg (by simp [hop])] at e1
    split at e1
    · rename_i h1
      exfalso
      rcases h1.2.2 with h2 | ⟨h2, h3⟩
      · apply hroom
        rw [← h2]
        rw [getI_nonneg (by omega)] at hxi
        exact List.mem_of_getElem? hxi
      · rw [hrs, inside_isSome_iff] at h3
        apply hsucc
        rw [show i + 1 = (ctx.after.length : Int) by omega]; exact h3
    · simp only [Option.some.injEq, Prod.mk.injEq] at e1
      rw [← e1.2]
      by_cases hti : (clip a ctx.toIndex r).2 = ctx.toIndex
      · have : ctx.wasInside = false := by
          cases h : ctx.wasInside
          · rfl
          · exfalso
            refine hwi h ⟨hwi2 h, by omega, ⟨r, hr, by omega⟩, ?_⟩
            rw [show (ctx.after.length : Int) = i + 1 by omega]; exact hsucc
        simp [this]
      · simp [hti]

/-- C06, for every layout but `MissedSub`: a room that becomes visible is among
the rooms to send. In `MissedSub` the claim fails, see `C06_subs_violated`. -/
theorem C06_subs_partial {rs : Ranges} (hv : valid rs = true) (sort : List α → List α) (accept : Bool)
    {before : List α} (hnd : before.Nodup) (room : α) (op : LOp)
    (hadm : Admissible sort accept before room op) (hms : ¬ MissedSub rs before room op)
    {res : Result α} (hres : calculateListOps rs sort accept before room op = some res)
    (x : α) (hx : Visible rs res.after x) (hnx : ¬ Visible rs before x) : x ∈ res.subs := by
  cases op with
  | add =>
    obtain ⟨hacc, hnb, hp, he⟩ := hadm
    obtain ⟨b, i1, i2, i3, hf⟩ := add_facts hnb hp he
    have hidx : indexOf before room = none := by unfold indexOf; rw [if_neg hnb]
    obtain ⟨L, l1, l2, l3⟩ := move_ranges hv (before.length : Int) b
    simp only [calculateListOps, hidx, Option.getD_none, calculateListOps.finish, hacc, hnb, not_false_eq_true,
      and_self, if_true, i1, Option.getD_some, l1, Option.bind_eq_bind, Option.bind_some] at hres
    obtain ⟨l, hl, hres⟩ := Option.bind_eq_some_iff.1 hres
    cases hres
    have hto : getI (sort (before ++ [room])) b = some room := by
      have hmem : room ∈ sort (before ++ [room]) := hp.mem_iff.2 (by simp)
      obtain ⟨l1, l2, e1, e2, e3⟩ := split_at hmem
      rw [i1] at e3; cases e3
      rw [e1, getI_insert, if_neg (by omega), if_pos rfl]
    exact subs_move hv (ctx := ⟨rs, room, .add, false, b, _, _⟩) (by simp) (by simp) hto hf l2 hl hx hnx
  | change =>
    by_cases hb : room ∈ before
    · obtain ⟨a, b, i1, i2, a1, a2, b1, b2, hf⟩ := change_facts hb hadm.1 hadm.2
      obtain ⟨L, l1, l2, l3⟩ := move_ranges hv a b
      simp only [calculateListOps, i1, calculateListOps.finish, i2, Option.getD_some, l1, Option.bind_eq_bind,
        Option.bind_some] at hres
      obtain ⟨l, hl, hres⟩ := Option.bind_eq_some_iff.1 hres
      cases hres
      have hto : getI (sort before) b = some room := by
        have hmem : room ∈ sort before := hadm.1.mem_iff.2 hb
        obtain ⟨l1, l2, e1, e2, e3⟩ := split_at hmem
        rw [i2] at e3; cases e3
        rw [e1, getI_insert, if_neg (by omega), if_pos rfl]
      exact subs_move hv (ctx := ⟨rs, room, .change, _, b, _, _⟩) (by simp)
        (fun h => ⟨inside_isSome_iff.1 h, hf.noop rfl⟩) hto hf l2 hl hx hnx
    · have hidx : indexOf before room = none := by unfold indexOf; rw [if_neg hb]
      simp only [calculateListOps, hidx, Option.some.injEq] at hres
      subst hres
      exact absurd hx hnx
  | del =>
    by_cases hb : room ∈ before
    · by_cases hlen : 2 ≤ before.length
      · obtain ⟨a, i1, hf, hl, hlast⟩ := del_facts hb hlen
        obtain ⟨L, l1, l2, l3⟩ := move_ranges hv a (((before.erase room).length : Int) - 1)
        have hne : ¬ (((before.erase room).length : Int) - 1 = -1) := by omega
        simp only [calculateListOps, i1, Option.getD_some, hne, if_false, calculateListOps.finish, l1,
          Option.bind_eq_bind, Option.bind_some] at hres
        obtain ⟨l, hl', hres⟩ := Option.bind_eq_some_iff.1 hres
        cases hres
        refine subs_del hv (ctx := ⟨rs, room, .del, _, _, _, _⟩) rfl rfl rfl hf ?_
          (fun h => inside_isSome_iff.1 h) (nodup_not_mem_erase hnd) l2 hl' hx hnx
        rintro h ⟨h1, h2, h3, h4⟩
        refine hms ⟨rfl, ?_, ⟨a, i1, h1⟩, ?_, ?_⟩
        · intro hlast'
          -- the deleted room would be the last one
          obtain ⟨k1, k2, f1, f2, f3⟩ := split_at hb
          rw [f3] at i1; cases i1
          have hk : k2 ≠ [] := by
            rintro rfl
            have : (before.erase room).length = k1.length := by rw [f2]; simp
            simp only at h2
            omega
          obtain ⟨y, t, hk2⟩ : ∃ y t, k2 = t ++ [y] := ⟨k2.getLast hk, k2.dropLast, (List.dropLast_concat_getLast hk).symm⟩
          rw [f1, hk2] at hlast'
          have hy : y = room := by
            rw [show k1 ++ room :: (t ++ [y]) = (k1 ++ room :: t) ++ [y] by simp,
              List.getLast?_append] at hlast'
            simpa using hlast'
          subst hy
          rw [f1, hk2] at hnd
          have := (List.nodup_append.1 hnd).2.1
          simp at this
        · simp only at h3
          rwa [show (before.length : Int) - 2 = ((before.erase room).length : Int) - 1 by omega]
        · simp only at h4
          rwa [show (before.length : Int) - 1 = ((before.erase room).length : Int) by omega]
      · exfalso
        obtain ⟨y, hy⟩ : ∃ y, before = [y] := by
          match before, hb, hlen with
          | [y], _, _ => exact ⟨y, rfl⟩
          | y :: z :: t, _, h => simp at h
        subst hy
        have : room = y := by simpa using hb
        subst this
        simp [calculateListOps, indexOf] at hres
        subst hres
        obtain ⟨i, _, h⟩ := hx
        simp [getI] at h
    · have hidx : indexOf before room = none := by unfold indexOf; rw [if_neg hb]
      simp only [calculateListOps, hidx, Option.some.injEq] at hres
      subst hres
      exact absurd hx hnx

/-- Each room to send was put somewhere by a move. -/
theorem loop_from {ctx : Ctx α} {ps : List (Int × Int)} {ops : List (Op α)} {subs : List α}
    (h : loop ctx ps = some (ops, subs)) {x : α} (hx : x ∈ subs) : ∃ p ∈ ps, getI ctx.after p.2 = some x := by
  induction ps generalizing ops subs with
  | nil => simp only [loop, Option.some.injEq, Prod.mk.injEq] at h; rw [← h.2] at hx; cases hx
  | cons q ps ih =>
    simp only [loop, Option.bind_eq_bind, Option.pure_def] at h
    cases hb : loopBody ctx q with
    | none => rw [hb] at h; cases h
    | some os =>
      rw [hb] at h
      simp only [Option.bind_some] at h
      cases hl : loop ctx ps with
      | none => rw [hl] at h; cases h
      | some os2 =>
        rw [hl] at h
        simp only [Option.bind_some, Option.some.injEq, Prod.mk.injEq] at h
        rw [← h.2] at hx
        rcases List.mem_append.1 hx with hx | hx
        · refine ⟨q, List.mem_cons_self, ?_⟩
          simp only [loopBody, Option.bind_eq_bind, Option.pure_def] at hb
          cases hg : getI ctx.after q.2 with
          | none => rw [hg] at hb; cases hb
          | some y =>
            rw [hg] at hb
            simp only [Option.bind_some] at hb
            have hxy : x = y := by
              split at hb
              · cases hb; cases hx
              · split at hb
                · cases hb; cases hx
                · cases hb
                  simp only at hx
                  split at hx
                  · split at hx <;> simp at hx <;> exact hx
                  · split at hx
                    · simpa using hx
                    · cases hx
            rw [hxy]
        · obtain ⟨p, hp, h2⟩ := ih (ops := os2.1) (subs := os2.2) hl hx
          exact ⟨p, List.mem_cons_of_mem _ hp, h2⟩

/-- The other direction of C06: only rooms that the client sees afterwards are sent. -/
theorem C06_subs_shown {rs : Ranges} (hv : valid rs = true) (sort : List α → List α) (accept : Bool)
    (before : List α) (room : α) (op : LOp) {res : Result α}
    (hres : calculateListOps rs sort accept before room op = some res) {x : α} (hx : x ∈ res.subs) :
    Visible rs res.after x := by
  have fin : ∀ (after : List α) (op : LOp) (f t : Int) (w : Bool),
      calculateListOps.finish rs after room op f t w = some res → Visible rs res.after x := by
    intro after op f t w h
    unfold calculateListOps.finish at h
    obtain ⟨ps, h1, h2, h3⟩ := C04_move_indexes hv f t
    rw [h1] at h
    simp only [Option.bind_eq_bind, Option.bind_some] at h
    cases hl : loop ⟨rs, room, op, w, t, after, ps.length⟩ ps with
    | none => rw [hl] at h; cases h
    | some o =>
      rw [hl] at h
      simp only [Option.bind_some, Option.pure_def, Option.some.injEq] at h
      subst h
      obtain ⟨p, hp, hg⟩ := loop_from (ops := o.1) (subs := o.2) hl hx
      obtain ⟨r, hr, rfl⟩ := List.mem_map.1 (h2.mem_iff.1 hp)
      obtain ⟨m1, m2⟩ := List.mem_filter.1 hr
      exact ⟨_, ⟨r, m1, (h3 r m1 (by simpa using m2)).2.1⟩, hg⟩
  unfold calculateListOps at hres
  split at hres
  · cases hres; cases hx
  · cases hres; cases hx
  · simp only at hres
    split at hres
    · exact fin _ _ _ _ _ hres
    · split at hres
      · cases hres; cases hx
      · exact fin _ _ _ _ _ hres
    · exact fin _ _ _ _ _ hres

/-- C06 is violated: rooms 1,2,3 with window [0,1]; removing room 1 inserts
room 3 into the window without listing it as a room to send. -/
theorem C06_subs_violated :
    ∃ (rs : Ranges) (before : List Nat) (room x : Nat) (res : Result Nat),
      valid rs = true ∧ before.Nodup ∧ calculateListOps rs id true before room .del = some res ∧
      Visible rs res.after x ∧ ¬ Visible rs before x ∧ x ∉ res.subs := by
  refine ⟨[(0, 1)], [1, 2, 3], 1, 3, ⟨[.delete 0, .insert 1 3], [], [2, 3]⟩, by decide +kernel, by decide,
    by decide +kernel, ⟨1, ⟨(0, 1), by simp, by omega, by simp⟩, by decide⟩, ?_, by decide⟩
  rintro ⟨i, ⟨r, hr, hri⟩, h⟩
  simp at hr
  subst hr
  simp at hri
  have : i = 0 ∨ i = 1 := by omega
  rcases this with rfl | rfl <;> revert h <;> decide

/-- Non-vacuity of `C06_subs_partial`: a removal above the windows shows a new
room in each of them, and both are sent. -/
example : let rs : Ranges := [(1, 2), (4, 5)]
    ¬ MissedSub rs [0, 1, 2, 3, 4, 5, 6, 7] 0 .del ∧
    calculateListOps rs id true [0, 1, 2, 3, 4, 5, 6, 7] 0 .del =
      some ⟨[.delete 1, .insert 2 3, .delete 4, .insert 5 6], [3, 6], [1, 2, 3, 4, 5, 6, 7]⟩ := by
  refine ⟨?_, by decide +kernel⟩
  rintro ⟨_, _, _, ⟨r, hr, h⟩, _⟩
  simp at hr h
  rcases hr with rfl | rfl <;> simp at h

end Verif.ListOps
