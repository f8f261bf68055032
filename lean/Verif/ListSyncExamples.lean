import Verif.ListSyncProps
/-!
# C81: an example that meets the hypotheses, and witnesses of the violations
-/
namespace Verif.ListSync
open Verif Verif.Ranges Verif.Request

variable (S : Lists.Strs) (key : String)

/-- A room with a recency but no bump. -/
def room (id : String) (ts : Nat) : Lists.Room := ⟨id, Lists.plain, 0, 0, ts, fun _ => none⟩
/-- An update that bumps the room. -/
def bump (id : String) (ts : Nat) : Lists.Room := ⟨id, Lists.plain, 0, 0, ts, fun _ => some ts⟩
/-- An update saying that the user left the room. -/
def gone (id : String) (ts : Nat) : Lists.Room := ⟨id, { Lists.plain with hasLeft := true }, 0, 0, ts, fun _ => none⟩
def up (r : Lists.Room) : Ev := .update (fun _ => ⟨[], [], false⟩) r
/-- The rooms are loaded before there is a list. -/
def load : Round := { next := none, evs := [up (room "!a" 5), up (room "!b" 4), up (room "!c" 3), up (room "!d" 2), up (room "!e" 1)] }
def ask (rs : Ranges) (all : Bool) : RList := { ranges := some rs, sort := some ["by_recency"], getAll := some all }

theorem ask_ok {rs : Ranges} (h : valid rs = true) : OkList (ask rs false) := by
  refine ⟨h, ⟨["by_recency"], rfl, ?_⟩, rfl⟩
  intro o ho
  simp only [List.mem_singleton] at ho
  subst ho
  simp [SortableRooms.Supported, SortableRooms.before]

theorem up_ok (r : Lists.Room) : OkEv key (up r) := trivial

/-- A check that implies `Tame`. -/
def tameB : List COp → Bool
  | .single (.delete g) :: .single (.delete f) :: b => decide (f ≤ g) && tameB (.single (.delete f) :: b)
  | _ :: b => tameB b
  | [] => true

theorem tameB_tail (o : COp) (b : List COp) (h : tameB (o :: b) = true) : tameB b = true := by
  unfold tameB at h
  split at h
  · rename_i e
    cases e
    simp only [Bool.and_eq_true] at h
    exact h.2
  · rename_i e
    cases e
    exact h
  · rename_i e; cases e

theorem tameB_tame {ops : List COp} (h : tameB ops = true) : Tame ops := by
  intro a g f b e
  induction a generalizing ops with
  | nil =>
    subst e
    simp only [List.nil_append, tameB, Bool.and_eq_true, decide_eq_true_eq] at h
    exact h.1
  | cons o a ih =>
    subst e
    exact ih (tameB_tail o _ h) rfl

theorem okRun_cons {w : World} {r : Round} {rs : List Round} (h1 : OkRound key w.cur r)
    (h2 : ((respond S key w.s w.cur r).map fun x => tameB x.2).getD true = true)
    (h3 : ∀ w', round S key w r = some w' → OkRun S key w' rs) : OkRun S key w (r :: rs) := by
  refine ⟨h1, ?_, h3⟩
  intro s ops h
  rw [h] at h2
  exact tameB_tame h2

/-- A history that loads rooms, asks for a window, moves rooms into it, moves the window and removes a room: the
hypotheses of `C81_windows_partial` hold, and the client shows the server's list. -/
def history : List Round :=
  [load, { next := some (ask [(0, 2)] false) },
   { next := some (ask [(0, 2)] false), evs := [up (bump "!e" 10), .other (.assign "m" {} (some ["by_name"]) false id), up (bump "!d" 11)] },
   { next := some (ask [(1, 3)] false), evs := [up (gone "!c" 1)] }]

example : (run ⟨id, id⟩ "l" {} history).map (fun w => ((Lists.getList w.s "l").map (·.sr.ids), [1, 2, 3].map w.m.get)) =
    some (some ["!d", "!e", "!a", "!b"], [some "!e", some "!a", some "!b"]) := by decide +kernel

/-- Dynamic part of `OkRun`, as a check. -/
def tameRun (w : World) : List Round → Bool
  | [] => true
  | r :: rs => ((respond S key w.s w.cur r).map fun x => tameB x.2).getD true &&
      (match round S key w r with | none => true | some w' => tameRun w' rs)

/-- Static part of `OkRun`. -/
def OkRounds : Option RList → List Round → Prop
  | _, [] => True
  | prev, r :: rs => OkRound key prev r ∧ OkRounds r.next rs

theorem okRun_of {rounds : List Round} : ∀ {w : World}, OkRounds key w.cur rounds → tameRun S key w rounds = true →
    OkRun S key w rounds := by
  induction rounds with
  | nil => intro w _ _; trivial
  | cons r rs ih =>
    intro w h1 h2
    simp only [tameRun, Bool.and_eq_true] at h2
    refine okRun_cons S key h1.1 h2.1 ?_
    intro w' hw'
    rw [hw'] at h2
    have hc : w'.cur = r.next := by
      unfold round at hw'
      simp only [Option.bind_eq_bind, Option.bind_eq_some_iff] at hw'
      obtain ⟨_, _, _, _, h3⟩ := hw'
      simp only [Option.pure_def, Option.some.injEq] at h3
      rw [← h3]
    exact ih (by rw [hc]; exact h1.2) h2.2

theorem ask_one (prev : Option RList) (rs : Ranges) (all : Bool) (h : ∀ r ∈ rs, r.1 ≠ r.2) : OneIndex prev (ask rs all) := by
  intro p _ _ _ i hi
  exact absurd rfl (h _ hi)

example : OkRun ⟨id, id⟩ "l" {} history := by
  have a1 : ∀ rs prev, valid rs = true → (∀ r ∈ rs, r.1 ≠ r.2) → ∀ evs, (∀ e ∈ evs, OkEv "l" e) →
      OkRound "l" prev { next := some (ask rs false), evs := evs } := by
    intro rs prev h1 h2 evs h3
    refine ⟨?_, fun _ => List.Perm.refl _, fun _ => List.Perm.refl _, h3⟩
    intro next hn
    cases hn
    exact ⟨ask_ok h1, ask_one prev rs false h2⟩
  have hr : OkRounds "l" none history := by
    unfold history
    refine ⟨⟨fun _ h => absurd h (by simp [load]), fun _ => List.Perm.refl _, fun _ => List.Perm.refl _, ?_⟩, a1 _ _ (by decide) (by decide) _ (by simp),
      a1 _ _ (by decide) (by decide) _ ?_, a1 _ _ (by decide) (by decide) _ ?_, trivial⟩
    · simp [load, up, OkEv]
    · simp [up, OkEv, Other, Lists.Good, SortableRooms.Supported, SortableRooms.before]
    · simp [up, OkEv]
  exact okRun_of ⟨id, id⟩ "l" (w := {}) hr (by decide +kernel)

/-- What is looked at in the examples. -/
def peek (rounds : List Round) (i : Int) : Option (Option RList × Option (Option String) × Option String) :=
  (run ⟨id, id⟩ "l" {} rounds).map fun w => (w.cur, (Lists.getList w.s "l").map (fun l => ListOps.getI l.sr.ids i), w.m.get i)

theorem peek_some {rounds : List Round} {i : Int} {cur : RList} {x y : Option String}
    (h : peek rounds i = some (some cur, some x, y)) : ∃ (w : World) (l : Lists.FList),
    run ⟨id, id⟩ "l" {} rounds = some w ∧ w.cur = some cur ∧ Lists.getList w.s "l" = some l ∧
    ListOps.getI l.sr.ids i = x ∧ w.m.get i = y := by
  unfold peek at h
  rw [Option.map_eq_some_iff] at h
  obtain ⟨w, h1, h2⟩ := h
  simp only [Prod.mk.injEq, Option.map_eq_some_iff] at h2
  obtain ⟨h3, ⟨l, h4, h5⟩, h6⟩ := h2
  exact ⟨w, l, h1, h3, h4, h5, h6⟩

def batch : List Round :=
  [load, { next := some (ask [(0, 9)] false) },
   { next := some (ask [(0, 9)] false), evs := [up (gone "!c" 3), up (bump "!e" 10)] }]

theorem peek_batch : peek batch 3 = some (some (ask [(0, 9)] false), some (some "!d"), none) := by decide +kernel

/-- C81 is violated by two updates in one response: the third of five rooms leaves (DELETE 2), then the last room moves
to the top (DELETE 3, INSERT 0).  The client deletes index 3 of its old list before it closes the gap at 2, and loses a
room that the server still has in the window.  All requests meet the requirements. -/
theorem C81_violated_batch : ∃ (rounds : List Round) (w : World) (l : Lists.FList),
    OkRounds "l" none rounds ∧ run ⟨id, id⟩ "l" {} rounds = some w ∧ w.cur = some (ask [(0, 9)] false) ∧
    Lists.getList w.s "l" = some l ∧ ListOps.getI l.sr.ids 3 = some "!d" ∧ w.m.get 3 = none := by
  have a1 : ∀ prev evs, (∀ e ∈ evs, OkEv "l" e) → OkRound "l" prev { next := some (ask [(0, 9)] false), evs := evs } := by
    intro prev evs h3
    refine ⟨?_, fun _ => List.Perm.refl _, fun _ => List.Perm.refl _, h3⟩
    intro next hn
    cases hn
    exact ⟨ask_ok (by decide), ask_one prev _ false (by decide)⟩
  obtain ⟨w, l, h⟩ := peek_some peek_batch
  refine ⟨batch, w, l, ?_, h⟩
  refine ⟨⟨fun _ h => absurd h (by simp [load]), fun _ => List.Perm.refl _, fun _ => List.Perm.refl _, ?_⟩, a1 _ _ (by simp), a1 _ _ ?_, trivial⟩
  · simp [load, up, OkEv]
  · simp [up, OkEv]

/-- `C81_all_rooms` applies: five rooms, and a new list for which all are requested. -/
example : ((run ⟨id, id⟩ "l" {} [load]).bind fun w => (round ⟨id, id⟩ "l" w { next := some (ask [(0, 9)] true) }).map fun w' =>
    ((Lists.getList w.s "l").isNone, ConnLists.getsAll (ask [(0, 9)] true), (w'.m.get 4).isSome)) = some (true, true, true) := by decide +kernel

def getall : List Round :=
  [load, { next := some (ask [(0, 9)] true) },
   { next := some (ask [(0, 9)] true), evs := [up (bump "!e" 10), up (bump "!d" 11)] },
   { next := some (ask [(0, 9)] false) }, { next := some (ask [(0, 9)] false), evs := [up (bump "!c" 12)] }]

theorem peek_getall : peek getall 1 = some (some (ask [(0, 9)] false), some (some "!d"), some "!a") := by decide +kernel

/-- C81 is violated by a list for which all rooms were requested at first: such a list is not sorted on updates, nor when
the client asks for windows instead.  The next update sorts it and moves several rooms at once, while the operations
describe the move of one. -/
theorem C81_violated_getall : ∃ (rounds : List Round) (w : World) (l : Lists.FList),
    run ⟨id, id⟩ "l" {} rounds = some w ∧ w.cur = some (ask [(0, 9)] false) ∧
    Lists.getList w.s "l" = some l ∧ ListOps.getI l.sr.ids 1 = some "!d" ∧ w.m.get 1 = some "!a" := by
  obtain ⟨w, l, h⟩ := peek_some peek_getall
  exact ⟨getall, w, l, h⟩

end Verif.ListSync
