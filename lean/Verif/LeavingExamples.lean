import Verif.LeavingProps
/-! # C83: concrete histories -/
namespace Verif.Leaving
open Verif

/-! ### Violations -/

/-- A room as in an update. -/
def upA : Up := ⟨Lists.noReq, ⟨"!a", Lists.plain, 0, 0, 1, fun _ => none⟩⟩

/-- A connection after a request for one list. -/
def start : Option State :=
  (Lists.run ⟨id, id⟩ {} [.assign "l" {} (some ["by_recency"]) false id]).map fun l => { lists := l }

/-- The rooms of the list afterwards, and whether the tracker has the user in the room. -/
def view (hs : List Hap) : Option (List String × Bool) :=
  (start.bind fun s => run ⟨id, id⟩ s (hs.flatMap Hap.ops)).bind fun s =>
    (Lists.getList s.lists "l").map fun l => (l.sr.ids, s.joined "!a")

/-- C83 is violated by leaving: the update of `OnLeftRoom` has no event number, so the connection drops it, and the leave
event itself was processed before the room was marked as left.  The room stays in the list. -/
theorem C83_violated_leave : status "!a" [.joins upA, .leaves upA upA] .never = .out ∧
    view [.joins upA, .leaves upA upA] = some (["!a"], false) := by decide +kernel

/-- C83 is violated by bans, for which `OnLeftRoom` is never called. -/
theorem C83_violated_ban : status "!a" [.joins upA, .banned upA] .never = .out ∧
    view [.joins upA, .banned upA] = some (["!a"], false) := by decide +kernel

/-- C83 is violated by rejecting an invite that the timeline of another user also showed: the leave event resets `IsInvite`, so
`OnLeftRoom` no longer sees that this was an invite. -/
theorem C83_violated_reject : status "!a" [.invited upA, .inviteSeen upA, .leaves upA upA] .never = .out ∧
    view [.invited upA, .inviteSeen upA, .leaves upA upA] = some (["!a"], false) := by decide +kernel

/-- C83 is violated by joining again without an invite: `HasLeft` stays set, so the room the user is in is taken out of the
list, by the join itself, and no later message brings it back. -/
theorem C83_violated_rejoin :
    status "!a" [.joins upA, .kicked upA upA, .joins upA, .message upA] .never = .joined ∧
    view [.joins upA, .kicked upA upA, .joins upA, .message upA] = some ([], true) := by decide +kernel

/-- C83 is violated on lists created after that, too: the new list has the room, and the next message takes it out. -/
theorem C83_violated_message :
    view [.joins upA, .kicked upA upA, .joins upA,
      .request (.assign "l" {} (some ["by_recency"]) true id)] = some (["!a"], true) ∧
    view [.joins upA, .kicked upA upA, .joins upA,
      .request (.assign "l" {} (some ["by_recency"]) true id), .message upA] = some ([], true) := by decide +kernel

theorem start_ok : ∃ s, start = some s ∧ Start s "l" := by
  refine ⟨_, rfl, start_of_requests ⟨id, id⟩ (os := [.assign "l" {} (some ["by_recency"]) false id]) ?_ rfl rfl ⟨_, rfl, rfl⟩⟩
  intro o ho
  obtain rfl := List.mem_singleton.1 ho
  exact ⟨⟨_, rfl, by simp [SortableRooms.Supported, SortableRooms.before]⟩, fun l => List.Perm.refl _⟩

/-- Another room. -/
def upB : Up := ⟨Lists.noReq, ⟨"!b", Lists.plain, 0, 0, 2, fun _ => none⟩⟩

/-- The hypotheses are met by a history with an invite that is accepted, a kick, a new invite, a rejection and another room. -/
def good : List Hap := [.invited upA, .joins upA, .message upA, .joins upB, .kicked upA upA, .quiet upA, .invited upA,
  .request (.sort "l" ["by_name"]), .leaves upA upA, .invited upA]

example : (view good).map (·.1) = some ["!b", "!a"] ∧ status "!a" good .never = .invited := by decide +kernel

/-- A prefix-indexed form of the hypothesis, to check it. -/
def OkAll (k : String) : List Hap → List Hap → Prop
  | _, [] => True
  | a, h :: b => (OkHap a h ∧ ∀ o ∈ h.ops, OkOp k o) ∧ OkAll k (a ++ [h]) b

theorem ok_of_all {k : String} {hs : List Hap} (h : OkAll k [] hs) :
    ∀ a x b, hs = a ++ x :: b → OkHap a x ∧ ∀ o ∈ x.ops, OkOp k o := by
  have gen : ∀ (hs p : List Hap), OkAll k p hs → ∀ a x b, hs = a ++ x :: b → OkHap (p ++ a) x ∧ ∀ o ∈ x.ops, OkOp k o := by
    intro hs
    induction hs with
    | nil => intro p _ a x b e; simp at e
    | cons y ys ih =>
      intro p hp a x b e
      cases a with
      | nil =>
        simp only [List.nil_append, List.cons.injEq] at e
        obtain ⟨rfl, rfl⟩ := e
        simpa using hp.1
      | cons z zs =>
        simp only [List.cons_append, List.cons.injEq] at e
        obtain ⟨rfl, rfl⟩ := e
        have := ih (p ++ [y]) hp.2 zs x b rfl
        simpa using this
  intro a x b e
  simpa using gen hs [] h a x b e

example : ∀ a x b, good = a ++ x :: b → OkHap a x ∧ ∀ o ∈ x.ops, OkOp "l" o := by
  apply ok_of_all
  simp [good, OkAll, OkHap, OkOp, KeepsList, Hap.ops, Up.current, upA, upB, Lists.plain, status, seen]

end Verif.Leaving
