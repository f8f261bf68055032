import Verif.InitialRoomProps
import Verif.LeavingExamples
/-! # C85: concrete histories -/
namespace Verif.InitialRoom

/-! ### Violations -/

/-- What is sent for the room "!a" at the end of a history: its name and required state. -/
def sent (hs : List Leaving.Hap) (w : World) : Option (Option (String × Option (List String))) :=
  ((Leaving.start.bind fun s => Leaving.run ⟨id, id⟩ s (hs.flatMap Leaving.Hap.ops)).bind fun s =>
    shown (fun m => (m.nameEvent, false)) "@u" s "l" "!a" {} none [] false ⟨[], ""⟩ w).map (·.map fun r => (r.name, r.requiredState))

/-- C85 is violated by leaving: the room stays in the list, and when it comes into view the client gets the name and the state
the room has by now. -/
theorem C85_violated_leave : sent [.joins Leaving.upA, .leaves Leaving.upA Leaving.upA] later =
    some (some ("secret plans", some ["name: secret plans"])) := by decide +kernel

/-- C85 is violated for banned users in the same way. -/
theorem C85_violated_ban : sent [.joins Leaving.upA, .banned Leaving.upA] later =
    some (some ("secret plans", some ["name: secret plans"])) := by decide +kernel

/-- C85 is violated by rejecting an invite that a timeline also showed, by a user who never was in the room. -/
theorem C85_violated_reject : sent [.invited Leaving.upA, .inviteSeen Leaving.upA, .leaves Leaving.upA Leaving.upA] later =
    some (some ("secret plans", some ["name: secret plans"])) := by decide +kernel

/-- C85 is violated for kicked users if the list is created again, for instance because its filters change: new lists do not leave
out rooms that were left. -/
theorem C85_violated_list : sent [.joins Leaving.upA, .kicked Leaving.upA Leaving.upA,
    .request (.assign "l" {} (some ["by_recency"]) true id)] later = some (some ("secret plans", some ["name: secret plans"])) := by
  decide +kernel

/-- The hypotheses of `C85_private_partial` are met: a kicked user gets nothing, a member gets the room. -/
example : sent [.joins Leaving.upA, .kicked Leaving.upA Leaving.upA] later = none ∧
    sent [.joins Leaving.upA] later = some (some ("secret plans", some ["name: secret plans"])) := by decide +kernel

example : ∀ a x b, ([.joins Leaving.upA, .kicked Leaving.upA Leaving.upA] : List Leaving.Hap) = a ++ x :: b →
    Leaving.OkHap a x ∧ ∀ o ∈ x.ops, Leaving.OkOp "l" o := by
  apply Leaving.ok_of_all
  simp [Leaving.OkAll, Leaving.OkHap, Leaving.OkOp, Leaving.Hap.ops, Leaving.Up.current, Leaving.upA, Lists.plain, Leaving.status]

end Verif.InitialRoom
