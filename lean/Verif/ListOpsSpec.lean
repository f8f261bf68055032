import Verif.ListOps
/-! Specification used by the list-operation theorems (C04-C06). -/
namespace Verif.ListOps
open Verif.Ranges

/-- The range meets the stretch of indices between `a` and `b`. -/
def touches (a b : Int) (r : Range) : Prop := (r.1 ≤ a ∨ r.1 ≤ b) ∧ (a ≤ r.2 ∨ b ≤ r.2)
instance (a b : Int) (r : Range) : Decidable (touches a b r) := by unfold touches; infer_instance

/-- The range lies strictly between `a` and `b`. -/
def between (a b : Int) (r : Range) : Prop := (a < r.1 ∧ r.2 < b) ∨ (b < r.1 ∧ r.2 < a)
instance (a b : Int) (r : Range) : Decidable (between a b r) := by unfold between; infer_instance

/-- The part of a move from `a` to `b` that happens inside the range `r`. -/
def clip (a b : Int) (r : Range) : Int × Int :=
  if a ≤ b then (max a r.1, min b r.2) else (min a r.2, max b r.1)

end Verif.ListOps
