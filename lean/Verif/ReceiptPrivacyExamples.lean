import Verif.ReceiptPrivacyProps
import Verif.ReceiptFlowExamples
/-! C126: a run in which the client is told some receipts, and is not told the private receipt of another user. -/
namespace Verif.ReceiptFlow
open Verif Receipts

/-- A public and a private receipt of another user, and a private one of the user. -/
def mixed : Edu := ⟨"m.receipt", [(("$1", false, "@v"), ⟨1, ""⟩), (("$1", true, "@v"), ⟨2, ""⟩), (("$1", true, U), ⟨3, ""⟩)]⟩

def mixedPub : List Receipt := [⟨R, "$1", "@v", 1, "", false⟩]
def mixedPriv : List Receipt := [⟨R, "$1", "@v", 2, "", true⟩, ⟨R, "$1", U, 3, "", true⟩]

theorem insert_mixed : Insert {} R mixed (some (⟨mixedPub, mixedPriv⟩, mixedPub ++ mixedPriv)) :=
  ⟨mixedPub, mixedPriv, by rw [Unpack, if_neg (by decide)]; exact ⟨List.Perm.refl _, List.Perm.refl _⟩, by decide +kernel⟩

/-- Loaded with the room. -/
example : ∃ s, Run U R Mode.any s ∧ s.c.has = [(("$1", false, "@v"), ⟨1, ""⟩), (("$1", true, U), ⟨3, ""⟩)] := by
  have r1 := Run.deliver (Run.start (user := U) (room := R) (ok := Mode.any)) insert_mixed
  have r2 := Run.ask 1 true r1 rfl rfl
  have r3 := Run.load (fun _ => true) [(R, ["$1"])] true r2 rfl rfl rfl rfl ⟨_, List.mem_cons_self ..⟩ (fun _ => rfl)
  have r4 := Run.done false true r3 rfl (fun _ => rfl) (fun h => absurd trivial h)
  exact ⟨_, r4, by decide +kernel⟩

/-- Taken from the channel of the connection, where the private receipt of the other user does not come. -/
example : ∃ s, Run U R Mode.any s ∧ s.c.has = [] ∧ s.queue = [⟨R, "$1", U, 3, "", true⟩, ⟨R, "$1", "@v", 1, "", false⟩] := by
  have r1 := Run.ask 1 true (Run.start (user := U) (room := R) (ok := Mode.any)) rfl rfl
  have r2 := Run.deliver r1 insert_mixed
  have r3 := Run.handle r2 rfl
  exact ⟨_, r3, rfl, by decide +kernel⟩

end Verif.ReceiptFlow
