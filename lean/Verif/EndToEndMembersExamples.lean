import Verif.EndToEndMembers
/-!
# C115: examples, and memberships the dispatcher does not know
-/
namespace Verif.EndToEnd
open Verif.Store (Ev)

def exCfgM : Cfg := { user := "@u", mem := fun i => if i = "$l" then "leave" else if i = "$i" then "invite" else "join", maxLimit := 50 }
def exMemM (i u : String) : Ev := { id := i, type := "m.room.member", stateKey := u, hasKey := true }

/-- Two users join; one leaves while the join of the other is still in a message; the process is started again; another joins. -/
def exOpsM : List Op :=
  [.poll (.init "!r" 0 [some { id := "$c", type := "m.room.create", hasKey := true }, some (exMemM "$u" "@u")]),
   .poll (.acc "!r" 0 false [some (exMemM "$v" "@v")]), .recv, .poll (.acc "!r" 0 false [some (exMemM "$l" "@u")]), .recv, .restart,
   .poll (.acc "!r" 0 false [some (exMemM "$w" "@w")]), .recv]

example : (∀ o ∈ polls exOpsM, Store.OkOp o) ∧ (∀ o ∈ polls exOpsM, KeyOk o) ∧ (run exCfgM {} exOpsM).bus = [] := by
  refine ⟨?_, ?_, by decide +kernel⟩ <;>
  · intro o ho
    simp only [exOpsM, polls, List.filterMap_cons, List.filterMap_nil, List.mem_cons, List.not_mem_nil, or_false] at ho
    rcases ho with rfl | rfl | rfl | rfl <;> simp [Store.OkOp, Store.Clean, KeyOk, exMemM]

example : (lastMember (run exCfgM {} exOpsM).db "!r" "@u").map (·.ev.id) = some "$l" ∧
    (lastMember (run exCfgM {} exOpsM).db "!r" "@v").map (·.ev.id) = some "$v" ∧
    (lastMember (run exCfgM {} exOpsM).db "!r" "@w").map (·.ev.id) = some "$w" ∧
    Tracker.isUserJoined (run exCfgM {} exOpsM).disp.jrt "@u" "!r" = false ∧ Tracker.isUserJoined (run exCfgM {} exOpsM).disp.jrt "@v" "!r" = true ∧
    Tracker.isUserJoined (run exCfgM {} exOpsM).disp.jrt "@w" "!r" = true := by decide +kernel

/-- The user joins, and then is invited: what follows the join in a timeline with a gap, when the user left and was invited in the gap. -/
def exInvited : List Op :=
  [.poll (.init "!r" 0 [some { id := "$c", type := "m.room.create", hasKey := true }, some (exMemM "$u" "@u")]), .recv,
   .poll (.acc "!r" 0 true [some (exMemM "$i" "@u")]), .recv]

/-- An invite after a join leaves the user joined for the dispatcher (`dispatcher.go:186-203` takes a user out for a leave or a ban only), who is told
about the events in the room from then on, though the user is not joined in the store; the handler itself decides otherwise when it is started again. -/
theorem C115_violated_invite :
    (lastMember (run exCfgM {} exInvited).db "!r" "@u").map (fun x => exCfgM.mem x.ev.id) = some "invite" ∧
    (run exCfgM {} exInvited).bus = [] ∧ Tracker.isUserJoined (run exCfgM {} exInvited).disp.jrt "@u" "!r" = true ∧
    Tracker.isUserJoined (run exCfgM {} (exInvited ++ [.restart])).disp.jrt "@u" "!r" = false := by decide +kernel

end Verif.EndToEnd
