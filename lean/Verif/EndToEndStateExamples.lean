import Verif.EndToEndState
/-!
# Examples for the state a client has
-/
namespace Verif.EndToEnd
open Verif.Store (Ev)

def sxCfg : Cfg := { user := "@u", mem := fun i => if i = "$l" then "leave" else "join", maxLimit := 50 }
def sxMem : Ev := { id := "$u", type := "m.room.member", stateKey := "@u", hasKey := true }
def sxTopic (i : String) : Ev := { id := i, type := "m.room.topic", hasKey := true }
def sxMsg (i : String) : Ev := { id := i, type := "m.room.message" }

/-- A room with the user and a topic; another topic has not been handed on when the connection is made. -/
def sxPre : List Op :=
  [.poll (.init "!r" 0 [some { id := "$c", type := "m.room.create", hasKey := true }, some sxMem]),
   .poll (.acc "!r" 0 false [some (sxTopic "$t1")]), .recv, .recv, .poll (.acc "!r" 0 false [some (sxTopic "$t2")])]

/-- The room is loaded; a name and a third topic come and are taken; a message comes, and a new name that is not taken. -/
def sxPost : List Op :=
  [.request [("!r", 1)], .poll (.acc "!r" 0 false [some { id := "$n1", type := "m.room.name", hasKey := true }, some (sxTopic "$t3")]), .recv,
   .take true [], .recv, .take true [], .take true [], .poll (.acc "!r" 0 false [some (sxMsg "$m"), some { id := "$n2", type := "m.room.name", hasKey := true }])]

def sxEnd : State := run sxCfg {} (sxPre ++ .open :: sxPost)

/-- The hypotheses of `C116_state_partial` hold. -/
example : (∀ o ∈ polls (sxPre ++ .open :: sxPost), Store.OkOp o) ∧ (∀ o ∈ polls (sxPre ++ .open :: sxPost), NoKey o) ∧ (∀ o ∈ sxPost, OkOp "!r" o) ∧
    (∀ m ∈ (run sxCfg {} sxPre).bus, ¬ resets "!r" m) ∧ sxCfg.user ∈ (run sxCfg {} sxPre).disp.jrt.joinedUsers "!r" ∧
    In sxCfg sxEnd.db "!r" (run sxCfg {} sxPre).handed := by
  refine ⟨?_, ?_, ?_, ?_, by decide +kernel, ?_⟩
  · intro o ho
    simp only [sxPre, sxPost, polls, List.cons_append, List.nil_append, List.filterMap_cons, List.filterMap_nil, List.mem_cons,
      List.not_mem_nil, or_false] at ho
    rcases ho with rfl | rfl | rfl | rfl | rfl <;> simp [Store.OkOp, Store.Clean, sxMem, sxMsg, sxTopic]
  · intro o ho
    simp only [sxPre, sxPost, polls, List.cons_append, List.nil_append, List.filterMap_cons, List.filterMap_nil, List.mem_cons,
      List.not_mem_nil, or_false] at ho
    rcases ho with rfl | rfl | rfl | rfl | rfl <;> simp [NoKey, Store.Op.events, sxMem, sxMsg, sxTopic]
  · intro o ho
    simp only [sxPost, List.mem_cons, List.not_mem_nil, or_false] at ho
    rcases ho with rfl | rfl | rfl | rfl | rfl | rfl | rfl | rfl <;> simp [OkOp]
  · have : (run sxCfg {} sxPre).bus = [.acc "!r" [4]] := by decide +kernel
    rw [this]
    simp [resets]
  · have hd : (run sxCfg {} sxPre).handed = 3 := by decide +kernel
    have hm : mrows sxCfg sxEnd.db = [⟨"!r", 2, "join"⟩] := by decide +kernel
    refine ⟨?_, ?_⟩
    · rw [hm, hd]
      exact ⟨_, List.mem_singleton_self _, rfl, rfl, by decide, fun x hx _ _ h1 _ => by
        rw [List.mem_singleton] at hx; subst hx; simp at h1⟩
    · rw [hd]
      have : ∀ x ∈ sxEnd.db.rows, x.ev.type = "m.room.member" → ¬ 3 < x.nid := by decide +kernel
      intro x hx _ h1 _ h2
      exact absurd h2 (this x hx h1)

/-- What the client was given with the room, and what since. -/
example : sxEnd.conn.map (fun c => ((c.base "!r").map fun b => b.map (·.ev.id), c.live "!r")) = some (some ["$c", "$u", "$t2"], [5, 6]) := by decide +kernel

/-- The client has the third topic and the first name; the second name is in a message. -/
example : sxEnd.conn.map (fun c => ["m.room.topic", "m.room.name", "m.room.create"].map fun t =>
      clientState sxEnd.db (c.live "!r") ((c.base "!r").getD []) (t, "")) = some [["$t3"], ["$n1"], ["$c"]] ∧
    ["m.room.topic", "m.room.name", "m.room.create"].map (fun t => (lastState sxEnd.db "!r" (t, "")).map (·.ev.id)) = [some "$t3", some "$n2", some "$c"] ∧
    sxEnd.bus = [.acc "!r" [7, 8]] := by decide +kernel

end Verif.EndToEnd
