import Verif.EndToEndProps
/-!
# Examples for the way of an event to the client
-/
namespace Verif.EndToEnd
open Verif.Store (Ev)

def exCfg : Cfg := { user := "@u", mem := fun i => if i = "$l" then "leave" else "join", maxLimit := 50 }
def exMem : Ev := { id := "$u", type := "m.room.member", stateKey := "@u", hasKey := true }
def exMsg (i : String) : Ev := { id := i, type := "m.room.message" }

/-- A room with the user and two messages, one of which has not been handed on when the connection is made. -/
def exPre : List Op :=
  [.poll (.init "!r" 0 [some { id := "$c", type := "m.room.create", hasKey := true }, some exMem]),
   .poll (.acc "!r" 0 false [some (exMsg "$1")]), .recv, .recv, .poll (.acc "!r" 0 false [some (exMsg "$2")])]

/-- The room is loaded with one event; another comes; both are taken from the queue, and one more is stored. -/
def exPost : List Op :=
  [.request [("!r", 1)], .poll (.acc "!r" 0 false [some (exMsg "$3")]), .recv, .take true [], .recv, .take true [],
   .poll (.acc "!r" 0 false [some (exMsg "$4")])]

def exEnd : State := run exCfg {} (exPre ++ .open :: exPost)

/-- The hypotheses of `C114_end_to_end_partial` hold, and the client has the second and the third message; the fourth is in a message. -/
example : (∀ o ∈ polls (exPre ++ .open :: exPost), Store.OkOp o) ∧ (∀ o ∈ exPost, OkOp "!r" o) ∧
    (∀ m ∈ (run exCfg {} exPre).bus, ¬ resets "!r" m) ∧ exCfg.user ∈ (run exCfg {} exPre).disp.jrt.joinedUsers "!r" ∧
    In exCfg exEnd.db "!r" (run exCfg {} exPre).handed := by
  refine ⟨?_, ?_, ?_, by decide +kernel, ?_⟩
  · intro o ho
    simp only [exPre, exPost, polls, List.cons_append, List.nil_append, List.filterMap_cons, List.filterMap_nil, List.mem_cons,
      List.not_mem_nil, or_false] at ho
    rcases ho with rfl | rfl | rfl | rfl | rfl <;> simp [Store.OkOp, Store.Clean, exMem, exMsg]
  · intro o ho
    simp only [exPost, List.mem_cons, List.not_mem_nil, or_false] at ho
    rcases ho with rfl | rfl | rfl | rfl | rfl | rfl | rfl <;> simp [OkOp]
  · have : (run exCfg {} exPre).bus = [.acc "!r" [4]] := by decide +kernel
    rw [this]
    simp [resets]
  · have hd : (run exCfg {} exPre).handed = 3 := by decide +kernel
    have hm : mrows exCfg exEnd.db = [⟨"!r", 2, "join"⟩] := by decide +kernel
    refine ⟨?_, ?_⟩
    · rw [hm, hd]
      exact ⟨_, List.mem_singleton_self _, rfl, rfl, by decide, fun x hx _ _ h1 _ => by
        rw [List.mem_singleton] at hx; subst hx; simp at h1⟩
    · rw [hd]
      have : ∀ x ∈ exEnd.db.rows, x.ev.type = "m.room.member" → ¬ 3 < x.nid := by decide +kernel
      intro x hx _ h1 _ h2
      exact absurd h2 (this x hx h1)

example : exEnd.conn.map (fun c => (c.view "!r", c.queue)) = some (some [4, 5], []) ∧ posOf exEnd.db "!r" = [3, 4, 5, 6] ∧
    exEnd.bus = [.acc "!r" [6]] := by decide +kernel

end Verif.EndToEnd
