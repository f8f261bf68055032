import Verif.EndToEndBlocks
import Verif.EndToEndExamples
/-!
# Examples for C114 and C116 with state blocks
-/
namespace Verif.EndToEnd
open Verif.Store (Ev)

def exCreate : Ev := { id := "$c", type := "m.room.create", hasKey := true }
def exName : Ev := { id := "$n", type := "m.room.name", hasKey := true }

/-- A state block for the room that is known already comes while the connection is open, then a message. -/
def blPost : List Op :=
  [.request [("!r", 5)], .poll (.init "!r" 0 [some exCreate, some exMem]), .poll (.acc "!r" 0 false [some (exMsg "$3")]), .recv, .recv, .take true [], .take true []]

theorem bl_in {post : List Op} (hd : (run exCfg {} exPre).handed = 3) (hm : mrows exCfg (run exCfg {} (exPre ++ .open :: post)).db = [⟨"!r", 2, "join"⟩])
    (hx : ∀ x ∈ (run exCfg {} (exPre ++ .open :: post)).db.rows, x.ev.type = "m.room.member" → ¬ 3 < x.nid) :
    In exCfg (run exCfg {} (exPre ++ .open :: post)).db "!r" (run exCfg {} exPre).handed := by
  refine ⟨?_, ?_⟩
  · rw [hm, hd]
    exact ⟨_, List.mem_singleton_self _, rfl, rfl, by decide, fun x hx _ _ h1 _ => by
      rw [List.mem_singleton] at hx; subst hx; simp at h1⟩
  · rw [hd]
    intro x hx' _ h1 _ h2
    exact absurd h2 (hx x hx' h1)

/-- The hypotheses of `C114_blocks_partial` hold, and the connection is not closed by a state block without new events. -/
example : (∀ o ∈ polls (exPre ++ .open :: blPost), Store.OkOp o) ∧ (∀ o ∈ polls (exPre ++ .open :: blPost), NoKey o) ∧ (∀ o ∈ polls exPre, KeyOk o) ∧
    (∀ o ∈ blPost, OneConn o) ∧ exCfg.user ∈ (run exCfg {} exPre).disp.jrt.joinedUsers "!r" ∧
    In exCfg (run exCfg {} (exPre ++ .open :: blPost)).db "!r" (run exCfg {} exPre).handed ∧
    (run exCfg {} (exPre ++ .open :: blPost)).conn.map (fun c => (c.view "!r", c.queue)) = some (some [3, 4, 7], []) ∧
    (run exCfg {} (exPre ++ .open :: blPost)).bus = [] := by
  refine ⟨?_, ?_, ?_, ?_, by decide +kernel, bl_in (by decide +kernel) (by decide +kernel) (by decide +kernel), by decide +kernel, by decide +kernel⟩
  · intro o ho
    simp only [exPre, blPost, polls, List.cons_append, List.nil_append, List.filterMap_cons, List.filterMap_nil, List.mem_cons,
      List.not_mem_nil, or_false] at ho
    rcases ho with rfl | rfl | rfl | rfl | rfl <;> simp [Store.OkOp, Store.Clean, exMem, exMsg, exCreate]
  · intro o ho
    simp only [exPre, blPost, polls, List.cons_append, List.nil_append, List.filterMap_cons, List.filterMap_nil, List.mem_cons,
      List.not_mem_nil, or_false] at ho
    rcases ho with rfl | rfl | rfl | rfl | rfl <;> simp [NoKey, Store.Op.events, exMem, exMsg, exCreate]
  · intro o ho
    simp only [exPre, polls, List.filterMap_cons, List.filterMap_nil, List.mem_cons, List.not_mem_nil, or_false] at ho
    rcases ho with rfl | rfl | rfl <;> simp [KeyOk, exMem]
  · intro o ho
    simp only [blPost, List.mem_cons, List.not_mem_nil, or_false] at ho
    rcases ho with rfl | rfl | rfl | rfl | rfl | rfl | rfl <;> simp [OneConn]

/-- A state block with a new event closes the connection when its message is taken; before, the client does not have the new state. -/
example :
    (run exCfg {} (exPre ++ .open :: [.request [("!r", 5)], .poll (.init "!r" 0 [some exName]), .recv])).conn.isSome = true ∧
    (run exCfg {} (exPre ++ .open :: [.request [("!r", 5)], .poll (.init "!r" 0 [some exName]), .recv])).bus = [.inval "!r"] ∧
    (run exCfg {} (exPre ++ .open :: [.request [("!r", 5)], .poll (.init "!r" 0 [some exName]), .recv, .recv])).conn.isSome = false := by decide +kernel

def namePost : List Op := [.request [("!r", 5)], .poll (.init "!r" 0 [some exName]), .recv]

/-- While the message that closes the connection is under way, the client does not have the state event of the state block, and the event is in no message
and in no queue (`sync2/handler2/handler.go:383-386` publishes the room only); requests are answered with the old state until the message is taken. -/
theorem C116_violated_block : ∃ c b, (run exCfg {} (exPre ++ .open :: namePost)).conn = some c ∧ c.base "!r" = some b ∧
    (lastState (run exCfg {} (exPre ++ .open :: namePost)).db "!r" ("m.room.name", "")).map (·.ev.id) = some "$n" ∧
    clientState (run exCfg {} (exPre ++ .open :: namePost)).db (c.live "!r") b ("m.room.name", "") = [] ∧
    (run exCfg {} (exPre ++ .open :: namePost)).bus = [.inval "!r"] ∧ (∀ x ∈ c.queue, x.ev = 4) := by
  have h1 : (run exCfg {} (exPre ++ .open :: namePost)).conn.isSome = true := by decide +kernel
  have h2 : ((run exCfg {} (exPre ++ .open :: namePost)).conn.bind fun c => c.base "!r").isSome = true := by decide +kernel
  have h3 : ((run exCfg {} (exPre ++ .open :: namePost)).conn.bind fun c => (c.base "!r").map fun b =>
      (clientState (run exCfg {} (exPre ++ .open :: namePost)).db (c.live "!r") b ("m.room.name", ""), c.queue.map (·.ev))) = some ([], [4]) := by decide +kernel
  have h4 : (lastState (run exCfg {} (exPre ++ .open :: namePost)).db "!r" ("m.room.name", "")).map (·.ev.id) = some "$n" := by decide +kernel
  have h5 : (run exCfg {} (exPre ++ .open :: namePost)).bus = [.inval "!r"] := by decide +kernel
  obtain ⟨c, hc⟩ := Option.isSome_iff_exists.1 h1
  rw [hc] at h2 h3
  obtain ⟨b, hb⟩ := Option.isSome_iff_exists.1 h2
  simp only [Option.bind_some] at hb h3
  rw [hb] at h3
  simp only [Option.map_some, Option.some.injEq, Prod.mk.injEq] at h3
  refine ⟨c, b, hc, hb, h4, h3.1, h5, fun x hx => ?_⟩
  have : x.ev ∈ c.queue.map (·.ev) := List.mem_map_of_mem hx
  rw [h3.2] at this
  simpa using this

/-- The room is first given without a timeline, then, for another list, with one while an update of the room is taken. -/
def zeroPost : List Op :=
  [.poll (.acc "!r" 0 false [some (exMsg "$3")]), .recv, .recv, .request [("!r", 0)], .take true [("!r", 5)], .take true []]

/-- Without a timeline, the room's position is forgotten (`state/storage.go:724-755`, `sync3/handler/connstate.go:587`: `LatestNID` is then 0). Updates of
the room from before the load are then taken as new. If the first of them brings the room into a list with a timeline, the whole timeline is loaded, the
position is set back to the update's (`sync3/handler/connstate_live.go:227-231`), and the next update is given a second time: the client has `$3` twice. -/
theorem C114_violated_zero : (run exCfg {} (exPre ++ .open :: zeroPost)).conn.map (fun c => (c.view "!r", c.queue)) = some (some [3, 4, 5, 5], []) ∧
    posOf (run exCfg {} (exPre ++ .open :: zeroPost)).db "!r" = [3, 4, 5] ∧ exCfg.user ∈ (run exCfg {} exPre).disp.jrt.joinedUsers "!r" ∧
    In exCfg (run exCfg {} (exPre ++ .open :: zeroPost)).db "!r" (run exCfg {} exPre).handed ∧
    ∀ o ∈ polls (exPre ++ .open :: zeroPost), Store.OkOp o := by
  refine ⟨by decide +kernel, by decide +kernel, by decide +kernel, bl_in (by decide +kernel) (by decide +kernel) (by decide +kernel), ?_⟩
  intro o ho
  simp only [exPre, zeroPost, polls, List.cons_append, List.nil_append, List.filterMap_cons, List.filterMap_nil, List.mem_cons,
    List.not_mem_nil, or_false] at ho
  rcases ho with rfl | rfl | rfl | rfl <;> simp [Store.OkOp, Store.Clean, exMem, exMsg]

end Verif.EndToEnd
