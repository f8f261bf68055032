import Verif.ExecutorProps
/-!
# Examples for C128
-/
namespace Verif.Executor
open Verif.Store (Ev)

def exCfg : EndToEnd.Cfg := { user := "@u", mem := fun _ => "join", maxLimit := 50 }
def exRoom : Store.Op :=
  .init "!r" 0 [some { id := "$c", type := "m.room.create", hasKey := true }, some { id := "$u", type := "m.room.member", stateKey := "@u", hasKey := true }]
def exA : Store.Op := .acc "!r" 0 false [some { id := "$1", type := "m.room.message" }]
def exB : Store.Op := .acc "!r" 0 false [some { id := "$1", type := "m.room.message" }, some { id := "$2", type := "m.room.message" }]

/-- Two pollers have the same room; the second gets what the first stored and one event more. While the first event is stored and not published, the
second poller waits, and the client loads the room from the database. -/
def exOps : List Op :=
  [.ensure 1, .ensure 2, .call 1 exRoom, .call 2 exRoom, .take 1, .store, .publish, .done, .recv, .ret 1, .call 1 exA, .take 2, .store, .publish, .done,
   .ret 2, .call 2 exB, .take 1, .take 2, .open, .store, .take 2, .request [("!r", 10)], .recv, .publish, .done, .take 2, .store, .ret 1, .publish]

example : (run exCfg exOps).e.bus = [.acc "!r" [5], .acc "!r" [6]] ∧ (run exCfg exOps).e.conn.map (·.view "!r") = some (some [5]) ∧
    ((run exCfg exOps).log.map fun x => (x.1, x.2.2)) = [(1, true), (2, true), (1, true), (2, true)] ∧
    (callsOf 1 (run exCfg exOps).rets).length = 2 ∧ (callsOf 2 (run exCfg exOps).rets).length = 1 ∧
    (callsOf 2 (run exCfg exOps).asked).length = 2 := by decide +kernel

/-- A call ends, whatever the goroutine is doing (`C128_returns`): here it runs a function of another poller. -/
example : (match (run exCfg (exOps.take 22)).pollers 2, (run exCfg (exOps.take 22)).exec with
    | some (.offering _), some (1, _, .stored _ _) => true
    | _, _ => false) = true := by decide +kernel

def exEnd : List Op := exOps ++ [.done, .ret 2, .recv, .recv, .recv]

/-- The hypotheses of `C128_tracker` hold at the end. -/
example : (∀ o ∈ (run exCfg exEnd).all, Store.OkOp o) ∧ (∀ o ∈ (run exCfg exEnd).all, EndToEnd.KeyOk o) ∧ (run exCfg exEnd).e.bus = [] ∧
    unpublished (run exCfg exEnd) = [] ∧ (EndToEnd.lastMember (run exCfg exEnd).e.db "!r" "@u").isSome = true := by
  have h : (run exCfg exEnd).all = [exRoom, exRoom, exA, exB] := rfl
  refine ⟨?_, ?_, by decide +kernel, by decide +kernel, by decide +kernel⟩
  · rw [h]
    intro o ho
    simp only [List.mem_cons, List.not_mem_nil, or_false] at ho
    rcases ho with rfl | rfl | rfl | rfl <;> simp [exRoom, exA, exB, Store.OkOp, Store.Clean]
  · rw [h]
    intro o ho
    simp only [List.mem_cons, List.not_mem_nil, or_false] at ho
    rcases ho with rfl | rfl | rfl | rfl <;> simp [exRoom, exA, exB, EndToEnd.KeyOk]

end Verif.Executor
