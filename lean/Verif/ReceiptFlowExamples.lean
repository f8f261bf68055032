import Verif.ReceiptFlowProps
/-! C124: how a client is not told a receipt of its user, and a run that meets the hypotheses of the theorem. -/
namespace Verif.ReceiptFlow
open Verif Receipts

def Mode.lively : Mode := { Mode.good with live := True }
def Mode.blind : Mode := { Mode.good with noRead := True }
def Mode.failing : Mode := { Mode.good with fails := True }

def U : String := "@u"
def R : String := "!r"

/-- C124 without restrictions. -/
def Arrives (ok : Mode) : Prop := ∀ s, Run U R ok s → s.sent = true → CaughtUp s → ∀ priv event ts,
  current s.db U R priv = some (event, ts) → ((event, priv, U), (⟨ts, ""⟩ : Info)) ∈ s.c.has

/-- The user's receipt for an event. -/
def rec (event : String) (ts : Int) : Receipt := ⟨R, event, U, ts, "", false⟩

/-- As it is delivered. -/
def edu (event : String) (ts : Int) : Edu := ⟨"m.receipt", [((event, false, U), ⟨ts, ""⟩)]⟩

theorem insert_first : Insert {} R (edu "$1" 1) (some (⟨[rec "$1" 1], []⟩, [rec "$1" 1])) :=
  ⟨[rec "$1" 1], [], by rw [Unpack, if_neg (by decide)]; exact ⟨List.Perm.refl _, List.Perm.refl _⟩, by decide +kernel⟩

theorem insert_second : Insert ⟨[rec "$1" 1], []⟩ R (edu "$2" 2) (some (⟨[rec "$2" 2], []⟩, [rec "$2" 2])) :=
  ⟨[rec "$2" 2], [], by rw [Unpack, if_neg (by decide)]; exact ⟨List.Perm.refl _, List.Perm.refl _⟩, by decide +kernel⟩

/-- A receipt is stored and published, and nobody is connected. -/
theorem stored (ok : Mode) : Run U R ok { db := ⟨[rec "$1" 1], []⟩, edus := [edu "$1" 1] } := by
  have r1 := Run.deliver (Run.start (user := U) (room := R) (ok := ok)) insert_first
  exact Run.handle r1 rfl

/-- An event brings a room into a window, or the user joins it: the room is sent, but receipts are loaded only for rooms that are in
the response before updates are taken (sync3/handler/connstate.go 226-237); the extension adds nothing when the room is sent
because of an update (sync3/extensions/receipts.go 34-37). The client shows the room as unread. -/
theorem C124_violated_live : ¬ Arrives Mode.lively := by
  intro ha
  have r1 := Run.ask 1 true (stored Mode.lively) rfl rfl
  have r2 := Run.pass r1 rfl rfl
  have r3 := Run.come r2 rfl rfl trivial
  have r4 := Run.done false true r3 rfl (fun _ => rfl) (fun _ h => by cases h)
  have h := ha _ r4 rfl ⟨rfl, rfl, rfl, by decide +kernel, _, rfl, by decide +kernel⟩ false "$1" 1 (by decide +kernel)
  revert h
  decide +kernel

/-- The tables cannot be read when the room is sent (sync3/extensions/receipts.go 95-110): the request goes on without receipts. -/
theorem C124_violated_read : ¬ Arrives Mode.blind := by
  intro ha
  have r1 := Run.ask 1 true (stored Mode.blind) rfl rfl
  have r2 := Run.load (fun _ => true) [(R, [])] false r1 rfl rfl rfl rfl ⟨[], List.mem_cons_self ..⟩ (fun h => absurd trivial h)
  have r4 := Run.done false true r2 rfl (fun _ => rfl) (fun _ h => by cases h)
  have h := ha _ r4 rfl ⟨rfl, rfl, rfl, by decide +kernel, _, rfl, by decide +kernel⟩ false "$1" 1 (by decide +kernel)
  revert h
  decide +kernel

/-- The client is connected and has the first receipt; the second is in the channel of the connection and there is a request. -/
def busy : State := ask { handle U { db := ⟨[rec "$2" 2], []⟩
                                     edus := [edu "$1" 1, edu "$2" 2]
                                     stage := true
                                     sent := true
                                     c := (({ has := [] } : ConnFlow.Client (Option Edu) Told).serve
                                        ⟨1, true, processInitial ⟨[rec "$1" 1], []⟩ U (fun _ => true) [(R, [])] R⟩).finish put
                                        ⟨1, true, processInitial ⟨[rec "$1" 1], []⟩ U (fun _ => true) [(R, [])] R⟩ false true } [rec "$2" 2] with bus := [] } 2 true

theorem busy_run (ok : Mode) : Run U R ok busy := by
  have r1 := Run.ask 1 true (stored ok) rfl rfl
  have r2 := Run.load (fun _ => true) [(R, [])] true r1 rfl rfl rfl rfl ⟨[], List.mem_cons_self ..⟩ (fun _ => rfl)
  have r3 := Run.done false true r2 rfl (fun _ => rfl) (fun _ h => by cases h)
  have r4 := Run.deliver r3 insert_second
  have r5 := Run.handle r4 rfl
  exact Run.ask 2 true r5 rfl (by decide +kernel)

theorem append_second : AppendLive (fun _ => true) (fun x => if x = R then none else none) (rec "$2" 2)
    (fun x => if x = R then some (pack [rec "$2" 2]) else if x = R then none else none) := by
  unfold AppendLive
  rfl

/-- A request takes a receipt from the channel and fails. -/
theorem C124_violated_failing : ¬ Arrives Mode.failing := by
  intro ha
  have r2 := Run.pass (busy_run Mode.failing) rfl rfl
  have r3 := Run.take r2 rfl rfl rfl rfl append_second
  have r4 := Run.done true true r3 rfl (fun h => by cases h) (fun h => absurd trivial h)
  have r5 := Run.ask 2 true r4 rfl (by decide +kernel)
  have r6 := Run.pass r5 rfl rfl
  have r7 := Run.done false true r6 rfl (fun _ => rfl) (fun _ h => by cases h)
  have h := ha _ r7 rfl ⟨rfl, rfl, rfl, by decide +kernel, _, rfl, by decide +kernel⟩ false "$2" 2 (by decide +kernel)
  revert h
  decide +kernel

/-- The hypotheses are met: a receipt comes with the room, another one later, in a response that is lost first. -/
example : ∃ s, Run U R Mode.good s ∧ s.sent = true ∧ CaughtUp s ∧ s.c.pos = 3 ∧ current s.db U R false = some ("$2", 2) ∧ s.c.has.length = 2 := by
  have r2 := Run.pass (busy_run Mode.good) rfl rfl
  have r3 := Run.take r2 rfl rfl rfl rfl append_second
  have r4 := Run.done false false r3 rfl (fun _ => rfl) (fun _ h => by cases h)
  have r5 := Run.ask 3 true r4 rfl (by decide +kernel)
  have r6 := Run.pass r5 rfl rfl
  have r7 := Run.done false true r6 rfl (fun _ => rfl) (fun _ h => by cases h)
  have r8 := Run.again 3 true r7 rfl (by decide +kernel)
  exact ⟨_, r8, rfl, ⟨rfl, rfl, rfl, by decide +kernel, _, rfl, by decide +kernel⟩, by decide +kernel, by decide +kernel, by decide +kernel⟩

end Verif.ReceiptFlow
