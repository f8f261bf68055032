import Verif.UnreadFlowProps
/-! C123: how a client is left with old counts, and a run that meets the hypotheses of the theorem. -/
namespace Verif.UnreadFlow
open Verif

def Mode.late : Mode := { Mode.good with stale := True }
def Mode.skipping : Mode := { Mode.good with skip := True }
def Mode.block : Mode := { Mode.good with silent := True }
def Mode.failing : Mode := { Mode.good with fails := True }

/-- C123 without restrictions. -/
def Arrives (ok : Mode) : Prop := ∀ p s, Run ok p s → s.sent = true → CaughtUp s → s.c.has = some s.cur

def before : Counts := ⟨3, 1⟩

/-- A message of the user is held back for its transaction id (sync3/handler/txn_id_waiter.go 30-63). Meanwhile the user has read the
room and the new counts overtake the message: they do not wait (sync3/handler/connstate.go 738-765). When the message is let go, it
has the counts from before (sync3/caches/user.go 397-415), and these are put into the lists and sent: the client has unread
messages again, until the counts change. -/
theorem C123_violated_held : ¬ Arrives Mode.late := by
  intro ha
  have r1 := Run.ask 1 (Run.start (ok := Mode.late) before) rfl rfl
  have r2 := Run.load true 4 r1 rfl rfl
  have r3 := Run.build (x := before) 4 r2 rfl rfl
  have r4 := Run.done false true r3 rfl (fun _ => rfl) (fun _ h => by cases h)
  have r5 := Run.ask 2 r4 rfl rfl
  have r6 := Run.event 5 true false r5 (fun _ h => by cases h)
  have r7 := Run.unread (some 0) (some 0) r6
  have r8 := Run.take true none r7 rfl rfl rfl (fun _ n v h => by cases h)
  have r9 := Run.release r8 rfl (fun h => absurd trivial h)
  have r10 := Run.take true none r9 rfl rfl rfl (fun _ n v h => by cases h)
  have r11 := Run.done false true r10 rfl (fun _ => rfl) (fun _ h => by cases h)
  have h := ha _ _ r11 rfl ⟨rfl, rfl, rfl, by decide +kernel, _, rfl, by decide +kernel⟩
  revert h
  decide +kernel

/-- The user joins a room after an invite. The event is in the database, but not yet in the user's cache, when a connection loads: it
gets the room at a position after the event (sync3/handler/connstate.go 109-171) with the highlight of the invite, and sends it. The event is then
skipped (sync3/handler/connstate_live.go 142-149), and with it the end of the highlight. -/
theorem C123_violated_join : ¬ Arrives Mode.skipping := by
  intro ha
  have r1 := Run.ask 1 (Run.invite (Run.start (ok := Mode.skipping) {})) rfl rfl
  have r2 := Run.load true 7 r1 rfl rfl
  have r3 := Run.build (x := ⟨0, 1⟩) 7 r2 rfl rfl
  have r4 := Run.event 5 false true r3 (fun _ h => by cases h)
  have r5 := Run.take true none r4 rfl rfl rfl (fun h => absurd trivial h)
  have r6 := Run.done false true r5 rfl (fun _ => rfl) (fun _ h => by cases h)
  have h := ha _ _ r6 rfl ⟨rfl, rfl, rfl, by decide +kernel, _, rfl, by decide +kernel⟩
  revert h
  decide +kernel

/-- The membership that ends an invite is in the state block of a response: the cache resets the highlight, but connections are not
told of events of state blocks (sync3/handler/connstate.go 742-750). -/
theorem C123_violated_state : ¬ Arrives Mode.block := by
  intro ha
  have r0 := Run.invite (Run.start (ok := Mode.block) {})
  have r1 := Run.ask 1 r0 rfl rfl
  have r2 := Run.load true 0 r1 rfl rfl
  have r3 := Run.build (x := ⟨0, 1⟩) 0 r2 rfl rfl
  have r4 := Run.done false true r3 rfl (fun _ => rfl) (fun _ h => by cases h)
  have r5 := Run.event 0 false true r4 (fun h => absurd trivial h)
  have h := ha _ _ r5 rfl ⟨rfl, rfl, rfl, by decide +kernel, _, rfl, by decide +kernel⟩
  revert h
  decide +kernel

/-- A request takes new counts from the channel, into the lists of its connection, and fails. They are not sent again until they
change. -/
theorem C123_violated_failing : ¬ Arrives Mode.failing := by
  intro ha
  have r1 := Run.ask 1 (Run.start (ok := Mode.failing) before) rfl rfl
  have r2 := Run.load true 4 r1 rfl rfl
  have r3 := Run.build (x := before) 4 r2 rfl rfl
  have r4 := Run.done false true r3 rfl (fun _ => rfl) (fun _ h => by cases h)
  have r5 := Run.ask 2 r4 rfl rfl
  have r6 := Run.unread (some 0) (some 0) r5
  have r7 := Run.take true none r6 rfl rfl rfl (fun _ n v h => by cases h)
  have r8 := Run.done true true r7 rfl (fun h => by cases h) (fun h => absurd trivial h)
  have r9 := Run.ask 2 r8 rfl (by decide +kernel)
  have r10 := Run.done false true r9 rfl (fun _ => rfl) (fun _ h => by cases h)
  have h := ha _ _ r10 rfl ⟨rfl, rfl, rfl, by decide +kernel, _, rfl, by decide +kernel⟩
  revert h
  decide +kernel

/-- The hypotheses are met: an event is held back and released, the counts change, a response is lost and repeated, and the client
has the new counts. -/
example : ∃ p s, Run Mode.good p s ∧ s.sent = true ∧ CaughtUp s ∧ s.c.pos = 3 ∧ s.c.has = some ⟨0, 2⟩ := by
  have r1 := Run.ask 1 (Run.start (ok := Mode.good) before) rfl rfl
  have r2 := Run.load true 4 r1 rfl rfl
  have r3 := Run.build (x := before) 4 r2 rfl rfl
  have r4 := Run.done false true r3 rfl (fun _ => rfl) (fun _ h => by cases h)
  have r5 := Run.ask 2 r4 rfl rfl
  have r6 := Run.event 5 true false r5 (fun _ h => by cases h)
  have r7 := Run.release r6 rfl (fun _ => rfl)
  have r8 := Run.unread (some 2) (some 0) r7
  have r9 := Run.take false none r8 rfl rfl rfl (fun _ n v h => by cases h)
  have r10 := Run.take true none r9 rfl rfl rfl (fun _ n v h => by cases h)
  have r11 := Run.done false false r10 rfl (fun _ => rfl) (fun _ h => by cases h)
  have r12 := Run.ask 3 r11 rfl (by decide +kernel)
  have r13 := Run.done false true r12 rfl (fun _ => rfl) (fun _ h => by cases h)
  have r14 := Run.again 3 true r13 rfl (by decide +kernel)
  exact ⟨_, _, r14, rfl, ⟨rfl, rfl, rfl, by decide +kernel, _, rfl, by decide +kernel⟩, by decide +kernel, by decide +kernel⟩

end Verif.UnreadFlow
