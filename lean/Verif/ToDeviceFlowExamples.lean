import Verif.ToDeviceFlowProps
/-! Executions for C117, and the violation of exactly-once delivery. -/
namespace Verif.ToDeviceFlow
open Verif.Poller (Call Err World Turn Reply Resp Rcv)

private def tok (n : Nat) : String := String.ofList (List.replicate (n + 1) 's')

private theorem tok_inj (a b : Nat) (h : tok a = tok b) : a = b := by
  have := congrArg (fun s => s.toList.length) h
  simp only [tok, String.toList_ofList, List.length_replicate] at this
  omega

private theorem tok_ne (a : Nat) : tok a ≠ "" := by
  intro h
  have := congrArg (fun s => s.toList.length) h
  simp only [tok, String.toList_ofList, List.length_replicate] at this
  exact absurd this (by simp)

private def dec (s : String) : ToDevice.Msg := { type := "m.room.encrypted", body := s }

private def res (n m : Nat) (sent : List String) : Resp :=
  { nextBatch := tok m, otk := [], fallback := none, changed := [], left := [], account := ["x"], join := [], leave := [],
    invite := [], toDevice := (sent.take m).drop n }

private def turn (n m : Nat) (sent : List String) (ok : Bool) : Turn :=
  { killedBefore := false, killedAfter := false, reply := .ok (res n m sent), now := 0, persistOk := ok }

private def q : List String := ["a", "b", "c"]

private def w0 : World Db := ⟨⟨{}, []⟩, { since := "" }, ""⟩
private def w1 (ok : Bool) : World Db := (Poller.poll (recv dec) "@u" w0 (turn 0 2 q ok)).1

/-- The first turn: an answer with two messages. -/
private theorem run1 (mode : Mode) (ok : Bool) (h : mode.turn (turn 0 2 q ok)) : Run dec tok "@u" mode ⟨q, 0, w1 ok⟩ := by
  refine Run.turn (turn 0 2 q ok) 0 0 (Run.start q) h (At.none) (by decide) ?_
  intro r hr
  cases hr
  exact ⟨2, by decide, by decide, rfl, rfl⟩

private def step (w : World Db) : World Db :=
  { w with m := { w.m with s := { w.m.s with sys := ToDevice.sysStep w.m.s.sys (.poll 1 true) } } }
private def w2 : World Db := step (w1 true)
private def w3 : World Db :=
  { w2 with m := { w2.m with s := { w2.m.s with next := [(.other, 0)] } } }
private def w4 : World Db := (Poller.poll (recv dec) "@u" w3 (turn 2 3 q true)).1

/-- Two messages of three were handed over, the client has one, the third was lost to an error in the handling of account
data; the homeserver has deleted the first two. -/
private theorem run4 : Run dec tok "@u" .steady ⟨q, 2, w4⟩ := by
  have h3 : Run dec tok "@u" .steady ⟨q, 0, w3⟩ := Run.fate [(.other, 0)] (Run.client 1 true (run1 .steady true rfl))
  have hs : w3.lp.since = tok 2 := by decide +kernel
  refine Run.turn (turn 2 3 q true) 2 2 h3 rfl ?_ (by decide) ?_
  · show At tok 0 w3.lp.since 2
    rw [hs]; exact At.token 2
  · intro r hr
    cases hr
    exact ⟨3, by decide, by decide, rfl, rfl⟩

/-- `C117_conserved` is not vacuous: one received, one waiting, one at the homeserver. -/
example : (w4.m.s.sys.got.map (·.msg.body) = ["a"] ∧ (ToDevice.waiting w4.m.s.sys).map (·.msg.body) = ["b"]) ∧
    w4.lp.since = tok 2 ∧ w4.lp.failCount = 1 := by decide +kernel

example : ∃ k, msgs w4.m.s.sys.got ++ msgs (ToDevice.waiting w4.m.s.sys) ++ queued dec (q.drop k) = queued dec q := by
  obtain ⟨k, h, _⟩ := C117_conserved tok_inj tok_ne run4
  exact ⟨k, h⟩

private def v2 : World Db := step (step (w1 false))
private def v3 : World Db := Poller.restart v2 false
private def v4 : World Db := step (step (Poller.poll (recv dec) "@u" v3 (turn 0 2 q true)).1)

/-- C117 is violated in "once": the messages are inserted in one transaction and the token is written in another
(sync2/poller.go 622-652; the failure of the latter is only logged, sync2/handler2/handler.go 222-228). If the token is not
written, because of an error or a crash, the new poller asks again from the old token, the homeserver answers with the same
messages, which are not recognised as the same: the client, which has acknowledged them, receives them again. -/
theorem C117_violated_twice :
    Run dec tok "@u" .any ⟨q, 0, v4⟩ ∧ v4.m.s.sys.got.map (·.msg.body) = ["a", "b", "a", "b"] := by
  refine ⟨?_, by decide +kernel⟩
  refine Run.client 1 true (Run.client 1 true (s := ⟨q, 0, (Poller.poll (recv dec) "@u" v3 (turn 0 2 q true)).1⟩) ?_)
  have h3 : Run dec tok "@u" .any ⟨q, 0, v3⟩ :=
    Run.restart false (Run.client 1 true (Run.client 1 true (run1 .any false trivial)))
  have hs : v3.lp.since = "" := by decide +kernel
  refine Run.turn (turn 0 2 q true) 0 0 h3 trivial ?_ (by decide) ?_
  · show At tok 0 v3.lp.since 0
    rw [hs]; exact At.none
  · intro r hr
    cases hr
    exact ⟨2, by decide, by decide, rfl, rfl⟩

private def u2 : World Db := step (step (w1 true))
private def u3 : World Db := step (Poller.poll (recv dec) "@u" u2 (turn 2 3 q true)).1

/-- `C117_caught_up` is not vacuous. -/
example : ∀ x ∈ q, plain (dec x) = true → ∃ r ∈ u3.m.s.sys.got, r.msg = dec x := by
  have h2 : Run dec tok "@u" .any ⟨q, 0, u2⟩ := Run.client 1 true (Run.client 1 true (run1 .any true trivial))
  have hs : u2.lp.since = tok 2 := by decide +kernel
  have h3 : Run dec tok "@u" .any ⟨q, 2, u3⟩ := by
    refine Run.client 1 true (s := ⟨q, 2, (Poller.poll (recv dec) "@u" u2 (turn 2 3 q true)).1⟩) ?_
    refine Run.turn (turn 2 3 q true) 2 2 h2 trivial ?_ (by decide) ?_
    · show At tok 0 u2.lp.since 2
      rw [hs]; exact At.token 2
    · intro r hr
      cases hr
      exact ⟨3, by decide, by decide, rfl, rfl⟩
  refine C117_caught_up tok_inj tok_ne h3 ?_ ?_
  · decide +kernel
  · have : (ToDevice.waiting u3.m.s.sys).length = 0 := by decide +kernel
    exact List.length_eq_zero_iff.1 this

end Verif.ToDeviceFlow
