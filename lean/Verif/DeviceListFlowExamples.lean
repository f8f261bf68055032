import Verif.DeviceListFlowProps
/-! C119: how a change of a device list is lost, and a run that meets the hypotheses of the theorems. -/
namespace Verif.DeviceListFlow
open Verif.Poller (Call Err World Turn Reply Resp Rcv)
open Verif.E2EE (Change Out)

/-- Tokens. -/
def tok (n : Nat) : String := String.ofList (List.replicate (n + 1) 't')

theorem tok_inj (m n : Nat) (h : tok m = tok n) : m = n := by
  have := congrArg (fun s => s.toList.length) h
  simp only [tok, String.toList_ofList, List.length_replicate] at this
  omega

theorem tok_ne (n : Nat) : tok n ≠ "" := by
  intro h
  have := congrArg (fun s => s.toList.length) h
  simp [tok] at this

/-- A turn with an answer without changes, and with one. -/
def turn (next : String) (changed : List String) (stored : Bool) : Turn :=
  ⟨false, false, .ok ⟨next, [], none, changed, [], [], [], [], [], []⟩, 0, stored⟩
def quiet (n : Nat) (stored : Bool) : Turn := turn (tok n) [] stored
def bob : Turn := turn (tok 1) ["@b"] true

theorem quiet_answer {hs : List (String × Change)} {since : String} {m : Nat} (h : since = "") (hm : m ≤ hs.length) (b : Bool) :
    ∀ res, (quiet m b).reply = .ok res → Answer tok hs since res := by
  intro res hr
  cases hr
  exact Or.inl ⟨h, rfl, rfl, m, hm, rfl⟩

theorem bob_answer {since : String} (h : since = tok 0) :
    ∀ res, bob.reply = .ok res → Answer tok [("@b", .changed)] since res := by
  intro res hr
  cases hr
  refine Or.inr ⟨0, 1, h, by decide, by decide, rfl, fun u => ?_⟩
  rw [show (List.take 1 [("@b", Change.changed)]).drop 0 = [("@b", Change.changed)] from rfl, lastOf_single]
  by_cases hu : u = "@b" <;> simp [hu]

/-! The steps of `Run` as functions. -/

def polled (t : Turn) (s : State) : State := { s with w := (Poller.poll recv "@a" s.w t).1 }
def asked (body : Nat) (on arrives : Bool) (s : State) : State := { s with
  w := { s.w with m := { s.w.m with s := { s.w.m.s with srv := (begin s.w.m.s.srv s.c body on arrives).1 } } }
  c := (begin s.w.m.s.srv s.c body on arrives).2 }
def ended (b : Busy) (fails arrives : Bool) (s : State) : State := { s with c := finish s.c b fails arrives }
def changed (u : String) (s : State) : State := { s with
  hs := s.hs ++ [(u, .changed)]
  c := if s.w.lp.since = "" then s.c else { s.c with
    due := fun v => if v = u then some .changed else s.c.due v
    last := fun v => if v = u then some .changed else s.c.last v } }

def fresh : State := ⟨[], ⟨⟨{}, []⟩, { since := "" }, ""⟩, {}⟩

/-- The first request has nothing. -/
def first : Busy := ⟨1, true, {}⟩

/-- The client is connected, a change has been fetched and the next request has read it. -/
def fetched : State := asked 2 true false (polled bob (changed "@b" (ended first false true (asked 1 true true (polled (quiet 0 true) fresh)))))

theorem fetched_run (ok : Mode) (h0 : ok.turn (quiet 0 true)) (h1 : ok.turn bob) : Run tok "@a" ok fetched := by
  have r0 := Run.start (tok := tok) (user := "@a") (ok := ok) []
  have r1 := Run.turn (quiet 0 true) r0 h0 (quiet_answer rfl (by decide) true)
  have r2 := Run.ask 1 true true r1 rfl (fun _ h => absurd rfl h) (fun _ _ => rfl)
  have r3 := Run.done first false true r2 rfl (fun _ => rfl)
  have r4 := Run.change "@b" .changed r3
  have r5 := Run.turn bob r4 h1 (bob_answer (by decide +kernel))
  exact Run.ask 2 true false r5 rfl (fun _ _ b hb => by cases hb) (fun _ h => by cases h)

theorem fetched_busy : ∃ b, fetched.c.busy = some b ∧ b.out.lists "@b" = some .changed := ⟨_, rfl, by decide +kernel⟩

/-- The change is lost in a state where nothing is due from the homeserver. -/
theorem lost {s : State} (hs : s.hs = [("@b", .changed)]) (h1 : s.w.lp.since = tok 1) (hn : s.w.m.s.srv.new "@b" = none)
    (hf : flight s.w.m.s.srv s.c "@b" = none) : ¬ Waiting tok s "@b" .changed := by
  rintro (⟨n, hn', hl⟩ | h | h)
  · have := tok_inj _ _ (hn'.symm.trans h1)
    subst this
    rw [hs] at hl
    cases hl
  · rw [hn] at h; cases h
  · rw [hf] at h; cases h

/-- The mode of C119 with one thing allowed. -/
def Mode.changing : Mode := { Mode.good with changes := True }
def Mode.failing : Mode := { Mode.good with fails := True }
def Mode.latest : Mode := { Mode.good with late := True }
def Mode.unstored : Mode := { Mode.good with turn := fun _ => True }

/-- The response with the change does not arrive and the client, rather than repeat its request, sends another one at the same
position (it has scrolled). That one is handled at once, which discards what was sent (sync3/conn.go 205-224,
state/device_list_table.go 107-111), and the response is queued behind the first. The proxy restarts before the client has
either: the change is in no table any more. -/
theorem C119_violated_changing : ¬ Kept tok "@a" Mode.changing := by
  intro h
  have r6 := fetched_run Mode.changing rfl rfl
  obtain ⟨b, hb, _⟩ := fetched_busy
  have r7 := Run.done b false false r6 hb (fun _ => rfl)
  have r8 := Run.ask 3 true false r7 (by cases hb; rfl) (fun h => absurd trivial h) (fun _ h => by cases hb; cases h)
  have r9 := Run.crash r8
  cases hb
  exact lost (by decide +kernel) (by decide +kernel) (by decide +kernel) (by decide +kernel) (h _ r9 "@b" .changed (by decide +kernel))

/-- The request that has read the change fails afterwards, by a panic for instance (sync3/conn.go 224-234). The client repeats
it, and is told nothing. -/
theorem C119_violated_failing : ¬ Kept tok "@a" Mode.failing := by
  intro h
  have r6 := fetched_run Mode.failing rfl rfl
  obtain ⟨b, hb, _⟩ := fetched_busy
  have r7 := Run.done b true true r6 hb (fun h => absurd trivial h)
  have r8 := Run.ask 2 true true r7 (by cases hb; rfl) (fun _ _ b hw => by cases hb; cases hw; rfl) (fun _ h => by cases hb; cases h)
  cases hb
  exact lost (by decide +kernel) (by decide +kernel) (by decide +kernel) (by decide +kernel) (h _ r8 "@b" .changed (by decide +kernel))

/-- The response with the change is lost with the connection. The client connects again, but turns the extension on only in its
second request: that is no initial one, so what was sent is discarded rather than repeated (sync3/handler/handler.go 624). -/
theorem C119_violated_late : ¬ Kept tok "@a" Mode.latest := by
  intro h
  have r6 := fetched_run Mode.latest rfl rfl
  have r7 := Run.crash r6
  have r8 := Run.ask 2 true true r7 rfl (fun _ _ b hw => by cases hw; rfl) (fun _ h => by cases h)
  have r9 := Run.ask 3 false true r8 rfl (fun _ h => absurd rfl h) (fun h => absurd trivial h)
  have r10 := Run.done ⟨3, false, {}⟩ false true r9 rfl (fun _ => rfl)
  have r11 := Run.ask 4 true true r10 rfl (fun _ _ b hw => by cases hw) (fun _ h => by cases h)
  exact lost (by decide +kernel) (by decide +kernel) (by decide +kernel) (by decide +kernel) (h _ r11 "@b" .changed (by decide +kernel))

/-- The first token is not written to the database, which is only logged (sync2/handler2/handler.go 222-228). After a restart the
poller makes an initial sync, and homeservers report no changes in one. -/
theorem C119_violated_unstored : ¬ Kept tok "@a" Mode.unstored := by
  intro h
  have r0 := Run.start (tok := tok) (user := "@a") (ok := Mode.unstored) []
  have r1 := Run.turn (quiet 0 false) r0 trivial (quiet_answer rfl (by decide) false)
  have r2 := Run.ask 1 true true r1 rfl (fun _ h => absurd rfl h) (fun _ _ => rfl)
  have r3 := Run.done first false true r2 rfl (fun _ => rfl)
  have r4 := Run.change "@b" .changed r3
  have r5 := Run.restart false r4
  have r6 := Run.turn (quiet 1 true) r5 trivial (quiet_answer (by decide +kernel) (by decide +kernel) true)
  exact lost (by decide +kernel) (by decide +kernel) (by decide +kernel) (by decide +kernel) (h _ r6 "@b" .changed (by decide +kernel))

/-- The hypotheses are met with a change on its way (a lost response, and a reconnection), and with everything told. -/
example : ∃ s, Run tok "@a" Mode.good s ∧ s.c.due "@b" = some .changed ∧ s.c.pos = 0 ∧ s.w.m.s.srv.sent "@b" = some .changed := by
  have r6 := fetched_run Mode.good rfl rfl
  have r7 := Run.crash r6
  have r8 := Run.ask 2 true true r7 rfl (fun _ _ b hw => by cases hw; rfl) (fun _ h => by cases h)
  exact ⟨_, r8, by decide +kernel, by decide +kernel, by decide +kernel⟩

example : ∃ s, Run tok "@a" Mode.good s ∧ s.w.lp.since = tok s.hs.length ∧ s.w.m.s.srv.new "@b" = none ∧
    flight s.w.m.s.srv s.c "@b" = none ∧ s.c.last "@b" = some .changed ∧ s.c.due "@b" = none ∧ s.c.told "@b" = some .changed := by
  have r6 := fetched_run Mode.good rfl rfl
  have r7 := Run.crash r6
  have r8 := Run.ask 2 true true r7 rfl (fun _ _ b hw => by cases hw; rfl) (fun _ h => by cases h)
  have r9 := Run.ask 3 true false r8 rfl (fun _ h => absurd rfl h) (fun _ _ => rfl)
  have hb : ∃ b, (asked 3 true false (asked 2 true true { fetched with c := { fetched.c with conn := none, busy := none } })).c.busy =
      some b := ⟨_, rfl⟩
  obtain ⟨b, hb⟩ := hb
  have r10 := Run.done b false true r9 hb (fun _ => rfl)
  cases hb
  exact ⟨_, r10, by decide +kernel, by decide +kernel, by decide +kernel, by decide +kernel, by decide +kernel, by decide +kernel⟩

end Verif.DeviceListFlow
