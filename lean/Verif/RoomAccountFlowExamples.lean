import Verif.RoomAccountFlowProps
/-! C125: where it fails, and that the hypotheses of its theorems can hold. -/
namespace Verif.RoomAccountFlow
open Verif ConnFlow
open Verif.AccountFlow (Data put)

private abbrev U := "@a:h"
private abbrev R := "!r:h"
private abbrev F := "m.fully_read"
private abbrev T := "m.tag"
private abbrev H : String → Nat := fun s => s.length
private def row (t v : String) : AccountData.Row := ⟨U, R, t, v⟩

/-- One value is stored and published. -/
private theorem write {ok : Mode} {s : State} (t v : String) {db' : List AccountData.Row} (h : Run H U R ok s)
    (hk : [(t, v)].foldl (DedupAccount.keep H U R) (s.ded.mem, []) = (Assoc.set s.ded.mem (DedupAccount.key U R t) (H v), [(t, v)]))
    (hd : ((SqlUtil.chunkify 4 SqlUtil.maxPostgresParameters [row t v]).bind (AccountData.execAll s.ded.db)) = some db') :
    Run H U R ok { s with
      tr := s.tr ++ [(.deliver U R [(t, v)] false, true)]
      ded := { mem := Assoc.set s.ded.mem (DedupAccount.key U R t) (H v), db := db' }
      bus := s.bus ++ [(U, R, [t])] } := by
  have hi : AccountData.InsertAccountData s.ded.db U R ([(t, v)].foldl (DedupAccount.keep H U R) (s.ded.mem, [])).2
      (some (db', [row t v])) := by
    rw [hk]
    exact ⟨[row t v], List.Perm.refl _, by rw [hd]; rfl⟩
  have := h.stored (by rw [hk]; simp) hi
  rw [hk] at this
  exact this

/-- The client after its first response, with the account data `d` of the room in it. -/
private def at1 (d : Data) : Client Data (String → Option String) :=
  { conn := some ⟨⟨0, 7⟩, [⟨1, d⟩], 1⟩, pos := 1, has := put (fun _ => none) d }

/-- The client connects and gets the first response, without the room. -/
private theorem connect {ok : Mode} {s : State} (h : Run H U R ok s) (hc : s.c = { has := fun _ => none }) :
    Run H U R ok { s with queue := [], stage := true, shown := false, loaded := false, sent := false, c := at1 [] } := by
  have h1 := h.ask 7 true (by rw [hc]) (calls_zero (by rw [hc]) 7)
  have e1 : ask s 7 true = { s with
      queue := [], stage := false, shown := false, loaded := false, sent := false
      c := { conn := some (Conn.init 0), busy := some ⟨7, true, []⟩, pos := 0, has := fun _ => none } } := by
    unfold ask; rw [hc]; rfl
  rw [e1] at h1
  have h2 := h1.pass (b := ⟨7, true, []⟩) false rfl rfl
  exact h2.done (b := ⟨7, true, []⟩) false true rfl (fun _ => rfl) (fun _ h => by cases h)

/-- The client connects and gets the first response, with the room. -/
private theorem connectRoom {ok : Mode} {s : State} (readOk : Bool) (h : Run H U R ok s) (hc : s.c = { has := fun _ => none })
    (hk : ¬ ok.noLoad → readOk = true) :
    Run H U R ok { s with
      queue := []
      stage := true
      shown := true
      loaded := readOk && decide (initialRows s.ded.db U R (fun _ => true) [R] ≠ [])
      sent := true
      c := at1 (if readOk then initialRows s.ded.db U R (fun _ => true) [R] else []) } := by
  have h1 := h.ask 7 true (by rw [hc]) (calls_zero (by rw [hc]) 7)
  have e1 : ask s 7 true = { s with
      queue := [], stage := false, shown := false, loaded := false, sent := false
      c := { conn := some (Conn.init 0), busy := some ⟨7, true, []⟩, pos := 0, has := fun _ => none } } := by
    unfold ask; rw [hc]; rfl
  rw [e1] at h1
  have h2 := h1.load (b := ⟨7, true, []⟩) (fun _ => true) [R] readOk rfl rfl rfl rfl (List.mem_singleton.2 rfl) hk
  exact h2.done (b := ⟨7, true, if readOk then initialRows s.ded.db U R (fun _ => true) [R] else []⟩) false true rfl (fun _ => rfl) (fun _ h => by cases h)

/-- The second request is in progress. -/
private def doing (d o : Data) : Client Data (String → Option String) := { at1 d with busy := some ⟨8, true, o⟩ }

private theorem second {ok : Mode} {s : State} {d : Data} (h : Run H U R ok s) (hc : s.c = at1 d) :
    Run H U R ok { s with stage := true, shown := false, loaded := false, c := doing d [] } := by
  have h1 := h.ask 8 true (by rw [hc]; rfl) (by rw [hc]; rfl)
  have e1 : ask s 8 true = { s with stage := false, shown := false, loaded := false, c := doing d [] } := by
    unfold ask; rw [hc]; rfl
  rw [e1] at h1
  exact h1.pass (b := ⟨8, true, []⟩) false rfl rfl

private def s1 : State :=
  { tr := [(.deliver U R [(F, "{1}")] false, true)], ded := ⟨[("@a:h|!r:h|m.fully_read", 3)], [row F "{1}"]⟩ }

/-- `{1}` is stored and its payload handled, nobody being connected. -/
private theorem run1 (ok : Mode) : Run H U R ok s1 := by
  have h := write (ok := ok) (db' := [row F "{1}"]) F "{1}" .start (by decide +kernel) (by decide +kernel)
  exact h.handle true rfl (fun _ => rfl)

/-- The client after the second response. -/
private def at2 (d o : Data) : Client Data (String → Option String) :=
  { conn := some ⟨⟨1, 8⟩, [⟨1, d⟩, ⟨2, o⟩], 2⟩, pos := 2, has := put (put (fun _ => none) d) o }

private theorem caught {s : State} {d o : Data} (hc : s.c = at2 d o) (hb : s.bus = []) (hq : s.queue = []) : CaughtUp s := by
  refine ⟨by rw [hc]; rfl, hb, hq, by rw [hc]; show (2 : Int) ≠ 0; decide, ⟨⟨1, 8⟩, [⟨1, d⟩, ⟨2, o⟩], 2⟩, by rw [hc]; rfl, by rw [hc]; rfl⟩

private theorem caught1 {s : State} {d : Data} (hc : s.c = at1 d) (hb : s.bus = []) (hq : s.queue = []) : CaughtUp s := by
  refine ⟨by rw [hc]; rfl, hb, hq, by rw [hc]; show (1 : Int) ≠ 0; decide, ⟨⟨0, 7⟩, [⟨1, d⟩], 1⟩, by rw [hc]; rfl, by rw [hc]; rfl⟩

/-- A room comes into the window of a list because another room has left it: the room is sent, but the extension only looks at the
room of the update (sync3/extensions/account_data.go 54-75), so its account data is not. -/
theorem C125_violated_other : ¬ Arrives H U R { Mode.good with odd := True } := by
  intro h
  have h1 := (connect (run1 { Mode.good with odd := True }) rfl).push .other rfl (by intro d hd; cases hd)
  have h2 := second h1 rfl
  have h3 := h2.take (b := ⟨8, true, []⟩) true true true rfl rfl rfl rfl (fun _ => rfl) (fun _ => rfl) (fun h => absurd trivial h)
  have h4 := h3.done (b := ⟨8, true, []⟩) false true rfl (fun _ => rfl) (fun _ h => by cases h)
  have := h _ h4 rfl (caught (d := []) (o := []) rfl rfl rfl) F "{1}" (by simp [s1, row, State.out])
  cases this

/-- A room comes into a list because of its account data, say a tag the list filters by: the response has the tag, but not the other account
data of the room (sync3/extensions/account_data.go 50-53: an update with account data is passed on as it is). -/
theorem C125_violated_tag : ¬ Arrives H U R { Mode.good with odd := True } := by
  intro h
  have h0 := connect (run1 { Mode.good with odd := True }) rfl
  have h1 := write (db' := [row F "{1}", row T "{22}"]) T "{22}" h0 (by decide +kernel) (by decide +kernel)
  have h2 := h1.handle true rfl (fun _ => rfl)
  have h3 := second h2 (d := []) rfl
  have h4 := h3.take (b := ⟨8, true, []⟩) (i := .data [(T, "{22}")]) (q := []) true true true rfl rfl rfl rfl (fun _ => rfl) (fun _ => rfl)
    (fun h => absurd trivial h)
  have h5 := h4.done (b := ⟨8, true, [(T, "{22}")]⟩) false true rfl (fun _ => rfl) (fun _ h => by cases h)
  have := h _ h5 rfl (caught (d := []) (o := [(T, "{22}")]) rfl rfl rfl) F "{1}" (List.Mem.head _)
  revert this
  decide +kernel

/-- The account data of a room changes, then a message brings the room into the window, all in one response: the room counts as loaded
because of the change (sync3/extensions/account_data.go 60-65, 88-91), so the rest of its account data is not sent (C65). -/
theorem C125_violated_before : ¬ Arrives H U R { Mode.good with odd := True } := by
  intro h
  have h0 := connect (run1 { Mode.good with odd := True }) rfl
  have h1 := write (db' := [row F "{1}", row T "{22}"]) T "{22}" h0 (by decide +kernel) (by decide +kernel)
  have h2 := (h1.handle true rfl (fun _ => rfl)).push .room rfl (by intro d hd; cases hd)
  have h3 := second h2 (d := []) rfl
  have h4 := h3.take (b := ⟨8, true, []⟩) (i := .data [(T, "{22}")]) (q := [.room]) false true false rfl rfl rfl rfl (fun h => by cases h) (fun _ => rfl)
    (fun _ => rfl)
  have h5 := h4.take (b := ⟨8, true, [(T, "{22}")]⟩) (i := .room) (q := []) true true true rfl rfl rfl rfl (fun _ => rfl) (fun _ => rfl)
    (fun h => absurd trivial h)
  have h6 := h5.done (b := ⟨8, true, [(T, "{22}")]⟩) false true rfl (fun _ => rfl) (fun _ h => by cases h)
  have := h _ h6 rfl (caught (d := []) (o := [(T, "{22}")]) rfl rfl rfl) F "{1}" (List.Mem.head _)
  revert this
  decide +kernel

/-- The table cannot be read when the room is sent: the error is only logged (sync3/extensions/account_data.go 110-112), and the account data
does not come later. -/
theorem C125_violated_load : ¬ Arrives H U R { Mode.good with noLoad := True } := by
  intro h
  have h1 := connectRoom false (run1 { Mode.good with noLoad := True }) rfl (fun h => absurd trivial h)
  have := h _ h1 rfl (caught1 (d := []) rfl rfl rfl) F "{1}" (by simp [s1, row])
  cases this

/-- The table cannot be read when the payload is handled: the error is only logged (sync3/handler/handler.go 808-812), and nobody is told
later. -/
theorem C125_violated_read : ¬ Arrives H U R { Mode.good with noRead := True } := by
  intro h
  have h0 := connectRoom true (.start (ok := { Mode.good with noRead := True })) rfl (fun _ => rfl)
  have h1 := write (db' := [row F "{1}"]) F "{1}" h0 (by decide +kernel) (by decide +kernel)
  have h2 := h1.handle false rfl (fun h => absurd trivial h)
  have := h _ h2 rfl (caught1 (d := []) rfl rfl rfl) F "{1}" (by simp [row, handle])
  cases this

/-- A request panics after it has taken the update from the channel: the panic is recovered from (sync3/conn.go 96-113), the connection
stays, and the update is gone. -/
theorem C125_violated_failing : ¬ Arrives H U R { Mode.good with fails := True } := by
  intro h
  have h0 := connectRoom true (.start (ok := { Mode.good with fails := True })) rfl (fun _ => rfl)
  have h1 := write (db' := [row F "{1}"]) F "{1}" h0 (by decide +kernel) (by decide +kernel)
  have h2 := h1.handle true rfl (fun _ => rfl)
  have h3 := second h2 (d := []) rfl
  have h4 := h3.take (b := ⟨8, true, []⟩) (i := .data [(F, "{1}")]) (q := []) false true false rfl rfl rfl rfl (fun h => by cases h) (fun _ => rfl)
    (fun _ => rfl)
  have h5 := h4.done (b := ⟨8, true, [(F, "{1}")]⟩) true true rfl (fun _ => rfl) (fun h => absurd trivial h)
  have := h _ h5 rfl (caught1 (d := []) rfl rfl rfl) F "{1}" (List.Mem.head _)
  cases this

/-- The hypotheses of `C125_partial` and `C125_delivered_partial` can hold: the room is sent because of an update, with what is stored. -/
example : ∃ s, Run H U R Mode.good s ∧ s.sent = true ∧ CaughtUp s ∧ row F "{1}" ∈ s.ded.db ∧ DedupAccount.Restarts U R F s.tr ∧
    AccountData.LastWritten (DedupAccount.acked s.tr) U R F "{1}" ∧ s.c.has F = some "{1}" := by
  have h1 := (connect (run1 Mode.good) rfl).push .room rfl (by intro d hd; cases hd)
  have h2 := second h1 rfl
  have h3 := h2.take (b := ⟨8, true, []⟩) true true false rfl rfl rfl rfl (fun _ => rfl) (fun _ => rfl) (fun _ => rfl)
  have h4 := h3.done (b := ⟨8, true, [(F, "{1}")]⟩) false true rfl (fun _ => rfl) (fun _ h => by cases h)
  refine ⟨_, h4, rfl, caught (d := []) (o := [(F, "{1}")]) rfl rfl rfl, by simp [s1, row, State.out], ?_,
    ⟨[], [], rfl, by simp⟩, by decide +kernel⟩
  intro a es f ok b h _
  simp only [s1, State.out] at h
  cases a with
  | nil => rfl
  | cons x a => simp at h

/-- The same with a room that the first request sends. -/
example : ∃ s, Run H U R Mode.good s ∧ s.sent = true ∧ CaughtUp s ∧ row F "{1}" ∈ s.ded.db ∧ s.c.has F = some "{1}" := by
  have h1 := connectRoom true (run1 Mode.good) rfl (fun _ => rfl)
  exact ⟨_, h1, rfl, caught1 (d := [(F, "{1}")]) rfl rfl rfl, by simp [s1, row], by decide +kernel⟩

end Verif.RoomAccountFlow
