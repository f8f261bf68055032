import Verif.AccountFlowProps
/-! C120: where it fails, and that the hypotheses of its theorems can hold. -/
namespace Verif.AccountFlow
open Verif

private abbrev U := "@a:h"
private abbrev T := "m.direct"

/-- One value is stored and published. -/
private theorem write {hash : String → Nat} {ok : Mode} {s0 s : State} (v : String) {db' : List AccountData.Row}
    (h : Steps hash U ok s0 s)
    (hk : [(T, v)].foldl (DedupAccount.keep hash U "") (s.ded.mem, []) =
      (Assoc.set s.ded.mem (DedupAccount.key U "" T) (hash v), [(T, v)]))
    (hd : ((SqlUtil.chunkify 4 SqlUtil.maxPostgresParameters [(⟨U, "", T, v⟩ : AccountData.Row)]).bind
      (AccountData.execAll s.ded.db)) = some db') :
    Steps hash U ok s0 { s with
      tr := s.tr ++ [(.deliver U "" [(T, v)] false, true)]
      ded := { mem := Assoc.set s.ded.mem (DedupAccount.key U "" T) (hash v), db := db' }
      bus := s.bus ++ [(U, "", [T])] } := by
  have hi : AccountData.InsertAccountData s.ded.db U "" ([(T, v)].foldl (DedupAccount.keep hash U "") (s.ded.mem, [])).2
      (some (db', [⟨U, "", T, v⟩])) := by
    rw [hk]
    exact ⟨[⟨U, "", T, v⟩], List.Perm.refl _, by rw [hd]; rfl⟩
  have := h.snoc (Step.stored (ok := ok) (user := U) (by rw [hk]; simp) hi)
  rw [hk] at this
  exact this

private def row (v : String) : AccountData.Row := ⟨U, "", T, v⟩
private abbrev H : String → Nat := fun s => s.length

/-- `{1}` is stored and its payload handled, nobody being connected. -/
private def s1 : State := { tr := [(.deliver U "" [(T, "{1}")] false, true)], ded := ⟨[("@a:h||m.direct", 3)], [row "{1}"]⟩ }

private theorem run1 (ok : Mode) : Run H U ok s1 := by
  have h := write (hash := H) (ok := ok) (db' := [row "{1}"]) "{1}" (Steps.refl (s := {})) (by decide +kernel) (by decide +kernel)
  exact h.snoc (Step.handle true rfl (fun _ => rfl))

/-- The client connects and gets the first response. -/
private theorem connect {ok : Mode} {s0 s : State} (on loadOk : Bool) (h : Steps H U ok s0 s) (hb : s.c.busy = none) (hp : s.c.pos = 0)
    (ho : ¬ ok.off → on = true) (hl : ¬ ok.noLoad → loadOk = true) :
    Steps H U ok s0 { s with c :=
      { conn := some ⟨⟨0, 7⟩, [⟨1, if on && loadOk then allRows s.ded.db U else []⟩], 1⟩, queue := [], busy := none, pos := 1
        has := put s.c.has (if on && loadOk then allRows s.ded.db U else []) } } := by
  have h1 := h.snoc (Step.ask (ok := ok) 7 on true hb ho)
  have e1 : begin s.c 7 on true = { s.c with conn := some (Conn.init 0), queue := [], busy := some ⟨7, on, false, []⟩ } := by
    unfold begin; rw [if_pos hp]
  rw [e1] at h1
  have h2 := h1.snoc (Step.load loadOk rfl rfl hl)
  have h3 := h2.snoc (Step.done false true rfl rfl (fun _ => rfl))
  simp only [finish, hp] at h3
  exact h3

private def mid (on : Bool) (x : Data) : Busy := ⟨8, on, true, if on then x else []⟩

private def midC (on : Bool) (d x : Data) (has : String → Option String) : Client :=
  { conn := some ⟨⟨0, 7⟩, [⟨1, d⟩], 1⟩, queue := [], busy := some (mid on x), pos := 1, has := has }

/-- A request with position 1 takes the one update there is. -/
private theorem fetch {ok : Mode} {s0 s : State} (on fails : Bool) (d x : Data) (h : Steps H U ok s0 s) (has : String → Option String)
    (hc : s.c = { conn := some ⟨⟨0, 7⟩, [⟨1, d⟩], 1⟩, queue := [x], busy := none, pos := 1, has := has })
    (ho : ¬ ok.off → on = true) (hf : ¬ ok.fails → fails = false) :
    Steps H U ok s0 { s with c := finish (midC on d x has) (mid on x) fails true } := by
  have h1 := h.snoc (Step.ask (ok := ok) 8 on true (by rw [hc]) ho)
  have e1 : begin s.c 8 on true = { s.c with busy := some ⟨8, on, true, []⟩ } := by rw [hc]; rfl
  rw [e1, hc] at h1
  have h2 := h1.snoc (Step.take rfl rfl rfl)
  exact h2.snoc (Step.done fails true rfl rfl hf)

private def k1 (d : Data) : Conn.State Nat Data := ⟨⟨0, 7⟩, [⟨1, d⟩], 1⟩

/-- The first response of a connection is made without global account data when the table cannot be read: the error is only logged
(sync3/extensions/account_data.go 124-127), and as global account data is sent only with the first response, the client does not
get what is stored. -/
theorem C120_violated_load : ¬ Arrives H U { Mode.good with noLoad := True } := by
  intro h
  have hr := connect (ok := { Mode.good with noLoad := True }) true false (run1 _) rfl rfl (fun _ => rfl) (fun h => absurd trivial h)
  have := h _ hr ⟨by simp [s1], rfl, rfl, by decide, k1 [], rfl, by simp [k1]⟩ T "{1}" (by simp [s1, row])
  cases this

/-- The extension is off in the first request and on in later ones: global account data is sent only with the first response
(sync3/extensions/account_data.go 122-123), so the client does not get what is stored. -/
theorem C120_violated_late : ¬ Arrives H U { Mode.good with off := True } := by
  intro h
  have hr := connect (ok := { Mode.good with off := True }) false true (run1 _) rfl rfl (fun h => absurd trivial h) (fun _ => rfl)
  have := h _ hr ⟨by simp [s1], rfl, rfl, by decide, k1 [], rfl, by simp [k1]⟩ T "{1}" (by simp [s1, row])
  cases this

/-- The client is connected, then `{1}` is stored. -/
private def s2 (bus : List (String × String × List String)) (q : List Data) : State :=
  { tr := [(.deliver U "" [(T, "{1}")] false, true)], ded := ⟨[("@a:h||m.direct", 3)], [row "{1}"]⟩, bus := bus
    c := { conn := some (k1 []), queue := q, pos := 1 } }

private theorem run2 (ok : Mode) : Run H U ok (s2 [(U, "", [T])] []) := by
  have h := connect (ok := ok) true true (Steps.refl (s := {})) rfl rfl (fun _ => rfl) (fun _ => rfl)
  exact write (hash := H) (db' := [row "{1}"]) "{1}" h (by decide +kernel) (by decide +kernel)

private theorem run3 (ok : Mode) : Run H U ok (s2 [] [[(T, "{1}")]]) := by
  have h := (run2 ok).snoc (Step.handle (p := (U, "", [T])) (bus := []) true rfl (fun _ => rfl))
  exact h

/-- The table cannot be read when the payload is handled: the error is only logged (sync3/handler/handler.go 808-812), and nobody
is told later. -/
theorem C120_violated_read : ¬ Arrives H U { Mode.good with noRead := True } := by
  intro h
  have hr := (run2 { Mode.good with noRead := True }).snoc (Step.handle false rfl (fun h => absurd trivial h))
  have := h _ hr ⟨by simp, rfl, rfl, by decide, k1 [], rfl, by simp [k1, s2, handle]⟩ T "{1}" (by simp [s2, row])
  cases this

/-- A request panics after it has taken the update from the channel: the panic is recovered from (sync3/conn.go 96-113), the connection
stays, and the update is gone. -/
theorem C120_violated_panic : ¬ Arrives H U { Mode.good with fails := True } := by
  intro h
  have hr := fetch (ok := { Mode.good with fails := True }) true true [] _ (run3 _) (fun _ => none) rfl (fun _ => rfl) (fun h => absurd trivial h)
  have := h _ hr ⟨by simp [s2], rfl, rfl, by decide, k1 [], rfl, by decide +kernel⟩ T "{1}" (by simp [s2, row])
  cases this

/-- The extension is off in the request that takes the update: it is not kept for when the extension is on again. -/
theorem C120_violated_off : ∃ s, Run H U { Mode.good with off := True } s ∧ CaughtUp U s ∧ row "{1}" ∈ s.ded.db ∧ s.c.has T = none := by
  have hr := fetch (ok := { Mode.good with off := True }) false false [] _ (run3 _) (fun _ => none) rfl (fun h => absurd trivial h) (fun _ => rfl)
  exact ⟨_, hr, ⟨by simp [s2], rfl, rfl, by decide, ⟨⟨1, 8⟩, [⟨1, []⟩, ⟨2, []⟩], 2⟩, rfl, by decide⟩, by simp [s2, row], rfl⟩

/-- A client that has the value of the table keeps it as long as the table does. -/
def Forward (ok : Mode) : Prop := ∀ s s', Run H U ok s → Steps H U ok s s' → ∀ v w, s.c.has T = some v → row v ∈ s.ded.db →
  s'.ded = s.ded → s'.c.has T = some w → w = v

private theorem self {ok : Mode} {s : State} (_ : Run H U ok s) : Steps H U ok s s := .refl

/-- A payload handled between the creation of a connection and the reading of the table waits as an update with the value of that
time. If the value is replaced before the table is read, the first response has the new value and the next one the old value
(until the payload of the new value has been handled). -/
theorem C120_violated_back : ¬ Forward Mode.good := by
  intro hf
  have h1 := (Steps.refl (hash := H) (user := U) (ok := Mode.good) (s := {})).snoc (Step.ask 7 true true rfl (fun _ => rfl))
  have h2 := write (hash := H) (db' := [row "{1}"]) "{1}" h1 (by decide +kernel) (by decide +kernel)
  have h3 := h2.snoc (Step.handle true rfl (fun _ => rfl))
  have h4 := write (hash := H) (db' := [row "{22}"]) "{22}" h3 (by decide +kernel) (by decide +kernel)
  have h5 := h4.snoc (Step.load true rfl rfl (fun _ => rfl))
  have h6 := h5.snoc (Step.done false true rfl rfl (fun _ => rfl))
  have g1 := (self h6).snoc (Step.ask 8 true true rfl (fun _ => rfl))
  have g2 := g1.snoc (Step.take rfl rfl rfl)
  have g3 := g2.snoc (Step.done false true rfl rfl (fun _ => rfl))
  have := hf _ _ h6 g3 "{22}" "{1}" (by decide +kernel) (by simp [row]) rfl (by decide +kernel)
  revert this
  decide

/-- The hypotheses of `C120_partial` and `C120_delivered_partial` can hold: the client is connected, then a value is stored and arrives. -/
example : ∃ s, Run H U Mode.good s ∧ CaughtUp U s ∧ row "{1}" ∈ s.ded.db ∧ DedupAccount.Restarts U "" T s.tr ∧
    AccountData.LastWritten (DedupAccount.acked s.tr) U "" T "{1}" ∧ s.c.has T = some "{1}" := by
  have hr := fetch (ok := Mode.good) true false [] _ (run3 _) (fun _ => none) rfl (fun _ => rfl) (fun _ => rfl)
  refine ⟨_, hr, ⟨by simp [s2], rfl, rfl, by decide, ⟨⟨1, 8⟩, [⟨1, []⟩, ⟨2, [(T, "{1}")]⟩], 2⟩, rfl, by decide⟩, by simp [s2, row], ?_,
    ⟨[], [], rfl, by simp⟩, by decide +kernel⟩
  intro a es f ok b h _
  simp only [s2] at h
  cases a with
  | nil => rfl
  | cons x a => simp at h

end Verif.AccountFlow
