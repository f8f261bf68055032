import Verif.RoomsTable
/-!
# C59: rooms never become unencrypted and metadata is not lost; C71: only state events change it

The specification is about the history of events of a room.
-/
namespace Verif.RoomsTable

open Verif

/-- The last value given by a list of events. -/
def lastVal {α β : Type} (f : α → Option β) : List α → Option β
  | [] => none
  | e :: es => (lastVal f es).or (f e)

theorem lastVal_append {α β : Type} (f : α → Option β) (a b : List α) : lastVal f (a ++ b) = (lastVal f b).or (lastVal f a) := by
  induction a with
  | nil => simp [lastVal]
  | cons e a ih => simp [lastVal, ih, Option.or_assoc]

theorem lastVal_none {α β : Type} (f : α → Option β) (l : List α) : lastVal f l = none ↔ ∀ e ∈ l, f e = none := by
  induction l with
  | nil => simp [lastVal]
  | cons e l ih => simp [lastVal, Option.or_eq_none_iff, ih, and_comm]

theorem lastVal_iff {α β : Type} (f : α → Option β) (l : List α) (v : β) :
    lastVal f l = some v ↔ ∃ a e b, l = a ++ e :: b ∧ f e = some v ∧ ∀ x ∈ b, f x = none := by
  induction l with
  | nil => simp [lastVal]
  | cons e l ih =>
    simp only [lastVal]
    constructor
    · intro h
      cases hl : lastVal f l with
      | none => rw [hl] at h; exact ⟨[], e, l, rfl, by simpa using h, (lastVal_none f l).1 hl⟩
      | some x =>
        rw [hl] at h
        simp only [Option.some_or, Option.some.injEq] at h
        subst h
        obtain ⟨a, q, b, rfl, h1, h2⟩ := ih.1 hl
        exact ⟨e :: a, q, b, rfl, h1, h2⟩
    · rintro ⟨a, q, b, he, h1, h2⟩
      cases a with
      | nil =>
        simp only [List.nil_append, List.cons.injEq] at he
        obtain ⟨rfl, rfl⟩ := he
        rw [(lastVal_none f _).2 h2]; simpa using h1
      | cons y a =>
        simp only [List.cons_append, List.cons.injEq] at he
        obtain ⟨rfl, rfl⟩ := he
        rw [ih.2 ⟨a, q, b, rfl, h1, h2⟩]; rfl

/-- What an event specifies; `k` says for which events (all with an empty state key column, or state events). -/
def encBy (k : Ev → Bool) (e : Ev) : Option Unit := if k e ∧ e.type = "m.room.encryption" then some () else none
def upgradeBy (k : Ev → Bool) (e : Ev) : Option String := if k e ∧ e.type = "m.room.tombstone" then e.replacement else none
def typeBy (k : Ev → Bool) (e : Ev) : Option String := if k e ∧ e.type = "m.room.create" then e.ctype else none
def predBy (k : Ev → Bool) (e : Ev) : Option String :=
  if k e ∧ e.type = "m.room.create" ∧ e.pred ≠ "" then some e.pred else none

/-- The state key is "" or there is none. -/
def noKey (e : Ev) : Bool := e.stateKey = none || e.stateKey = some ""
/-- A state event with the empty state key. -/
def isState (e : Ev) : Bool := e.stateKey = some ""

theorem noKey_iff (e : Ev) : noKey e = true ↔ e.key = "" := by
  cases h : e.stateKey <;> simp [noKey, Ev.key, h]

theorem delta_snoc (l : List Ev) (e : Ev) : delta (l ++ [e]) = deltaStep (delta l) e := by
  unfold delta; rw [List.foldl_append]; rfl

theorem lastVal_snoc {α β : Type} (f : α → Option β) (l : List α) (e : α) : lastVal f (l ++ [e]) = (f e).or (lastVal f l) := by
  rw [lastVal_append]; simp [lastVal]

theorem delta_spec (evs : List Ev) :
    ((delta evs).enc = (lastVal (encBy noKey) evs).isSome) ∧ (delta evs).upgraded = lastVal (upgradeBy noKey) evs ∧
    (delta evs).type = lastVal (typeBy noKey) evs ∧ (delta evs).pred = lastVal (predBy noKey) evs := by
  induction evs using Verif.Util.snocRec with
  | nil => simp [delta, lastVal]
  | append_singleton l e ih =>
    obtain ⟨h1, h2, h3, h4⟩ := ih
    rw [delta_snoc, lastVal_snoc, lastVal_snoc, lastVal_snoc, lastVal_snoc, ← h2, ← h3, ← h4]
    generalize lastVal (encBy noKey) l = L at h1 ⊢
    unfold deltaStep encBy upgradeBy typeBy predBy
    simp only [noKey_iff]
    by_cases hk : e.key = ""
    · by_cases ht : e.type = "m.room.encryption"
      · simp [hk, ht]
      · by_cases ht2 : e.type = "m.room.tombstone"
        · cases hr : e.replacement <;> simp [hk, ht2, hr, h1]
        · by_cases ht3 : e.type = "m.room.create"
          · by_cases hp : e.pred = "" <;> cases hc : e.ctype <;> simp [hk, ht3, hp, hc, h1]
          · simp [ht, ht2, ht3, h1]
    · simp [hk, h1]

/-- The statement: exactly the specified columns are set, each to its own value. -/
theorem upsert_spec (t : List (String × Row)) (room : String) (i : Info) (snapshot latest : Nat) :
    upsert t room i snapshot latest = some (Assoc.set t room
      (let old := (Assoc.get t room).getD { snapshot := 0, latest := 0 }
       { snapshot := snapshot, latest := latest, enc := i.enc || old.enc, upgraded := i.upgraded.or old.upgraded,
         type := i.type.or old.type, pred := i.pred.or old.pred })) := by
  obtain ⟨enc, up, ty, pr⟩ := i
  unfold upsert
  generalize (Assoc.get t room).getD { snapshot := 0, latest := 0 } = old
  cases enc <;> cases up <;> cases ty <;> cases pr <;> simp [cols, args, setCols, setCol]

/-- The events of a room in a list of calls. -/
def history (cs : List Call) (room : String) : List Ev := (cs.filter fun c => c.room = room).flatMap (·.evs)

theorem history_snoc (cs : List Call) (c : Call) (room : String) :
    history (cs ++ [c]) room = history cs room ++ if c.room = room then c.evs else [] := by
  simp only [history, List.filter_append, List.flatMap_append]
  by_cases h : c.room = room <;> simp [h]

/-- The row of a room. -/
def row (cs : List Call) (room : String) : Option Row := Assoc.get (run cs) room

theorem run_snoc (cs : List Call) (c : Call) : run (cs ++ [c]) = step (run cs) c := by
  unfold run; rw [List.foldl_append]; rfl

/-- **C59.** After any calls the recorded encryption, upgrade, type and predecessor of a room are what the last
event that specifies them says; the room is recorded as encrypted if ever an event said so. -/
theorem C59_recorded (cs : List Call) (room : String) :
    match row cs room with
    | none => ∀ c ∈ cs, c.room ≠ room
    | some r => (r.enc = true ↔ ∃ e ∈ history cs room, encBy noKey e = some ()) ∧
        r.upgraded = lastVal (upgradeBy noKey) (history cs room) ∧
        r.type = lastVal (typeBy noKey) (history cs room) ∧ r.pred = lastVal (predBy noKey) (history cs room) := by
  have hlast : ∀ l : List Ev, (lastVal (encBy noKey) l).isSome = true ↔ ∃ e ∈ l, encBy noKey e = some () := by
    intro l
    cases hl : lastVal (encBy noKey) l with
    | none =>
      have := (lastVal_none _ _).1 hl
      simp only [Option.isSome_none, Bool.false_eq_true, false_iff]
      rintro ⟨e, he, h⟩; rw [this e he] at h; cases h
    | some u =>
      obtain ⟨a, e, b, rfl, h, _⟩ := (lastVal_iff _ _ _).1 hl
      simp only [Option.isSome_some, true_iff]
      exact ⟨e, by simp, by rw [h]⟩
  induction cs using Verif.Util.snocRec with
  | nil => simp [row, run, Assoc.get_nil]
  | append_singleton cs c ih =>
    obtain ⟨d1, d2, d3, d4⟩ := delta_spec c.evs
    unfold row at ih ⊢
    rw [run_snoc]
    unfold step
    rw [upsert_spec, Option.getD_some, Assoc.get_set, history_snoc]
    by_cases hr : room = c.room
    · rw [if_pos hr, if_pos hr.symm]
      rw [← hr]
      simp only [lastVal_append, ← d2, ← d3, ← d4]
      cases hg : Assoc.get (run cs) room with
      | none =>
        rw [hg] at ih
        have hh : history cs room = [] := by
          simp only [history, List.flatMap_eq_nil_iff, List.mem_filter, decide_eq_true_eq]
          rintro x ⟨hx, hxr⟩; exact absurd hxr (ih x hx)
        simp only [hh, List.nil_append, lastVal, Option.getD_none, Option.or_none, and_self, and_true, Bool.or_false]
        rw [d1, hlast]
      | some old =>
        rw [hg] at ih
        obtain ⟨i1, i2, i3, i4⟩ := ih
        simp only [Option.getD_some]
        refine ⟨?_, by rw [i2], by rw [i3], by rw [i4]⟩
        rw [Bool.or_eq_true, d1, hlast, i1]
        simp only [List.mem_append]
        constructor
        · rintro (⟨e, he, h⟩ | ⟨e, he, h⟩)
          · exact ⟨e, Or.inr he, h⟩
          · exact ⟨e, Or.inl he, h⟩
        · rintro ⟨e, he | he, h⟩
          · exact Or.inr ⟨e, he, h⟩
          · exact Or.inl ⟨e, he, h⟩
    · rw [if_neg hr, if_neg (fun h => hr h.symm), List.append_nil]
      cases hg : Assoc.get (run cs) room with
      | none =>
        rw [hg] at ih
        intro x hx
        rcases List.mem_append.1 hx with hx | hx
        · exact ih x hx
        · rw [List.mem_singleton.1 hx]; exact fun h => hr h.symm
      | some old => rw [hg] at ih; exact ih

/-- **C59.** Once recorded as encrypted a room stays so. -/
theorem C59_encrypted (cs cs' : List Call) (room : String) (r : Row) (h : row cs room = some r) (he : r.enc = true) :
    ∃ r', row (cs ++ cs') room = some r' ∧ r'.enc = true := by
  induction cs' using Verif.Util.snocRec with
  | nil => exact ⟨r, by simpa using h, he⟩
  | append_singleton l c ih =>
    obtain ⟨r', h1, h2⟩ := ih
    rw [← List.append_assoc]
    unfold row at h1 ⊢
    rw [run_snoc]; unfold step
    rw [upsert_spec, Option.getD_some, Assoc.get_set]
    by_cases hr : room = c.room
    · rw [if_pos hr]
      refine ⟨_, rfl, ?_⟩
      rw [← hr, h1]; simp [h2]
    · rw [if_neg hr]; exact ⟨r', h1, h2⟩

/-- **C59.** One call changes upgrade, type and predecessor only to what one of its events specifies, and
only of its room; it always records the given snapshot and position. -/
theorem C59_step (cs : List Call) (c : Call) (room : String) (r : Row) (h : row cs room = some r) :
    ∃ r', row (cs ++ [c]) room = some r' ∧ (room ≠ c.room → r' = r) ∧
      (room = c.room → r'.snapshot = c.snapshot ∧ r'.latest = c.latest) ∧
      (r'.upgraded = r.upgraded ∨ ∃ e ∈ c.evs, upgradeBy noKey e = r'.upgraded) ∧
      (r'.type = r.type ∨ ∃ e ∈ c.evs, typeBy noKey e = r'.type) ∧
      (r'.pred = r.pred ∨ ∃ e ∈ c.evs, predBy noKey e = r'.pred) := by
  obtain ⟨d1, d2, d3, d4⟩ := delta_spec c.evs
  have hor : ∀ (f : Ev → Option String) (o : Option String), (lastVal f c.evs).or o = o ∨ ∃ e ∈ c.evs, f e = (lastVal f c.evs).or o := by
    intro f o
    cases hl : lastVal f c.evs with
    | none => left; rfl
    | some v =>
      right
      obtain ⟨a, e, b, heq, h1, _⟩ := (lastVal_iff _ _ _).1 hl
      exact ⟨e, by rw [heq]; simp, h1⟩
  unfold row at h ⊢
  rw [run_snoc]; unfold step
  rw [upsert_spec, Option.getD_some, Assoc.get_set]
  by_cases hr : room = c.room
  · rw [if_pos hr, ← hr, h]
    simp only [Option.getD_some, d2, d3, d4]
    exact ⟨_, rfl, fun hn => absurd rfl hn, fun _ => ⟨rfl, rfl⟩, hor _ _, hor _ _, hor _ _⟩
  · rw [if_neg hr]
    exact ⟨r, h, fun _ => rfl, fun hh => absurd hh hr, Or.inl rfl, Or.inl rfl, Or.inl rfl⟩

/-! A concrete case: a created room is encrypted, then another call says nothing. -/

def exCreate : Ev := { type := "m.room.create", stateKey := some "", ctype := some "m.space", pred := "!old" }
def exEnc : Ev := { type := "m.room.encryption", stateKey := some "" }
def exTomb : Ev := { type := "m.room.tombstone", stateKey := some "", replacement := some "!new" }

example : row [⟨"!r", [exCreate, exEnc], 1, 2⟩, ⟨"!r", [exTomb], 2, 3⟩, ⟨"!r", [], 3, 4⟩] "!r" =
    some ⟨3, 4, true, some "!new", some "m.space", some "!old"⟩ := by decide

/-! ## C71 -/

/-- **C71, full statement.** The recorded encryption, upgrade, type and predecessor are those of the last
*state* event that specifies them. -/
def C71_full : Prop := ∀ (cs : List Call) (room : String) (r : Row), row cs room = some r →
  (r.enc = true ↔ ∃ e ∈ history cs room, encBy isState e = some ()) ∧
  r.upgraded = lastVal (upgradeBy isState) (history cs room) ∧
  r.type = lastVal (typeBy isState) (history cs room) ∧ r.pred = lastVal (predBy isState) (history cs room)

/-- A message event of type `m.room.encryption` marks the room as encrypted for good. -/
theorem C71_violated : ¬ C71_full := by
  intro h
  have h1 := (h [⟨"!r", [{ type := "m.room.create", stateKey := some "" }], 1, 1⟩, ⟨"!r", [{ type := "m.room.encryption" }], 1, 2⟩]
    "!r" ⟨1, 2, true, none, none, none⟩ (by decide)).1
  obtain ⟨e, he, hb⟩ := h1.1 rfl
  have hh : history [⟨"!r", [{ type := "m.room.create", stateKey := some "" }], 1, 1⟩, ⟨"!r", [{ type := "m.room.encryption" }], 1, 2⟩]
    "!r" = [{ type := "m.room.create", stateKey := some "" }, { type := "m.room.encryption" }] := by decide
  rw [hh] at he
  simp only [List.mem_cons, List.not_mem_nil, or_false] at he
  rcases he with rfl | rfl
  · revert hb; decide
  · revert hb; decide

/-- A message event of type `m.room.tombstone` marks the room as upgraded to any room of the sender's choice. -/
theorem C71_violated_upgrade :
    (row [⟨"!r", [{ type := "m.room.create", stateKey := some "" }], 1, 1⟩,
      ⟨"!r", [{ type := "m.room.tombstone", replacement := some "!evil" }], 1, 2⟩] "!r").map (·.upgraded) = some (some "!evil") := by
  decide

/-- **C71, partial.** It holds for histories in which no message event has one of the three types.  Missing:
the other ones, for which it is false. -/
theorem C71_partial (cs : List Call) (room : String) (r : Row) (h : row cs room = some r)
    (hs : ∀ e ∈ history cs room, e.type = "m.room.encryption" ∨ e.type = "m.room.tombstone" ∨ e.type = "m.room.create" → e.stateKey ≠ none) :
    (r.enc = true ↔ ∃ e ∈ history cs room, encBy isState e = some ()) ∧
    r.upgraded = lastVal (upgradeBy isState) (history cs room) ∧
    r.type = lastVal (typeBy isState) (history cs room) ∧ r.pred = lastVal (predBy isState) (history cs room) := by
  have h0 := C59_recorded cs room
  rw [h] at h0
  obtain ⟨h1, h2, h3, h4⟩ := h0
  have congr : ∀ (f g : Ev → Option String) (l : List Ev), (∀ e ∈ l, f e = g e) → lastVal f l = lastVal g l := by
    intro f g l
    induction l with
    | nil => intro _; rfl
    | cons e l ih => intro hfg; simp only [lastVal]; rw [ih fun x hx => hfg x (by simp [hx]), hfg e (by simp)]
  have hk : ∀ e ∈ history cs room, e.type = "m.room.encryption" ∨ e.type = "m.room.tombstone" ∨ e.type = "m.room.create" → noKey e = isState e := by
    intro e he ht
    have := hs e he ht
    simp [noKey, isState, this]
  have e1 : ∀ e ∈ history cs room, encBy noKey e = encBy isState e := by
    intro e he
    unfold encBy
    by_cases ht : e.type = "m.room.encryption"
    · rw [hk e he (by simp [ht])]
    · simp [ht]
  refine ⟨?_, ?_, ?_, ?_⟩
  · rw [h1]
    constructor
    · rintro ⟨e, he, hb⟩; exact ⟨e, he, by rw [← e1 e he]; exact hb⟩
    · rintro ⟨e, he, hb⟩; exact ⟨e, he, by rw [e1 e he]; exact hb⟩
  · rw [h2]; apply congr; intro e he; unfold upgradeBy
    by_cases ht : e.type = "m.room.tombstone"
    · rw [hk e he (by simp [ht])]
    · simp [ht]
  · rw [h3]; apply congr; intro e he; unfold typeBy
    by_cases ht : e.type = "m.room.create"
    · rw [hk e he (by simp [ht])]
    · simp [ht]
  · rw [h4]; apply congr; intro e he; unfold predBy
    by_cases ht : e.type = "m.room.create"
    · rw [hk e he (by simp [ht])]
    · simp [ht]

example : ∀ e ∈ history [⟨"!r", [exCreate, exEnc], 1, 2⟩, ⟨"!r", [exTomb, { type := "m.room.message" }], 2, 3⟩] "!r",
    e.type = "m.room.encryption" ∨ e.type = "m.room.tombstone" ∨ e.type = "m.room.create" → e.stateKey ≠ none := by decide

end Verif.RoomsTable
