import Verif.ManyRoomsProps
/-!
# C157: what is stored for one room does not touch the state of another
-/
namespace Verif.RoomIsolation
open Verif.Store

/-- The room an upstream section is for. -/
def target : Op → String
  | .init room _ _ => room
  | .acc room _ _ _ => room

/-- The database as if there were no other room. -/
def only (db : DB) (room : String) : DB :=
  { rows := db.rows.filter fun r => decide (r.room = room)
    snaps := db.snaps.filter fun s => decide (s.room = room)
    cur := fun r => if r = room then db.cur room else 0
    latest := fun r => if r = room then db.latest room else 0 }

theorem find_filter_same {α : Type _} {p q : α → Bool} : ∀ {l : List α}, (∀ x ∈ l, p x = true → q x = true) → (l.filter q).find? p = l.find? p
  | [], _ => rfl
  | a :: l, h => by
    have ih := find_filter_same (l := l) (p := p) (q := q) fun x hx => h x (List.mem_cons_of_mem _ hx)
    cases hp : p a with
    | true =>
      rw [List.filter_cons_of_pos (h a List.mem_cons_self hp), List.find?_cons_of_pos hp, List.find?_cons_of_pos hp]
    | false =>
      rw [List.find?_cons_of_neg (by simp [hp])]
      cases hq : q a with
      | true => rw [List.filter_cons_of_pos hq, List.find?_cons_of_neg (by simp [hp]), ih]
      | false => rw [List.filter_cons_of_neg (by simp [hq]), ih]

theorem filter_same {α : Type _} {p q : α → Bool} {l : List α} (h : ∀ x ∈ l, p x = true → q x = true) : (l.filter q).filter p = l.filter p := by
  rw [List.filter_filter]
  refine List.filter_congr fun x hx => ?_
  cases hp : p x with
  | true => rw [h x hx hp]; rfl
  | false => rfl

section
variable {db : DB} (h : Rooms db) (room : String)
include h

theorem latest_only (pos : Nat) : latestEvent (only db room) room pos = latestEvent db room pos := by
  unfold latestEvent
  have hl : (only db room).latest room = db.latest room := if_pos rfl
  rw [hl]
  by_cases h0 : db.latest room = 0
  · rw [if_pos h0, if_pos h0]
  · rw [if_neg h0, if_neg h0]
    have h1 : ((only db room).rows.filter fun r => decide (r.room = room) && decide (r.nid ≤ pos)) =
        db.rows.filter fun r => decide (r.room = room) && decide (r.nid ≤ pos) :=
      filter_same fun r _ hp => (Bool.and_eq_true _ _ ▸ hp).1
    have h2 : (only db room).rows.find? (fun r => decide (r.nid = db.latest room)) = db.rows.find? fun r => decide (r.nid = db.latest room) := by
      refine find_filter_same fun r hr hp => ?_
      obtain ⟨q, hq, e1, e2⟩ := h.latest room h0
      rw [row_unique h.asc hr hq ((of_decide_eq_true hp).trans e1.symm)]
      exact decide_eq_true e2
    have hc : ∀ r : Row, r.room = room → (only db room).cur r.room = db.cur r.room := fun r hr => by rw [hr]; exact if_pos rfl
    dsimp only
    rw [h1, h2]
    by_cases hgt : db.latest room > pos
    · rw [if_pos hgt]
      cases hg : (db.rows.filter fun r => decide (r.room = room) && decide (r.nid ≤ pos)).getLast? with
      | none => rfl
      | some r =>
        have hm := List.mem_of_getLast? hg
        simp only [List.mem_filter, Bool.and_eq_true, decide_eq_true_eq] at hm
        dsimp only
        rw [hc r hm.2.1]
    · rw [if_neg hgt]
      cases hg : db.rows.find? (fun r => decide (r.nid = db.latest room)) with
      | none => rfl
      | some r =>
        have hr := List.mem_of_find?_eq_some hg
        have hn : r.nid = db.latest room := by simpa using List.find?_some hg
        obtain ⟨q, hq, e1, e2⟩ := h.latest room h0
        have : r.room = room := by rw [row_unique h.asc hr hq (hn.trans e1.symm)]; exact e2
        dsimp only
        rw [hc r this]

omit h in
theorem rows_only {nids : List Nat} (hn : ∀ r ∈ db.rows, r.nid ∈ nids → r.room = room) : selectByNIDs (only db room) nids = selectByNIDs db nids := by
  have : ((only db room).rows.filter fun r => decide (r.nid ∈ nids)) = db.rows.filter fun r => decide (r.nid ∈ nids) :=
    filter_same fun r hr hp => decide_eq_true (hn r hr (of_decide_eq_true hp))
  unfold selectByNIDs
  rw [this]

omit h in
theorem snap_only {snap : Nat} (hs : ∀ s ∈ db.snaps, s.id = snap → s.room = room) :
    (only db room).snaps.find? (fun s => decide (s.id = snap)) = db.snaps.find? fun s => decide (s.id = snap) :=
  find_filter_same fun s hm hp => decide_eq_true (hs s hm (of_decide_eq_true hp))

/-- A row with a number of a snapshot is of the snapshot's room. -/
theorem snap_row {s : Snap} (hs : s ∈ db.snaps) (hroom : s.room = room) {r : Row} (hr : r ∈ db.rows) (hn : r.nid ∈ s.nids) : r.room = room := by
  obtain ⟨q, hq, e1, e2⟩ := h.exist s hs r.nid hn
  rw [row_unique h.asc hr hq e1.symm, e2, hroom]

/-- The numbers of the state after an event are those of rows of its room. -/
theorem nids_room {ev : Row} (hev : ev ∈ db.rows) (her : ev.room = room) {s : Snap} (hs : s ∈ db.snaps) (hroom : s.room = room) :
    ∀ r ∈ db.rows, r.nid ∈ (if ev.ev.hasKey then
          if ev.replaces ≠ 0 then s.nids.map fun n => if n = ev.replaces then ev.nid else n
          else if ev.nid ∈ s.nids then s.nids else s.nids ++ [ev.nid]
        else s.nids) → r.room = room := by
  intro r hr hn
  have hself : r.nid = ev.nid → r.room = room := fun e => by rw [row_unique h.asc hr hev e]; exact her
  split at hn
  · split at hn
    · obtain ⟨n, hm, e⟩ := List.mem_map.1 hn
      split at e
      · exact hself e.symm
      · exact snap_row h room hs hroom hr (e ▸ hm)
    · split at hn
      · exact snap_row h room hs hroom hr hn
      · rcases List.mem_append.1 hn with hn | hn
        · exact snap_row h room hs hroom hr hn
        · exact hself (List.mem_singleton.1 hn)
  · exact snap_row h room hs hroom hr hn

theorem state_only (pos : Nat) : stateAfter (only db room) room pos = stateAfter db room pos := by
  unfold stateAfter
  rw [latest_only h room pos]
  cases hl : latestEvent db room pos with
  | none => rfl
  | some o =>
    cases o with
    | none => rfl
    | some p =>
      obtain ⟨ev, snap⟩ := p
      obtain ⟨hev, her, hsn⟩ := ManyRooms.latest_facts h hl
      dsimp only
      have hsel : selectSnap (only db room) snap = selectSnap db snap := by
        unfold selectSnap
        rw [snap_only room hsn]
      rw [hsel]
      cases hs : selectSnap db snap with
      | none => rfl
      | some s =>
        dsimp only
        have hm : s ∈ db.snaps ∧ s.id = snap := by
          unfold selectSnap at hs
          split at hs
          · cases hs
          · exact ⟨List.mem_of_find?_eq_some hs, by simpa using List.find?_some hs⟩
        exact rows_only room (nids_room h room hev her hm.1 (hsn s hm.1 hm.2))

theorem filtered_only (pos : Nat) (f : Filter) : stateAfterFiltered (only db room) room pos f = stateAfterFiltered db room pos f := by
  unfold stateAfterFiltered
  rw [latest_only h room pos]
  cases hl : latestEvent db room pos with
  | none => rfl
  | some o =>
    cases o with
    | none => rfl
    | some p =>
      obtain ⟨ev, snap⟩ := p
      obtain ⟨hev, her, hsn⟩ := ManyRooms.latest_facts h hl
      dsimp only
      rw [snap_only room hsn]
      have : ((only db room).rows.filter fun r => matchesF f r.ev && decide (r.nid ∈ (match db.snaps.find? (fun s => decide (s.id = snap)) with | some s => columns f s | none => []))) =
          db.rows.filter fun r => matchesF f r.ev && decide (r.nid ∈ (match db.snaps.find? (fun s => decide (s.id = snap)) with | some s => columns f s | none => [])) := by
        refine filter_same fun r hr hp => decide_eq_true ?_
        simp only [Bool.and_eq_true, decide_eq_true_eq] at hp
        cases hs : db.snaps.find? (fun s => decide (s.id = snap)) with
        | none => rw [hs] at hp; exact absurd hp.2 List.not_mem_nil
        | some s =>
          rw [hs] at hp
          have hm := List.mem_of_find?_eq_some hs
          exact snap_row h room hm (hsn s hm (by simpa using List.find?_some hs)) hr (ManyRooms.columns_sub hp.2)
      simp only [Option.some.injEq]
      congr 1
      exact congrArg _ this

end

/-- What is stored of a room stays. -/
def Keep (room : String) (a b : DB) : Prop :=
  (b.rows.filter fun r => decide (r.room = room)) = (a.rows.filter fun r => decide (r.room = room)) ∧
  (b.snaps.filter fun s => decide (s.room = room)) = (a.snaps.filter fun s => decide (s.room = room))

theorem Keep.trans {room : String} {a b c : DB} (h : Keep room a b) (h' : Keep room b c) : Keep room a c :=
  ⟨h'.1.trans h.1, h'.2.trans h.2⟩

theorem keep_insert (db : DB) {room other : String} (hne : other ≠ room) (st : Bool) (skip : Nat) (evs : List (Ev × Bool)) :
    Keep room db (insert db other st skip evs).1 := by
  obtain ⟨new, h1, -, h3, -⟩ := insertLoop_spec other st evs db.rows (db.seq + skip)
  have hrows : (Store.insert db other st skip evs).1.rows = db.rows ++ new := by simp [Store.insert, h1]
  refine ⟨?_, rfl⟩
  rw [hrows, List.filter_append]
  have : (new.filter fun r => decide (r.room = room)) = [] := List.filter_eq_nil_iff.2 fun r hr hp =>
    hne ((h3 r hr).2.2.1.symm.trans (of_decide_eq_true hp))
  rw [this, List.append_nil]

theorem keep_snap (db : DB) {room other : String} (hne : other ≠ room) (l : List Row) : Keep room db (insertSnap db other l).1 := by
  refine ⟨rfl, ?_⟩
  show ((db.snaps ++ [_]).filter _) = _
  rw [List.filter_append, List.filter_cons_of_neg (by simp [hne]), List.filter_nil, List.append_nil]

theorem keep_before {room : String} {nid snap rep : Nat} : ∀ {rows : List Row}, (∀ r ∈ rows, r.nid = nid → r.room ≠ room) →
    ((rows.map fun r => if r.nid = nid then { r with before := snap, replaces := rep } else r).filter fun r => decide (r.room = room)) =
      rows.filter fun r => decide (r.room = room)
  | [], _ => rfl
  | a :: rows, h => by
    have ih := keep_before (snap := snap) (rep := rep) fun r hr => h r (List.mem_cons_of_mem _ hr)
    rw [List.map_cons]
    by_cases hn : a.nid = nid
    · have hr := h a List.mem_cons_self hn
      rw [if_pos hn, List.filter_cons_of_neg (by simp [hr]), List.filter_cons_of_neg (by simp [hr]), ih]
    · rw [if_neg hn]
      by_cases hr : a.room = room
      · rw [List.filter_cons_of_pos (by simp [hr]), List.filter_cons_of_pos (by simp [hr]), ih]
      · rw [List.filter_cons_of_neg (by simp [hr]), List.filter_cons_of_neg (by simp [hr]), ih]

theorem keep_step {st st' : DB × Nat} {ev : Row} {room other : String} (hne : other ≠ room) (h : Tables st.1) (hev : Own st.1 other ev)
    (hroom : ev.room = other) (e : accStep st ev = some st') : Keep room st.1 st'.1 := by
  have same : ∀ r ∈ st.1.rows, r.nid = ev.nid → r.room ≠ room := by
    obtain ⟨q, hq, e1, e2⟩ := hev
    intro r hr hn
    rw [row_unique h.asc hr hq (hn.trans e1.symm), e2]; exact hne
  unfold accStep at e
  split at e
  · split at e
    · cases e
    · split at e
      · cases e
      · simp only [Option.some.injEq] at e
        subst e
        refine (keep_snap st.1 (hroom ▸ hne) _).trans ⟨?_, rfl⟩
        exact keep_before same
  · simp only [Option.some.injEq] at e
    subst e
    exact ⟨keep_before same, rfl⟩

theorem keep_loop {room other : String} (hne : other ≠ room) : ∀ (l : List Row) {st st' : DB × Nat}, Tables st.1 → OfRoom st.1 st.2 other →
    (∀ r ∈ l, Own st.1 other r ∧ r.room = other) → accLoop st l = some st' → Keep room st.1 st'.1
  | [], st, st', _, _, _, e => by
    simp only [accLoop, Option.some.injEq] at e
    subst e
    exact ⟨rfl, rfl⟩
  | ev :: l, st, st', h, hs, hl, e => by
    simp only [accLoop] at e
    cases h1 : accStep st ev with
    | none => rw [h1] at e; cases e
    | some s1 =>
      rw [h1] at e
      have hev := hl ev List.mem_cons_self
      obtain ⟨t1, m1, o1⟩ := accStep_rooms h hs hev.1 hev.2 h1
      exact (keep_step hne h hev.1 hev.2 h1).trans (keep_loop hne l t1 o1
        (fun r hr => ⟨m1.own (hl r (List.mem_cons_of_mem _ hr)).1, (hl r (List.mem_cons_of_mem _ hr)).2⟩) e)

/-- The database of a room after a transaction for another. -/
theorem only_eq {a b : DB} {room : String} (k : Keep room a b) (hc : b.cur room = a.cur room) (hl : b.latest room = a.latest room) :
    only b room = only a room := by
  unfold only
  rw [k.1, k.2, hc, hl]

theorem only_close {a b : DB} {room : String} (k : Keep room a b) {c l : String → Nat} (hc : c room = a.cur room) (hl : l room = a.latest room) :
    only { b with cur := c, latest := l } room = only a room :=
  only_eq (b := { b with cur := c, latest := l }) k hc hl

theorem mem_select {db : DB} {nids : List Nat} {l : List Row} (h : selectByNIDs db nids = some l) : ∀ r ∈ l, r ∈ db.rows := by
  unfold selectByNIDs at h
  dsimp only at h
  split at h
  · cases h
  · cases h
    exact fun r hr => (List.mem_filter.1 hr).1

theorem only_step {db : DB} (h : Rooms db) {room : String} {o : Op} (hne : target o ≠ room) : only (step db o) room = only db room := by
  cases o with
  | init other skip block =>
    have hne : other ≠ room := hne
    have hne' : ¬ room = other := fun e => hne e.symm
    show only ((initialise db other skip block).getD db) room = _
    cases e : initialise db other skip block with
    | none => rfl
    | some db' =>
      show only db' room = _
      unfold initialise at e
      split at e
      · cases e; rfl
      · dsimp only at e
        split at e
        · cases e
        · split at e
          · cases e
          · split at e
            · cases e; exact only_eq (keep_insert db hne _ _ _) rfl rfl
            · split at e
              · cases e
              · cases e
                exact only_close (b := (insertSnap _ other _).1)
                  ((keep_insert db hne _ _ _).trans (keep_snap _ hne _)) (if_neg hne') (if_neg hne')
  | acc other skip limited timeline =>
    have hne : other ≠ room := hne
    have hne' : ¬ room = other := fun e => hne e.symm
    show only (((accumulate db other skip limited timeline).map (·.1)).getD db) room = _
    cases e : accumulate db other skip limited timeline with
    | none => rfl
    | some p =>
      obtain ⟨db', post⟩ := p
      show only db' room = _
      unfold accumulate at e
      dsimp only at e
      split at e
      · cases e; rfl
      · rename_i first _ _
        split at e
        · cases e; rfl
        · split at e
          · cases e; exact only_eq (keep_insert db hne _ _ _) rfl rfl
          · split at e
            · cases e
            · rename_i db2 snap hloop
              cases e
              obtain ⟨t, m, hn⟩ := h.toTables.insert other false skip ((filterNew db (dedup [] timeline)).map fun e => (e, missingPrevious limited (dedup [] timeline) first e))
              have hk := keep_loop hne _ t (m.sr _ _ (h.cur other)) (fun r hr => by
                obtain ⟨ev, -, hr⟩ := List.mem_filterMap.1 hr
                have := hn r (List.mem_of_find?_eq_some hr)
                exact ⟨⟨r, this.1, rfl, this.2⟩, this.2⟩) hloop
              exact only_close (b := db2) ((keep_insert db hne _ _ _).trans hk) (if_neg hne') (if_neg hne')

theorem only_run (ops more : List Op) (room : String) (hm : ∀ o ∈ more, target o ≠ room) : only (run (ops ++ more)) room = only (run ops) room := by
  induction more using Verif.Util.snocRec with
  | nil => rw [List.append_nil]
  | append_singleton more o ih =>
    have hr : run (ops ++ (more ++ [o])) = step (run (ops ++ more)) o := by
      unfold run
      rw [← List.append_assoc, List.foldl_append]; rfl
    rw [hr, only_step (run_rooms _) (hm o (by simp)), ih fun x hx => hm x (List.mem_append_left _ hx)]

/-- C157: whatever upstream sends for other rooms, the state of a room at a position stays exactly as it is: in the whole, for any filter, and
in whether loading it fails. -/
theorem C157_isolated (ops more : List Op) (room : String) (hm : ∀ o ∈ more, target o ≠ room) (pos : Nat) :
    stateAfter (run (ops ++ more)) room pos = stateAfter (run ops) room pos ∧
    ∀ f, stateAfterFiltered (run (ops ++ more)) room pos f = stateAfterFiltered (run ops) room pos f := by
  have key := only_run ops more room hm
  refine ⟨?_, fun f => ?_⟩
  · rw [← state_only (run_rooms _), key, state_only (run_rooms _)]
  · rw [← filtered_only (run_rooms _), key, filtered_only (run_rooms _)]

/-- C157: and so does all that is stored for the room: its events with their numbers, order and snapshots, its snapshots, and its row of the
rooms table. -/
theorem C157_stored (ops more : List Op) (room : String) (hm : ∀ o ∈ more, target o ≠ room) :
    ((run (ops ++ more)).rows.filter fun r => decide (r.room = room)) = ((run ops).rows.filter fun r => decide (r.room = room)) ∧
    ((run (ops ++ more)).snaps.filter fun s => decide (s.room = room)) = ((run ops).snaps.filter fun s => decide (s.room = room)) ∧
    (run (ops ++ more)).cur room = (run ops).cur room ∧ (run (ops ++ more)).latest room = (run ops).latest room := by
  have key := only_run ops more room hm
  refine ⟨congrArg DB.rows key, congrArg DB.snaps key, ?_, ?_⟩
  · have := congrFun (congrArg DB.cur key) room
    simpa [only] using this
  · have := congrFun (congrArg DB.latest key) room
    simpa [only] using this

/-- C157: the state of a room holds events of that room only, whatever upstream sends. -/
theorem C157_own (ops : List Op) (room : String) (pos : Nat) :
    (∀ l, stateAfter (run ops) room pos = some l → ∀ r ∈ l, r ∈ (run ops).rows ∧ r.room = room) ∧
    ∀ f l, stateAfterFiltered (run ops) room pos f = some l → ∀ r ∈ l, r ∈ (run ops).rows ∧ r.room = room := by
  have h := run_rooms ops
  constructor
  · intro l hl r hr
    rw [← state_only h] at hl
    unfold stateAfter at hl
    split at hl
    · cases hl
    · cases hl; cases hr
    · split at hl
      · cases hl
      · have := List.mem_filter.1 (mem_select hl r hr)
        exact ⟨this.1, of_decide_eq_true this.2⟩
  · intro f l hl r hr
    rw [← filtered_only h] at hl
    unfold stateAfterFiltered at hl
    rw [latest_only h] at hl
    split at hl
    · cases hl
    · cases hl; cases hr
    · rename_i ev snap hlat
      obtain ⟨hev, her, -⟩ := ManyRooms.latest_facts h hlat
      simp only [Option.some.injEq] at hl
      subst hl
      rcases List.mem_append.1 hr with hr | hr
      · obtain ⟨q, hq, rfl⟩ := List.mem_map.1 hr
        have := (List.mem_filter.1 (List.mem_filter.1 hq).1)
        split
        · exact ⟨hev, her⟩
        · exact ⟨this.1, of_decide_eq_true this.2⟩
      · split at hr
        · obtain ⟨t, -, rfl⟩ := List.mem_map.1 hr
          exact ⟨hev, her⟩
        · cases hr

private def cr (id : String) : Ev := { id := id, type := "m.room.create", hasKey := true }
private def nm (id : String) : Ev := { id := id, type := "m.room.name", hasKey := true }

/-- The hypotheses are met by upstream data outside the conditions of C40: the other room gets an event of this one, an event twice in a
block and a type with U+001F, and is changed by it; this one keeps its state, and each has its own events. -/
example : let ops := [Op.init "!a" 0 [some (cr "$ca"), some (nm "$na")], .acc "!a" 0 false [some (nm "$na2")]]
    let more := [Op.init "!b" 0 [some (cr "$cb"), some (nm "$na2"), some (nm "$nb"), some (nm "$nb")],
      .acc "!b" 0 false [some { nm "$x" with type := "m\x1fn" }]]
    (∀ o ∈ more, target o ≠ "!a") ∧ (stateAfter (run ops) "!b" 99).map (·.map (·.ev.id)) = some [] ∧
    (stateAfter (run (ops ++ more)) "!b" 99).map (·.map (·.ev.id)) = some ["$cb", "$nb", "$x"] ∧
    (stateAfter (run (ops ++ more)) "!a" 99).map (·.map (·.ev.id)) = some ["$ca", "$na2"] ∧
    (stateAfterFiltered (run (ops ++ more)) "!a" 99 [("m.room.name", [])]).map (·.map (·.ev.id)) = some ["$na2"] := by
  decide +kernel

end Verif.RoomIsolation
