import Verif.ManyRooms
import Verif.StoreRoom
/-!
# C155: the state of a room does not depend on the rooms it is loaded with
-/
namespace Verif.ManyRooms
open Verif.Store

theorem mapM_some {α β : Type _} {f : α → Option β} {g : α → β} : ∀ {l : List α}, (∀ x ∈ l, f x = some (g x)) → l.mapM f = some (l.map g)
  | [], _ => rfl
  | a :: l, h => by
    rw [List.mapM_cons, h a List.mem_cons_self, mapM_some fun x hx => h x (List.mem_cons_of_mem _ hx)]; rfl

/-- What is known of the latest event of a room. -/
theorem latest_facts {db : DB} (h : Rooms db) {room : String} {pos : Nat} {ev : Row} {snap : Nat}
    (he : latestEvent db room pos = some (some (ev, snap))) :
    ev ∈ db.rows ∧ ev.room = room ∧ ∀ s ∈ db.snaps, s.id = snap → s.room = room := by
  unfold latestEvent at he
  by_cases h0 : db.latest room = 0
  · rw [if_pos h0] at he; cases he
  · rw [if_neg h0] at he
    have key : ∀ r, r ∈ db.rows → r.room = room → (r, if r.before = 0 then db.cur r.room else r.before) = (ev, snap) →
        ev ∈ db.rows ∧ ev.room = room ∧ ∀ s ∈ db.snaps, s.id = snap → s.room = room := by
      intro r hr hroom e
      obtain ⟨rfl, e2⟩ := Prod.mk.inj e
      refine ⟨hr, hroom, fun s hs hid => ?_⟩
      by_cases hb : r.before = 0
      · rw [if_pos hb, hroom] at e2
        exact (h.cur room).2 s hs (hid.trans e2.symm)
      · rw [if_neg hb] at e2
        rw [← hroom]
        exact (h.bef r hr).2 s hs (hid.trans e2.symm)
    by_cases hgt : db.latest room > pos
    · simp only [if_pos hgt] at he
      cases hg : (db.rows.filter fun r => decide (r.room = room) && decide (r.nid ≤ pos)).getLast? with
      | none => rw [hg] at he; cases he
      | some r =>
        rw [hg] at he
        have hm := List.mem_of_getLast? hg
        simp only [List.mem_filter, Bool.and_eq_true, decide_eq_true_eq] at hm
        exact key r hm.1 hm.2.1 (Option.some.inj (Option.some.inj he))
    · simp only [if_neg hgt] at he
      cases hg : db.rows.find? (·.nid = db.latest room) with
      | none => rw [hg] at he; cases he
      | some r =>
        rw [hg] at he
        obtain ⟨q, hq, hqn, hqr⟩ := h.latest room h0
        have hr := List.mem_of_find?_eq_some hg
        have hn : r.nid = db.latest room := by simpa using List.find?_some hg
        have : r = q := row_unique h.asc hr hq (hn.trans hqn.symm)
        exact key r hr (this ▸ hqr) (Option.some.inj (Option.some.inj he))

theorem latest_ok {db : DB} (h : Rooms db) (room : String) (pos : Nat) : ∃ o, latestEvent db room pos = some o := by
  unfold latestEvent
  by_cases h0 : db.latest room = 0
  · exact ⟨_, if_pos h0⟩
  · rw [if_neg h0]
    by_cases hgt : db.latest room > pos
    · simp only [if_pos hgt]
      cases (db.rows.filter fun r => decide (r.room = room) && decide (r.nid ≤ pos)).getLast? with
      | none => exact ⟨_, rfl⟩
      | some r => exact ⟨_, rfl⟩
    · simp only [if_neg hgt]
      obtain ⟨q, hq, hqn, hqr⟩ := h.latest room h0
      cases hg : db.rows.find? (·.nid = db.latest room) with
      | none => exact absurd (List.find?_eq_none.1 hg q hq) (by simp [hqn])
      | some r => exact ⟨_, rfl⟩

/-- Of a list of snapshots with distinct ids one matters. -/
theorem flatMap_one {α : Type _} (g : Snap → List α) (k : Nat) : ∀ {l : List Snap}, (l.Pairwise fun a b => a.id < b.id) →
    (∀ s ∈ l, s.id ≠ k → g s = []) → l.flatMap g = match l.find? (·.id = k) with | some s => g s | none => []
  | [], _, _ => rfl
  | a :: l, hp, hg => by
    have hp' := List.pairwise_cons.1 hp
    by_cases ha : a.id = k
    · have hrest : l.flatMap g = [] := by
        rw [List.flatMap_eq_nil_iff]
        intro s hs
        have := hp'.1 s hs
        exact hg s (List.mem_cons_of_mem _ hs) (by omega)
      rw [List.flatMap_cons, hrest, List.find?_cons_of_pos (by simp [ha]), List.append_nil]
    · rw [List.flatMap_cons, hg a List.mem_cons_self ha, List.find?_cons_of_neg (by simp [ha]), List.nil_append]
      exact flatMap_one g k hp'.2 fun s hs => hg s (List.mem_cons_of_mem _ hs)

theorem columns_sub {f : Filter} {s : Snap} {n : Nat} (h : n ∈ columns f s) : n ∈ s.nids := by
  unfold columns at h
  unfold Snap.nids
  dsimp only at h
  split at h
  · exact List.mem_append_left _ h
  · split at h
    · exact List.mem_append_right _ h
    · exact (List.mem_append.1 h).elim (fun h => List.mem_append_right _ h) fun h => List.mem_append_left _ h

/-- The list of latest events: one at most for a room, each with facts. -/
structure Ok (db : DB) (rooms : List String) (pos : Nat) (ls : List (Row × Nat)) : Prop where
  mem : ∀ l, l ∈ ls ↔ ∃ room ∈ rooms, latestEvent db room pos = some (some l)
  nodup : ls.Nodup

theorem ok_of {db : DB} (h : Rooms db) {rooms : List String} (hn : rooms.Nodup) (pos : Nat) :
    ∃ l0, latest db rooms pos = some l0 ∧ Ok db rooms pos l0 := by
  have hall : ∀ r ∈ rooms, latestEvent db r pos = some ((latestEvent db r pos).getD none) := by
    intro r _
    obtain ⟨o, ho⟩ := latest_ok h r pos
    rw [ho]; rfl
  refine ⟨_, by unfold latest; rw [mapM_some hall]; rfl, ?_, ?_⟩
  · intro l
    simp only [List.mem_filterMap, List.mem_map, id_eq]
    constructor
    · rintro ⟨o, ⟨r, hr, rfl⟩, e⟩
      exact ⟨r, hr, by rw [hall r hr, e]⟩
    · rintro ⟨r, hr, e⟩
      exact ⟨_, ⟨r, hr, rfl⟩, by rw [e]; rfl⟩
  · clear hall
    induction rooms with
    | nil => exact List.nodup_nil
    | cons r rooms ih =>
      have hn' := List.nodup_cons.1 hn
      dsimp only at ih ⊢
      rw [List.map_cons]
      cases e : (latestEvent db r pos).getD none with
      | none => rw [List.filterMap_cons_none (by rfl)]; exact ih hn'.2
      | some l =>
        rw [List.filterMap_cons_some (b := l) (by rfl)]
        refine List.nodup_cons.2 ⟨?_, ih hn'.2⟩
        intro hm
        simp only [List.mem_filterMap, List.mem_map, id_eq] at hm
        obtain ⟨o, ⟨q, hq, rfl⟩, e'⟩ := hm
        have full : ∀ x, (latestEvent db x pos).getD none = some l → latestEvent db x pos = some (some l) := by
          intro x hx
          obtain ⟨o, ho⟩ := latest_ok h x pos
          rw [ho] at hx ⊢
          have hx : o = some l := hx
          rw [hx]
        have h1 := (latest_facts h (ev := l.1) (snap := l.2) (full r e)).2.1
        have h2 := (latest_facts h (ev := l.1) (snap := l.2) (full q e')).2.1
        exact hn'.1 ((h1.symm.trans h2) ▸ hq)

theorem Ok.perm {db rooms pos l0 ls} (h : Ok db rooms pos l0) (hp : ls.Perm l0) : Ok db rooms pos ls :=
  ⟨fun l => (hp.mem_iff).trans (h.mem l), (hp.nodup_iff).2 h.nodup⟩

/-- A list without duplicates in which one element alone passes. -/
theorem filter_one {α : Type _} [DecidableEq α] {p : α → Bool} {a : α} : ∀ {l : List α}, l.Nodup → a ∈ l → p a = true → (∀ x ∈ l, p x = true → x = a) → l.filter p = [a]
  | [], _, h, _, _ => by cases h
  | b :: l, hn, hm, hp, hu => by
    have hn' := List.nodup_cons.1 hn
    by_cases hb : b = a
    · subst hb
      rw [List.filter_cons_of_pos hp]
      have : l.filter p = [] := List.filter_eq_nil_iff.2 fun x hx hpx => hn'.1 (hu x (List.mem_cons_of_mem _ hx) hpx ▸ hx)
      rw [this]
    · have hpb : ¬ p b = true := fun hpb => hb (hu b List.mem_cons_self hpb)
      rw [List.filter_cons_of_neg hpb]
      exact filter_one hn'.2 ((List.mem_cons.1 hm).resolve_left fun e => hb e.symm) hp fun x hx => hu x (List.mem_cons_of_mem _ hx)

section
variable {db : DB} {rooms : List String} {pos : Nat} {ls : List (Row × Nat)}

theorem ok_facts (h : Rooms db) (ok : Ok db rooms pos ls) {l : Row × Nat} (hl : l ∈ ls) :
    l.1 ∈ db.rows ∧ l.1.room ∈ rooms ∧ latestEvent db l.1.room pos = some (some l) ∧ ∀ s ∈ db.snaps, s.id = l.2 → s.room = l.1.room := by
  obtain ⟨room, hr, e⟩ := (ok.mem l).1 hl
  obtain ⟨h1, h2, h3⟩ := latest_facts h (ev := l.1) (snap := l.2) e
  rw [h2]
  exact ⟨h1, hr, e, h3⟩

theorem ok_unique (h : Rooms db) (ok : Ok db rooms pos ls) {a b : Row × Nat} (ha : a ∈ ls) (hb : b ∈ ls) (e : a.1.room = b.1.room) : a = b := by
  have h1 := (ok_facts h ok ha).2.2.1
  have h2 := (ok_facts h ok hb).2.2.1
  rw [e, h2] at h1
  exact (Option.some.inj (Option.some.inj h1)).symm

theorem ofRoom_mem (h : Rooms db) (ok : Ok db rooms pos ls) {l : Row × Nat} (hl : l ∈ ls) : ofRoom ls l.1.room = some l := by
  unfold ofRoom
  cases hf : ls.reverse.find? fun x => decide (x.1.room = l.1.room) with
  | none => exact absurd (List.find?_eq_none.1 hf l (List.mem_reverse.2 hl)) (by simp)
  | some x =>
    have hx := List.mem_reverse.1 (List.mem_of_find?_eq_some hf)
    have he : x.1.room = l.1.room := by simpa using List.find?_some hf
    show some x = some l
    rw [ok_unique h ok hx hl he]

/-- A row that the query finds is of the room of one of the latest events, and in its snapshot. -/
theorem hit (h : Rooms db) (ok : Ok db rooms pos ls) {f : Filter} {r : Row} (hr : r ∈ db.rows) {s : Snap} (hs : s ∈ db.snaps)
    (hid : s.id ∈ ls.map (·.2)) (hn : r.nid ∈ columns f s) : ∃ l ∈ ls, l.2 = s.id ∧ l.1.room = r.room := by
  obtain ⟨l, hl, e⟩ := List.mem_map.1 hid
  obtain ⟨q, hq, hqn, hqr⟩ := h.exist s hs r.nid (columns_sub hn)
  have : q = r := row_unique h.asc hq hr hqn
  subst this
  exact ⟨l, hl, e, by rw [hqr, (ok_facts h ok hl).2.2.2 s hs e.symm]⟩

/-- What the join gives for a row of the room of a latest event. -/
theorem join_room (h : Rooms db) (ok : Ok db rooms pos ls) (f : Filter) {r : Row} (hr : r ∈ db.rows) {l : Row × Nat} (hl : l ∈ ls)
    (hroom : r.room = l.1.room) :
    ((db.snaps.filter fun s => decide (s.id ∈ ls.map (·.2))).flatMap fun s =>
      if matchesF f r.ev && decide (r.nid ∈ columns f s) then [r] else []) =
    if matchesF f r.ev && decide (r.nid ∈ (match db.snaps.find? (·.id = l.2) with | some s => columns f s | none => [])) then [r] else [] := by
  rw [flatMap_one _ l.2 (h.sids.filter _)]
  · have hsame : (db.snaps.filter fun s => decide (s.id ∈ ls.map (·.2))).find? (fun s => decide (s.id = l.2)) = db.snaps.find? fun s => decide (s.id = l.2) := by
      rw [List.find?_filter]
      congr 1
      funext s
      by_cases e : s.id = l.2
      · have : s.id ∈ ls.map (·.2) := e ▸ List.mem_map_of_mem hl
        simp [e]; exact ⟨_, hl⟩
      · simp [e]
    rw [hsame]
    cases db.snaps.find? fun s => decide (s.id = l.2) with
    | none => simp
    | some s => rfl
  · intro s hs hne
    obtain ⟨hs, hid⟩ := List.mem_filter.1 hs
    rw [if_neg]
    intro hc
    simp only [Bool.and_eq_true, decide_eq_true_eq] at hc
    obtain ⟨l', hl', e1, e2⟩ := hit h ok hr hs (by simpa using hid) hc.2
    have := ok_unique h ok hl' hl (e2.trans hroom)
    subst this
    exact hne e1.symm

/-- Nothing is found of a room without a latest event. -/
theorem join_none (h : Rooms db) (ok : Ok db rooms pos ls) (f : Filter) {r : Row} (hr : r ∈ db.rows) (hroom : ∀ l ∈ ls, l.1.room ≠ r.room) :
    ((db.snaps.filter fun s => decide (s.id ∈ ls.map (·.2))).flatMap fun s =>
      if matchesF f r.ev && decide (r.nid ∈ columns f s) then [r] else []) = [] := by
  rw [List.flatMap_eq_nil_iff]
  intro s hs
  obtain ⟨hs, hid⟩ := List.mem_filter.1 hs
  rw [if_neg]
  intro hc
  simp only [Bool.and_eq_true, decide_eq_true_eq] at hc
  obtain ⟨l', hl', -, e2⟩ := hit h ok hr hs (by simpa using hid) hc.2
  exact hroom l' hl' e2

theorem found_mem (h : Rooms db) (ok : Ok db rooms pos ls) {f : Filter} {r : Row} (hr : r ∈ found db ls f) :
    r ∈ db.rows ∧ ∃ l ∈ ls, l.1.room = r.room := by
  obtain ⟨q, hq, hm⟩ := List.mem_flatMap.1 hr
  obtain ⟨s, hs, hm⟩ := List.mem_flatMap.1 hm
  obtain ⟨hs, hid⟩ := List.mem_filter.1 hs
  split at hm
  · rename_i hc
    rw [List.mem_singleton] at hm
    subst hm
    simp only [Bool.and_eq_true, decide_eq_true_eq] at hc
    obtain ⟨l, hl, -, e⟩ := hit h ok hq hs (by simpa using hid) hc.2
    exact ⟨hq, l, hl, e⟩
  · cases hm

/-- The row that takes the place of a row. -/
def swapped (ls : List (Row × Nat)) (r : Row) : Row := ((replaced ls r).getD r)

theorem replaced_eq (h : Rooms db) (ok : Ok db rooms pos ls) {r : Row} {l : Row × Nat} (hl : l ∈ ls) (e : l.1.room = r.room) :
    replaced ls r = some (if l.1.replaces = r.nid then l.1 else r) := by
  unfold replaced
  rw [← e, ofRoom_mem h ok hl]; rfl

theorem flatMap_filter_room {g : Row → List Row} {room : String} (hg : ∀ r, ∀ x ∈ g r, x = r) : ∀ l : List Row,
    (l.flatMap g).filter (fun r => decide (r.room = room)) = l.flatMap fun r => if r.room = room then g r else []
  | [] => rfl
  | a :: l => by
    rw [List.flatMap_cons, List.filter_append, List.flatMap_cons, flatMap_filter_room hg l]
    congr 1
    by_cases ha : a.room = room
    · rw [if_pos ha]
      exact List.filter_eq_self.2 fun x hx => by rw [hg a x hx]; simp [ha]
    · rw [if_neg ha]
      exact List.filter_eq_nil_iff.2 fun x hx => by rw [hg a x hx]; simp [ha]

theorem flatMap_if (p : Row → Bool) : ∀ l : List Row, (l.flatMap fun r => if p r then [r] else []) = l.filter p
  | [] => rfl
  | a :: l => by
    rw [List.flatMap_cons, flatMap_if p l]
    cases h : p a with
    | true => rw [List.filter_cons_of_pos h]; rfl
    | false => rw [List.filter_cons_of_neg (by simp [h])]; rfl

theorem flatMap_congr' {α β : Type _} {g g' : α → List β} : ∀ {l : List α}, (∀ x ∈ l, g x = g' x) → l.flatMap g = l.flatMap g'
  | [], _ => rfl
  | a :: l, h => by rw [List.flatMap_cons, List.flatMap_cons, h a List.mem_cons_self, flatMap_congr' fun x hx => h x (List.mem_cons_of_mem _ hx)]

theorem state_eq (h : Rooms db) (ok : Ok db rooms pos ls) (f : Filter) (room : String) :
    state db ls f room = some (((found db ls f).filter fun r => decide (r.room = room)).map (swapped ls) ++
      (ls.filter fun l => decide (l.1.room = room)).flatMap fun l => added f l.1) := by
  have hsome : ∀ r ∈ found db ls f, replaced ls r = some (swapped ls r) := by
    intro r hr
    obtain ⟨-, l, hl, e⟩ := found_mem h ok hr
    unfold swapped
    rw [replaced_eq h ok hl e]; rfl
  unfold state
  rw [mapM_some hsome]
  simp only [Option.map_some, Option.some.injEq]
  congr 1
  have hroom : ∀ r ∈ found db ls f, (swapped ls r).room = r.room := by
    intro r hr
    obtain ⟨-, l, hl, e⟩ := found_mem h ok hr
    unfold swapped
    rw [replaced_eq h ok hl e]
    show (if l.1.replaces = r.nid then l.1 else r).room = r.room
    by_cases hc : l.1.replaces = r.nid
    · rw [if_pos hc]; exact e
    · rw [if_neg hc]
  rw [List.filter_map]
  congr 1
  refine List.filter_congr fun r hr => ?_
  show decide ((swapped ls r).room = room) = _
  rw [hroom r hr]

end

/-- C155: the query for many rooms succeeds, and gives each of them exactly what the query for it alone gives, in the same order, whatever
the other rooms are, in whatever order they come and whatever upstream has sent; it gives nothing for a room not asked for. -/
theorem C155_alone (ops : List Op) (rooms : List String) (hn : rooms.Nodup) (pos : Nat) (f : Filter) :
    ∃ l0, latest (run ops) rooms pos = some l0 ∧ ∀ ls, ls.Perm l0 → ∀ room,
      state (run ops) ls f room = if room ∈ rooms then stateAfterFiltered (run ops) room pos f else some [] := by
  have h := run_rooms ops
  obtain ⟨l0, e0, ok0⟩ := ok_of h hn pos
  refine ⟨l0, e0, fun ls hp room => ?_⟩
  have ok := ok0.perm hp
  rw [state_eq h ok]
  have hg : ∀ r : Row, ∀ x ∈ ((run ops).snaps.filter fun s => decide (s.id ∈ ls.map (·.2))).flatMap (fun s =>
      if matchesF f r.ev && decide (r.nid ∈ columns f s) then [r] else []), x = r := by
    intro r x hx
    obtain ⟨s, -, hx⟩ := List.mem_flatMap.1 hx
    split at hx
    · exact List.mem_singleton.1 hx
    · cases hx
  have hfound := flatMap_filter_room (room := room) hg (run ops).rows
  by_cases hex : ∃ l ∈ ls, l.1.room = room
  · obtain ⟨l, hl, e⟩ := hex
    obtain ⟨-, hroom, hlat, -⟩ := ok_facts h ok hl
    rw [e] at hroom hlat
    rw [if_pos hroom]
    have hfil : (ls.filter fun l => decide (l.1.room = room)) = [l] := by
      refine filter_one ok.nodup hl (by simp [e]) fun x hx hp => ?_
      exact ok_unique h ok hx hl ((of_decide_eq_true hp).trans e.symm)
    unfold stateAfterFiltered
    rw [hlat, hfil]
    have hf : ((found (run ops) ls f).filter fun r => decide (r.room = room)) = (run ops).rows.filter fun r => matchesF f r.ev &&
        decide (r.nid ∈ (match (run ops).snaps.find? (·.id = l.2) with | some s => columns f s | none => [])) := by
      unfold found
      rw [hfound, ← flatMap_if]
      refine flatMap_congr' fun r hr => ?_
      by_cases hrr : r.room = room
      · rw [if_pos hrr, join_room h ok f hr hl (hrr.trans e.symm)]
      · rw [if_neg hrr, if_neg]
        intro hc
        simp only [Bool.and_eq_true, decide_eq_true_eq] at hc
        cases hs : (run ops).snaps.find? (fun s => decide (s.id = l.2)) with
        | none => rw [hs] at hc; exact absurd hc.2 List.not_mem_nil
        | some s =>
          rw [hs] at hc
          have hid : s.id = l.2 := by simpa using List.find?_some hs
          obtain ⟨l', hl', e1, e2⟩ := hit h ok hr (List.mem_of_find?_eq_some hs) (hid ▸ List.mem_map_of_mem hl) hc.2
          obtain ⟨q, hq, hqn, hqr⟩ := h.exist s (List.mem_of_find?_eq_some hs) r.nid (columns_sub hc.2)
          have hqe : q = r := row_unique h.asc hq hr hqn
          have := (ok_facts h ok hl).2.2.2 s (List.mem_of_find?_eq_some hs) hid
          exact hrr (by rw [← hqe, hqr, this, e])
    rw [hf]
    simp only [List.flatMap_cons, List.flatMap_nil, List.append_nil, Option.some.injEq]
    congr 1
    refine List.map_congr_left fun r hr => ?_
    have hrm : r ∈ (found (run ops) ls f).filter fun r => decide (r.room = room) := hf ▸ hr
    have hrr : r.room = room := of_decide_eq_true (List.mem_filter.1 hrm).2
    unfold swapped
    rw [replaced_eq h ok hl (e.trans hrr.symm)]
    rfl
  · have hno : ∀ l ∈ ls, l.1.room ≠ room := fun l hl e => hex ⟨l, hl, e⟩
    have h1 : ((found (run ops) ls f).filter fun r => decide (r.room = room)) = [] := by
      refine List.filter_eq_nil_iff.2 fun r hr => ?_
      obtain ⟨-, l, hl, e⟩ := found_mem h ok hr
      intro hc
      exact hno l hl (e.trans (of_decide_eq_true hc))
    have h2 : (ls.filter fun l => decide (l.1.room = room)) = [] := List.filter_eq_nil_iff.2 fun l hl => by simp [hno l hl]
    rw [h1, h2]
    show some [] = _
    by_cases hr : room ∈ rooms
    · rw [if_pos hr]
      obtain ⟨o, ho⟩ := latest_ok h room pos
      unfold stateAfterFiltered
      cases o with
      | none => rw [ho]
      | some l =>
        have hl := (ok.mem l).2 ⟨room, hr, ho⟩
        exact absurd (latest_facts h (ev := l.1) (snap := l.2) ho).2.1 (hno l hl)
    · rw [if_neg hr]

private def cr (id : String) : Ev := { id := id, type := "m.room.create", hasKey := true }
private def nm (id : String) : Ev := { id := id, type := "m.room.name", hasKey := true }
private def mb (id u : String) : Ev := { id := id, type := "m.room.member", hasKey := true, stateKey := u }

private def exTwo : List Op :=
  [.init "!a" 0 [some (cr "$ca"), some (nm "$na"), some (mb "$ma" "@u")], .init "!b" 0 [some (cr "$cb"), some (nm "$nb")],
    .acc "!a" 0 false [some (nm "$na2")], .acc "!b" 0 false [some (mb "$mb" "@u")]]

/-- The hypotheses are met: two rooms, one whose last event replaces a name and one whose last event is a new member; each gets its own. -/
example : ["!b", "!a", "!c"].Nodup ∧
    (∃ ls, latest (run exTwo) ["!b", "!a", "!c"] 99 = some ls ∧ ls.length = 2 ∧
      (state (run exTwo) ls [("m.room.name", []), ("m.room.member", ["@u"])] "!a").map (·.map (·.ev.id)) = some ["$na2", "$ma"] ∧
      (state (run exTwo) ls [("m.room.name", []), ("m.room.member", ["@u"])] "!b").map (·.map (·.ev.id)) = some ["$nb", "$mb"]) := by
  refine ⟨by decide, ?_⟩
  · cases e : latest (run exTwo) ["!b", "!a", "!c"] 99 with
    | none => exact absurd (congrArg Option.isSome e) (by decide +kernel)
    | some ls =>
      have e' : ls = (latest (run exTwo) ["!b", "!a", "!c"] 99).getD [] := by rw [e]; rfl
      refine ⟨ls, rfl, ?_, ?_, ?_⟩ <;> rw [e'] <;> decide +kernel

end Verif.ManyRooms
