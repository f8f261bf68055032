import Verif.Migrations
/-! # C90: migrations keep the data they should -/
namespace Verif.Migrations

open Verif.E2EE (Change)

/-! ## Specification -/

/-- The values of the `DeviceList` enum, `internal/device_lists.go`. -/
def change : Nat → Option Change
  | 1 => some .changed
  | 2 => some .left
  | _ => none

/-- What the old code has of a device, as the state of the end-to-end encryption model. -/
def oldState (o : Old) : E2EE.State :=
  { row := true, otk := o.otk, fallback := o.fallback, otkBit := o.bits.testBit 0, fbBit := o.bits.testBit 1
    new := fun u => (o.new.lookup u).bind change
    sent := fun u => (o.sent.lookup u).bind change }

/-- A bucket of a device in the new table. -/
def bucket (lists : List ListRow) (user device : String) (b : Nat) (target : String) : Option Nat :=
  (lists.find? fun r => r.key == (user, device, target, b)).map (·.state)

/-- What the new code has of a device: the keys from the row, the changes from the table. -/
def newState (db : Devices) (r : DevRow) : E2EE.State :=
  { row := true, otk := r.data.otk, fallback := r.data.fallback, otkBit := r.data.bits.testBit 0, fbBit := r.data.bits.testBit 1
    new := fun u => (bucket db.lists r.user r.device bucketNew u).bind change
    sent := fun u => (bucket db.lists r.user r.device bucketSent u).bind change }

/-- A database of the old code: one row for each device, and maps. -/
structure Valid (db : Devices) : Prop where
  devs : (db.devs.map fun r => (r.user, r.device)).Nodup
  maps : ∀ r ∈ db.devs, (r.data.new.map (·.1)).Nodup ∧ (r.data.sent.map (·.1)).Nodup

/-! ## Lemmas -/

theorem insertAll_spec (rs lists l : List ListRow) : insertAll lists rs = some l ↔
    l = lists ++ rs ∧ (rs.map ListRow.key).Nodup ∧ ∀ r ∈ rs, r.key ∉ lists.map ListRow.key := by
  induction rs generalizing lists with
  | nil => simp [insertAll, eq_comm]
  | cons r rs ih =>
    unfold insertAll
    split
    · rename_i h
      constructor
      · intro e; cases e
      · intro e; exact absurd h (e.2.2 r (by simp))
    · rename_i h
      rw [ih]
      simp only [List.append_assoc, List.singleton_append, List.map_cons, List.nodup_cons, List.map_append, List.map_nil,
        List.mem_append, List.mem_cons, List.not_mem_nil, or_false, not_or]
      constructor
      · rintro ⟨h1, h2, h3⟩
        refine ⟨h1, ⟨fun hm => ?_, h2⟩, fun x hx => ?_⟩
        · obtain ⟨y, hy, hk⟩ := List.mem_map.1 hm
          exact (h3 y hy).2 hk
        · rcases hx with hx | hx
          · subst hx; exact h
          · exact (h3 x hx).1
      · rintro ⟨h1, h2, h3⟩
        refine ⟨h1, h2.2, fun x hx => ⟨h3 x (.inr hx), fun e => h2.1 ?_⟩⟩
        rw [← e]; exact List.mem_map_of_mem hx

theorem moveAll_spec (rs : List DevRow) (lists l : List ListRow) : moveAll lists rs = some l ↔
    l = lists ++ rs.flatMap rowsOf ∧ ((rs.flatMap rowsOf).map ListRow.key).Nodup ∧
      ∀ r ∈ rs.flatMap rowsOf, r.key ∉ lists.map ListRow.key := by
  induction rs generalizing lists with
  | nil => simp [moveAll, eq_comm]
  | cons r rs ih =>
    simp only [moveAll, Option.bind_eq_some_iff, insertAll_spec, List.flatMap_cons]
    constructor
    · rintro ⟨x, ⟨rfl, h1, h2⟩, h3⟩
      obtain ⟨h4, h5, h6⟩ := (ih _).1 h3
      refine ⟨by rw [h4, List.append_assoc], ?_, ?_⟩
      · rw [List.map_append, List.nodup_append]
        refine ⟨h1, h5, fun a ha b hb e => ?_⟩
        obtain ⟨y, hy, rfl⟩ := List.mem_map.1 hb
        refine h6 y hy ?_
        rw [List.map_append, List.mem_append]
        exact .inr (e ▸ ha)
      · intro y hy
        rcases List.mem_append.1 hy with hy | hy
        · exact h2 y hy
        · intro hm
          refine h6 y hy ?_
          rw [List.map_append]
          exact List.mem_append_left _ hm
    · rintro ⟨h1, h2, h3⟩
      rw [List.map_append, List.nodup_append] at h2
      refine ⟨lists ++ rowsOf r, ⟨rfl, h2.1, fun y hy => h3 y (List.mem_append_left _ hy)⟩, (ih _).2 ⟨?_, h2.2.1, ?_⟩⟩
      · rw [h1, List.append_assoc]
      · intro y hy hm
        rw [List.map_append, List.mem_append] at hm
        rcases hm with hm | hm
        · exact h3 y (List.mem_append_right _ hy) hm
        · exact h2.2.2 _ hm _ (List.mem_map_of_mem hy) rfl

theorem rowsOf_key {r : DevRow} {x : ListRow} (h : x ∈ rowsOf r) : x.user = r.user ∧ x.device = r.device := by
  unfold rowsOf at h
  rcases List.mem_append.1 h with h | h <;> obtain ⟨p, _, rfl⟩ := List.mem_map.1 h <;> exact ⟨rfl, rfl⟩

theorem rowsOf_nodup {r : DevRow} (h : (r.data.new.map (·.1)).Nodup ∧ (r.data.sent.map (·.1)).Nodup) :
    ((rowsOf r).map ListRow.key).Nodup := by
  unfold rowsOf
  rw [List.map_append, List.map_map, List.map_map, List.nodup_append]
  have aux : ∀ (l : List (String × Nat)) (b : Nat), (l.map (·.1)).Nodup →
      (l.map (ListRow.key ∘ fun p => ⟨r.user, r.device, p.1, p.2, b⟩)).Nodup := by
    intro l b hl
    unfold List.Nodup at hl ⊢
    rw [List.pairwise_map] at hl ⊢
    refine hl.imp fun {x y} hne e => hne ?_
    simp only [Function.comp_def, ListRow.key, Prod.mk.injEq, true_and, and_true] at e
    exact e
  refine ⟨aux _ _ h.1, aux _ _ h.2, fun a ha b hb e => ?_⟩
  obtain ⟨p, _, rfl⟩ := List.mem_map.1 ha
  obtain ⟨q, _, rfl⟩ := List.mem_map.1 hb
  simp [ListRow.key, bucketNew, bucketSent] at e

theorem all_nodup {devs : List DevRow} (h1 : (devs.map fun r => (r.user, r.device)).Nodup)
    (h2 : ∀ r ∈ devs, (r.data.new.map (·.1)).Nodup ∧ (r.data.sent.map (·.1)).Nodup) :
    ((devs.flatMap rowsOf).map ListRow.key).Nodup := by
  induction devs with
  | nil => simp
  | cons r devs ih =>
    rw [List.map_cons, List.nodup_cons] at h1
    rw [List.flatMap_cons, List.map_append, List.nodup_append]
    refine ⟨rowsOf_nodup (h2 r (by simp)), ih h1.2 (fun x hx => h2 x (by simp [hx])), fun a ha b hb e => ?_⟩
    obtain ⟨x, hx, rfl⟩ := List.mem_map.1 ha
    obtain ⟨y, hy, rfl⟩ := List.mem_map.1 hb
    obtain ⟨s, hs, hys⟩ := List.mem_flatMap.1 hy
    refine h1.1 (List.mem_map.2 ⟨s, hs, ?_⟩)
    have e1 := rowsOf_key hx
    have e2 := rowsOf_key hys
    simp only [ListRow.key, Prod.mk.injEq] at e
    rw [← e1.1, ← e1.2, ← e2.1, ← e2.2, e.1, e.2.1]

theorem bucket_of_mem {lists : List ListRow} (hn : (lists.map ListRow.key).Nodup) {x : ListRow} (hx : x ∈ lists) :
    bucket lists x.user x.device x.bucket x.target = some x.state := by
  unfold bucket
  induction lists with
  | nil => cases hx
  | cons y l ih =>
    rw [List.map_cons, List.nodup_cons] at hn
    by_cases hy : y.key = x.key
    · rcases List.mem_cons.1 hx with h | h
      · subst h
        rw [List.find?_cons_of_pos (by simp [ListRow.key])]; rfl
      · exact absurd (hy ▸ List.mem_map_of_mem h) hn.1
    · rcases List.mem_cons.1 hx with h | h
      · exact absurd (by rw [h]) hy
      · rw [List.find?_cons_of_neg (by simpa [ListRow.key] using hy)]
        exact ih hn.2 h

theorem bucket_none {lists : List ListRow} {u d t : String} {b : Nat} (h : ∀ x ∈ lists, x.key ≠ (u, d, t, b)) :
    bucket lists u d b t = none := by
  unfold bucket
  rw [List.find?_eq_none.2 (fun x hx => by simpa using h x hx)]
  rfl

theorem lookup_mem {l : List (String × Nat)} {k : String} {v : Nat} (h : l.lookup k = some v) : (k, v) ∈ l := by
  induction l with
  | nil => cases h
  | cons p l ih =>
    rw [List.lookup_cons] at h
    split at h
    · rename_i hk
      cases h
      rw [beq_iff_eq] at hk
      subst hk
      simp
    · exact List.mem_cons_of_mem _ (ih h)

theorem lookup_none {l : List (String × Nat)} {k : String} (h : l.lookup k = none) : ∀ v, (k, v) ∉ l := by
  induction l with
  | nil => intro v hv; cases hv
  | cons p l ih =>
    rw [List.lookup_cons] at h
    split at h
    · cases h
    · rename_i hk
      intro v hv
      rcases List.mem_cons.1 hv with hv | hv
      · subst hv; simp at hk
      · exact ih h v hv

theorem dev_unique {devs : List DevRow} (h : (devs.map fun r => (r.user, r.device)).Nodup) {r s : DevRow} (hr : r ∈ devs) (hs : s ∈ devs)
    (e : r.user = s.user ∧ r.device = s.device) : r = s := by
  induction devs with
  | nil => cases hr
  | cons x l ih =>
    rw [List.map_cons, List.nodup_cons] at h
    rcases List.mem_cons.1 hr with hr | hr
    · rcases List.mem_cons.1 hs with hs | hs
      · rw [hr, hs]
      · exact absurd (List.mem_map.2 ⟨s, hs, by rw [← hr, e.1, e.2]⟩) h.1
    · rcases List.mem_cons.1 hs with hs | hs
      · exact absurd (List.mem_map.2 ⟨r, hr, by rw [← hs, e.1, e.2]⟩) h.1
      · exact ih h.2 hr hs

theorem bucket_lookup {db : Devices} (hv : Valid db) {r : DevRow} (hr : r ∈ db.devs) (l : List (String × Nat)) (b : Nat)
    (hb : (b = bucketNew ∧ l = r.data.new) ∨ (b = bucketSent ∧ l = r.data.sent)) (t : String) :
    bucket (db.devs.flatMap rowsOf) r.user r.device b t = l.lookup t := by
  have hmem : ∀ v, (⟨r.user, r.device, t, v, b⟩ : ListRow) ∈ rowsOf r ↔ (t, v) ∈ l := by
    intro v
    unfold rowsOf
    rcases hb with ⟨rfl, rfl⟩ | ⟨rfl, rfl⟩ <;> simp [bucketNew, bucketSent]
  cases hl : l.lookup t with
  | some v =>
    have := (hmem v).2 (lookup_mem hl)
    exact bucket_of_mem (x := ⟨r.user, r.device, t, v, b⟩) (all_nodup hv.devs hv.maps) (List.mem_flatMap.2 ⟨r, hr, this⟩)
  | none =>
    refine bucket_none fun x hx e => ?_
    obtain ⟨s, hs, hxs⟩ := List.mem_flatMap.1 hx
    obtain ⟨xu, xd, xt, xv, xb⟩ := x
    simp only [ListRow.key, Prod.mk.injEq] at e
    obtain ⟨rfl, rfl, rfl, rfl⟩ := e
    have hk := rowsOf_key hxs
    have : r = s := dev_unique hv.devs hr hs hk
    subst this
    exact lookup_none hl xv ((hmem xv).1 hxs)

/-! ## C90 -/

/-- C90: the upgrade of an old database succeeds, and afterwards the new code has for every device what the old code had: the
same keys, the same changes to send, and the same changes sent. -/
theorem C90_up (db : Devices) (hv : Valid db) (hl : db.lists = []) :
    ∃ db', up db = some db' ∧ db'.devs.map (fun r => (r.user, r.device)) = db.devs.map (fun r => (r.user, r.device)) ∧
      ∀ r ∈ db.devs, ∃ r' ∈ db'.devs, r'.user = r.user ∧ r'.device = r.device ∧ newState db' r' = oldState r.data := by
  refine ⟨⟨db.devs.map upRow, db.devs.flatMap rowsOf⟩, ?_, ?_, fun r hr => ⟨upRow r, List.mem_map_of_mem hr, ?_⟩⟩
  · unfold up
    rw [Option.map_eq_some_iff]
    exact ⟨_, (moveAll_spec _ _ _).2 ⟨by rw [hl]; rfl, all_nodup hv.devs hv.maps, by rw [hl]; simp⟩, rfl⟩
  · rw [List.map_map]
    apply List.map_congr_left
    intro r _
    simp only [Function.comp_def, upRow]
    split <;> rfl
  · have hu : (upRow r).user = r.user ∧ (upRow r).device = r.device ∧ (upRow r).data.otk = r.data.otk ∧
        (upRow r).data.fallback = r.data.fallback ∧ (upRow r).data.bits = r.data.bits := by
      unfold upRow
      split <;> exact ⟨rfl, rfl, rfl, rfl, rfl⟩
    refine ⟨hu.1, hu.2.1, ?_⟩
    unfold newState oldState
    rw [hu.1, hu.2.1, hu.2.2.1, hu.2.2.2.1, hu.2.2.2.2]
    congr 1
    · funext t
      rw [bucket_lookup hv hr _ bucketNew (.inl ⟨rfl, rfl⟩)]
    · funext t
      rw [bucket_lookup hv hr _ bucketSent (.inr ⟨rfl, rfl⟩)]

/-- C90: the upgrade fails, and changes nothing, exactly if a change is already in the new table, or twice in the old data. -/
theorem C90_up_fails (db : Devices) : up db = none ↔
    ¬ (((db.devs.flatMap rowsOf).map ListRow.key).Nodup ∧ ∀ r ∈ db.devs.flatMap rowsOf, r.key ∉ db.lists.map ListRow.key) := by
  unfold up
  rw [Option.map_eq_none_iff]
  constructor
  · intro h hc
    have := (moveAll_spec db.devs db.lists _).2 ⟨rfl, hc⟩
    rw [h] at this; cases this
  · intro h
    cases hm : moveAll db.lists db.devs with
    | none => rfl
    | some l => exact absurd ((moveAll_spec _ _ _).1 hm).2 h

/-- C90: upgrading again changes nothing. -/
theorem C90_up_again (db db' : Devices) (h : up db = some db') : up db' = some db' := by
  obtain ⟨l, hl, rfl⟩ := Option.map_eq_some_iff.1 h
  have hrows : ∀ r : DevRow, rowsOf (upRow r) = [] ∧ upRow (upRow r) = upRow r := by
    intro r
    have h1 : rowsOf (upRow r) = [] := by
      unfold upRow
      split
      · rename_i he; exact List.isEmpty_iff.1 he
      · rfl
    refine ⟨h1, ?_⟩
    rw [upRow, if_pos (by rw [h1]; rfl)]
  have hmove : ∀ (rs : List DevRow) (l : List ListRow), moveAll l (rs.map upRow) = some l := by
    intro rs
    induction rs with
    | nil => intro l; rfl
    | cons r rs ih => intro l; rw [List.map_cons, moveAll, (hrows r).1]; exact ih l
  unfold up
  rw [hmove, Option.map_some]
  congr 2
  show (db.devs.map upRow).map upRow = db.devs.map upRow
  rw [List.map_map]
  exact List.map_congr_left fun r _ => (hrows r).2

/-- C90: after the clean-up of rooms without a create event every room has one, the rooms that had one keep everything, and
nothing is left of the others. -/
theorem C90_bogus (db : Rooms) :
    (∀ r ∈ (upBogus db).rooms, ∃ e ∈ (upBogus db).events, e.type = "m.room.create" ∧ e.stateKey = some "" ∧ e.room = r.room) ∧
    (∀ room, (∃ e ∈ db.events, e.type = "m.room.create" ∧ e.stateKey = some "" ∧ e.room = room) →
      (upBogus db).rooms.filter (fun r => r.room == room) = db.rooms.filter (fun r => r.room == room) ∧
      (upBogus db).events.filter (fun r => r.room == room) = db.events.filter (fun r => r.room == room) ∧
      (upBogus db).snaps.filter (fun r => r.room == room) = db.snaps.filter (fun r => r.room == room)) ∧
    (∀ room, (∃ r ∈ db.rooms, r.room = room) → ¬ (∃ e ∈ db.events, e.type = "m.room.create" ∧ e.stateKey = some "" ∧ e.room = room) →
      (∀ r ∈ (upBogus db).rooms, r.room ≠ room) ∧ (∀ e ∈ (upBogus db).events, e.room ≠ room) ∧ ∀ s ∈ (upBogus db).snaps, s.room ≠ room) := by
  have hb : ∀ room, room ∈ bogus db ↔ (∃ r ∈ db.rooms, r.room = room) ∧
      ¬ (∃ e ∈ db.events, e.type = "m.room.create" ∧ e.stateKey = some "" ∧ e.room = room) := by
    intro room
    unfold bogus
    rw [List.mem_map]
    constructor
    · rintro ⟨r, hr, rfl⟩
      obtain ⟨h1, h2⟩ := List.mem_filter.1 hr
      refine ⟨⟨r, h1, rfl⟩, fun ⟨e, he, a, b, c⟩ => ?_⟩
      have : (db.events.any fun e => e.type == "m.room.create" && e.stateKey == some "" && e.room == r.room) = true :=
        List.any_eq_true.2 ⟨e, he, by simp [a, b, c]⟩
      rw [this] at h2; cases h2
    · rintro ⟨⟨r, h1, rfl⟩, h2⟩
      refine ⟨r, List.mem_filter.2 ⟨h1, ?_⟩, rfl⟩
      rw [Bool.not_eq_true']
      cases ha : db.events.any fun e => e.type == "m.room.create" && e.stateKey == some "" && e.room == r.room
      · rfl
      · obtain ⟨e, he, hp⟩ := List.any_eq_true.1 ha
        simp only [Bool.and_eq_true, beq_iff_eq] at hp
        exact absurd ⟨e, he, hp.1.1, hp.1.2, hp.2⟩ h2
  have hnot : ∀ room, (!(bogus db).contains room) = true ↔ room ∉ bogus db := by
    intro room; simp
  have hkeep : ∀ {α : Type} (l : List α) (f : α → String) (room : String), room ∉ bogus db →
      (l.filter fun x => !(bogus db).contains (f x)).filter (fun x => f x == room) = l.filter (fun x => f x == room) := by
    intro α l f room hr
    rw [List.filter_filter]
    apply List.filter_congr
    intro x _
    by_cases hx : f x = room
    · have := (hnot (f x)).2 (by rw [hx]; exact hr)
      rw [this]; simp [hx]
    · simp [hx]
  refine ⟨fun r hr => ?_, fun room he => ?_, fun room h1 h2 => ?_⟩
  · obtain ⟨h1, h2⟩ := List.mem_filter.1 hr
    have hn := (hnot r.room).1 h2
    have : ∃ e ∈ db.events, e.type = "m.room.create" ∧ e.stateKey = some "" ∧ e.room = r.room := by
      apply Classical.byContradiction
      intro hc
      exact hn ((hb r.room).2 ⟨⟨r, h1, rfl⟩, hc⟩)
    obtain ⟨e, he, a, b, c⟩ := this
    exact ⟨e, List.mem_filter.2 ⟨he, by rw [c]; exact h2⟩, a, b, c⟩
  · have hn : room ∉ bogus db := fun hm => ((hb room).1 hm).2 he
    exact ⟨hkeep db.rooms (·.room) room hn, hkeep db.events (·.room) room hn, hkeep db.snaps (·.room) room hn⟩
  · have hm := (hb room).2 ⟨h1, h2⟩
    refine ⟨fun r hr e => ?_, fun r hr e => ?_, fun r hr e => ?_⟩ <;>
    · have := (hnot _).1 (List.mem_filter.1 hr).2
      exact this (by rw [e]; exact hm)

/-- C90: exactly the devices of users with an unread count in an unknown room sync afresh, and exactly their invites are
forgotten. -/
theorem C90_stuck (rooms : List RoomRow) (s : Users) :
    (upStuck rooms s).unread = s.unread ∧
    (∀ u d t, (∃ r, (u, r) ∈ s.unread ∧ ∀ x ∈ rooms, x.room ≠ r) → ((u, d, t) ∈ (upStuck rooms s).devices ↔ t = "" ∧ ∃ t', (u, d, t') ∈ s.devices)) ∧
    (∀ u d t, ¬ (∃ r, (u, r) ∈ s.unread ∧ ∀ x ∈ rooms, x.room ≠ r) → ((u, d, t) ∈ (upStuck rooms s).devices ↔ (u, d, t) ∈ s.devices)) ∧
    (∀ u r, (u, r) ∈ (upStuck rooms s).invites ↔ (u, r) ∈ s.invites ∧ ¬ ∃ q, (u, q) ∈ s.unread ∧ ∀ x ∈ rooms, x.room ≠ q) := by
  have hb : ∀ u, u ∈ stuck rooms s ↔ ∃ r, (u, r) ∈ s.unread ∧ ∀ x ∈ rooms, x.room ≠ r := by
    intro u
    unfold stuck
    rw [List.mem_map]
    constructor
    · rintro ⟨⟨v, r⟩, h, rfl⟩
      obtain ⟨h1, h2⟩ := List.mem_filter.1 h
      refine ⟨r, h1, fun x hx e => ?_⟩
      have : (rooms.any fun x => x.room == r) = true := List.any_eq_true.2 ⟨x, hx, by simp [e]⟩
      simp only [this] at h2
      cases h2
    · rintro ⟨r, h1, h2⟩
      refine ⟨(u, r), List.mem_filter.2 ⟨h1, ?_⟩, rfl⟩
      simpa using h2
  refine ⟨rfl, fun u d t hu => ?_, fun u d t hu => ?_, fun u r => ?_⟩
  · have hm := (hb u).2 hu
    show (u, d, t) ∈ s.devices.map _ ↔ _
    rw [List.mem_map]
    constructor
    · rintro ⟨⟨u', d', t'⟩, h1, h2⟩
      simp only at h2
      split at h2
      · cases h2; exact ⟨rfl, t', h1⟩
      · rename_i hc
        cases h2
        exact absurd (by simpa using hm) hc
    · rintro ⟨rfl, t', h1⟩
      exact ⟨(u, d, t'), h1, by simp [hm]⟩
  · have hm : u ∉ stuck rooms s := fun h => hu ((hb u).1 h)
    show (u, d, t) ∈ s.devices.map _ ↔ _
    rw [List.mem_map]
    constructor
    · rintro ⟨⟨u', d', t'⟩, h1, h2⟩
      simp only at h2
      split at h2
      · rename_i hc
        cases h2
        exact absurd (by simpa using hc) hm
      · rw [← h2]; exact h1
    · intro h1
      exact ⟨(u, d, t), h1, by simp [hm]⟩
  · show (u, r) ∈ s.invites.filter _ ↔ _
    rw [List.mem_filter, ← hb u]
    simp

/-- C90: an invite is removed as dead exactly if the current snapshot of the room has a membership of the user which is not an
invite. -/
theorem C90_dead (db : Rooms) (invites : List Invite) (user room : String) :
    (user, room) ∈ upDead db invites ↔ (user, room) ∈ invites ∧
      ¬ ∃ r ∈ db.rooms, r.room = room ∧ ∃ s ∈ db.snaps, s.id = r.snapshot ∧ ∃ e ∈ db.events, e.nid ∈ s.members ∧
        e.stateKey = some user ∧ ∃ m, e.membership = some m ∧ m ≠ "invite" ∧ m ≠ "_invite" := by
  unfold upDead
  rw [List.mem_filter]
  refine and_congr_right fun _ => ?_
  rw [Bool.not_eq_true', ← Bool.not_eq_true]
  refine not_congr ?_
  unfold dead
  simp only [List.any_eq_true, Bool.and_eq_true, beq_iff_eq, List.contains_iff_mem]
  constructor
  · rintro ⟨r, hr, h1, s, hs, h2, e, he, ⟨h3, h4⟩, h5⟩
    refine ⟨r, hr, h1, s, hs, h2, e, he, h3, h4, ?_⟩
    cases hm : e.membership with
    | none => rw [hm] at h5; cases h5
    | some m => rw [hm] at h5; exact ⟨m, rfl, by simpa using h5⟩
  · rintro ⟨r, hr, h1, s, hs, h2, e, he, h3, h4, m, h5, h6⟩
    refine ⟨r, hr, h1, s, hs, h2, e, he, ⟨h3, h4⟩, ?_⟩
    rw [h5]
    simpa using h6

/-! ### Violations -/

def bob : DevRow := ⟨"@bob", "D", { otk := some [("curve", 5)], new := [("@alice", 1)], sent := [("@carol", 2)], bits := 1 }⟩

/-- C90 is violated by going back: the changes that were to be sent to a device are dropped with the table (the code says so). -/
theorem C90_violated_down : ∃ db', up ⟨[bob], []⟩ = some db' ∧ (down db').lists = [] ∧ (down db').devs.map (·.data.new) = [[]] ∧
    (oldState bob.data).new "@alice" = some .changed := ⟨_, rfl, by decide +kernel, by decide +kernel, by decide +kernel⟩

/-- C90 is violated by the clean-up of dead invites: a user who left and was then invited again, into a room no user of the proxy is
in, so that the stored room does not have the invite, loses the invite. -/
theorem C90_violated_reinvited :
    upDead { rooms := [⟨"!a", 7⟩], snaps := [⟨7, "!a", [3]⟩], events := [⟨3, "!a", "m.room.member", some "@bob", some "leave"⟩] }
      [("@bob", "!a")] = [] := by decide +kernel

/-- A database that meets the hypotheses, and what becomes of it. -/
example : Valid ⟨[bob, ⟨"@bob", "E", {}⟩], []⟩ ∧
    up ⟨[bob, ⟨"@bob", "E", {}⟩], []⟩ = some ⟨[⟨"@bob", "D", { otk := some [("curve", 5)], bits := 1 }⟩, ⟨"@bob", "E", {}⟩],
      [⟨"@bob", "D", "@alice", 1, 1⟩, ⟨"@bob", "D", "@carol", 2, 2⟩]⟩ := by
  refine ⟨⟨by decide, ?_⟩, by decide +kernel⟩
  intro r hr
  simp only [List.mem_cons, List.not_mem_nil, or_false] at hr
  rcases hr with rfl | rfl <;> decide

/-- The upgrade fails if the table has the row. -/
example : up ⟨[bob], [⟨"@bob", "D", "@alice", 2, 1⟩]⟩ = none := by decide +kernel

end Verif.Migrations
