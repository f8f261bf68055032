import Verif.StartPos
import Verif.StoreState
/-!
# C101: a new connection starts from exact and consistent positions

Specification: the newest stored event of a room up to a position.
-/
namespace Verif.Store

/-- `n` is the newest position of the room up to `hi`. -/
def NewestAt (db : DB) (room : String) (hi n : Nat) : Prop :=
  (∃ r ∈ db.rows, r.room = room ∧ r.nid = n) ∧ n ≤ hi ∧ ∀ q ∈ db.rows, q.room = room → q.nid ≤ hi → q.nid ≤ n

theorem slow_spec (db : DB) (hi : Nat) (room : String) (n : Nat) : slowNID db hi room = some n ↔ NewestAt db room hi n := by
  unfold slowNID NewestAt
  have hm : ∀ x, x ∈ (db.rows.filter fun r => decide (r.room = room) && decide (r.nid ≤ hi)).map (·.nid) ↔
      ∃ r ∈ db.rows, r.room = room ∧ r.nid ≤ hi ∧ r.nid = x := by
    intro x; simp [and_assoc]
  generalize (db.rows.filter fun r => decide (r.room = room) && decide (r.nid ≤ hi)).map (·.nid) = l at *
  cases l with
  | nil =>
    simp only [List.not_mem_nil, false_iff] at hm
    constructor
    · intro h; cases h
    · rintro ⟨⟨r, hr, hrr, hrn⟩, hle, _⟩
      exact absurd ⟨r, hr, hrr, by omega, hrn⟩ (hm n)
  | cons a l =>
    have hmem : l.foldl max a ∈ a :: l := by
      rcases foldl_max_mem l a with h | h
      · rw [h]; exact List.mem_cons_self
      · exact List.mem_cons_of_mem _ h
    have hge : ∀ x ∈ a :: l, x ≤ l.foldl max a := by
      intro x hx
      rcases List.mem_cons.1 hx with hx | hx
      · rw [hx]; exact (foldl_max_ge l a).1
      · exact (foldl_max_ge l a).2 x hx
    simp only [Option.some.injEq]
    obtain ⟨r, hr, hrr, hrl, hrn⟩ := (hm _).1 hmem
    constructor
    · intro h
      refine ⟨⟨r, hr, hrr, hrn.trans h⟩, by omega, fun q hq hqr hql => ?_⟩
      have := hge q.nid ((hm _).2 ⟨q, hq, hqr, hql, rfl⟩)
      omega
    · rintro ⟨⟨q, hq, hqr, hqn⟩, hle, hmax⟩
      have h1 := hge n ((hm _).2 ⟨q, hq, hqr, by omega, hqn⟩)
      have h2 := hmax r hr hrr hrl
      omega

theorem set_fold (l : List (String × Nat)) (m : List (String × Nat)) (k : String) :
    Assoc.get (l.foldl (fun m x => Assoc.set m x.1 x.2) m) k =
      (((l.filter fun x => decide (x.1 = k)).getLast?.map (·.2)).or (Assoc.get m k)) := by
  induction l using Util.snocRec with
  | nil => simp
  | append_singleton l x ih =>
    rw [List.foldl_append, List.filter_append]
    simp only [List.foldl_cons, List.foldl_nil, Assoc.get_set]
    by_cases h : k = x.1
    · subst h; simp
    · rw [if_neg h, ih]; simp [Ne.symm h]

theorem last_const {α : Type} {l : List (String × α)} {k : String} {v : Option α}
    (hs : ∀ x ∈ l, x.1 = k → v = some x.2) (hv : ∀ a, v = some a → (k, a) ∈ l) :
    (l.filter fun x => decide (x.1 = k)).getLast?.map (·.2) = v := by
  cases h : (l.filter fun x => decide (x.1 = k)).getLast? with
  | some x =>
    have := List.mem_filter.1 (List.mem_of_getLast? h)
    rw [hs x this.1 (by simpa using this.2)]; rfl
  | none =>
    rw [List.getLast?_eq_none_iff] at h
    cases hv' : v with
    | none => rfl
    | some a =>
      have : (k, a) ∈ l.filter fun x => decide (x.1 = k) := List.mem_filter.2 ⟨hv a hv', by simp⟩
      rw [h] at this; cases this

theorem latest_get (db : DB) (hi : Nat) (rooms : List String) (room : String) :
    Assoc.get (latestNIDs db hi rooms) room =
      if room ∈ rooms then
        if 0 < db.latest room ∧ db.latest room ≤ hi then some (db.latest room) else slowNID db hi room
      else none := by
  unfold latestNIDs
  simp only
  rw [set_fold]
  have hfast : ∀ (rs : List String) (m : List (String × Nat)), rs.foldl (fun m r => Assoc.set m r (db.latest r)) m =
      (rs.map fun r => (r, db.latest r)).foldl (fun m x => Assoc.set m x.1 x.2) m := by
    intro rs; induction rs with
    | nil => intro m; rfl
    | cons r rs ih => intro m; simp only [List.foldl_cons, List.map_cons]; exact ih _
  rw [hfast, set_fold]
  have hnil : Assoc.get ([] : List (String × Nat)) room = none := rfl
  rw [hnil]
  by_cases hc : 0 < db.latest room ∧ db.latest room ≤ hi
  · have h1 : ((List.filterMap (fun r => (slowNID db hi r).map fun n => (r, n))
        (rooms.filter fun r => !(decide (0 < db.latest r) && decide (db.latest r ≤ hi)))).filter fun x => decide (x.1 = room)).getLast?.map (·.2) =
        none := by
      refine last_const ?_ (fun a h => by cases h)
      intro x hx hxr
      obtain ⟨r, hr, hrx⟩ := List.mem_filterMap.1 hx
      obtain ⟨n, _, rfl⟩ := Option.map_eq_some_iff.1 hrx
      have := (List.mem_filter.1 hr).2
      simp only at hxr
      rw [hxr] at this
      simp [hc] at this
    rw [h1, if_pos hc]
    by_cases hr : room ∈ rooms
    · rw [if_pos hr]
      have : ((List.map (fun r => (r, db.latest r)) (rooms.filter fun r => decide (0 < db.latest r) && decide (db.latest r ≤ hi))).filter
          fun x => decide (x.1 = room)).getLast?.map (·.2) = some (db.latest room) := by
        refine last_const ?_ ?_
        · intro x hx hxr
          obtain ⟨r, _, rfl⟩ := List.mem_map.1 hx
          simp only at hxr; rw [hxr]
        · intro a h; cases h
          exact List.mem_map.2 ⟨room, List.mem_filter.2 ⟨hr, by simp [hc]⟩, rfl⟩
      rw [this]; rfl
    · rw [if_neg hr]
      have : ((List.map (fun r => (r, db.latest r)) (rooms.filter fun r => decide (0 < db.latest r) && decide (db.latest r ≤ hi))).filter
          fun x => decide (x.1 = room)).getLast?.map (·.2) = none := by
        refine last_const ?_ (fun a h => by cases h)
        intro x hx hxr
        obtain ⟨r, hr', rfl⟩ := List.mem_map.1 hx
        simp only at hxr; rw [hxr] at hr'
        exact absurd (List.mem_filter.1 hr').1 hr
      rw [this]; rfl
  · have h2 : ((List.map (fun r => (r, db.latest r)) (rooms.filter fun r => decide (0 < db.latest r) && decide (db.latest r ≤ hi))).filter
          fun x => decide (x.1 = room)).getLast?.map (·.2) = none := by
      refine last_const ?_ (fun a h => by cases h)
      intro x hx hxr
      obtain ⟨r, hr', rfl⟩ := List.mem_map.1 hx
      have := (List.mem_filter.1 hr').2
      simp only at hxr; rw [hxr] at this
      exact absurd (by simpa using this) hc
    rw [h2, if_neg hc]
    have h1 : ((List.filterMap (fun r => (slowNID db hi r).map fun n => (r, n))
        (rooms.filter fun r => !(decide (0 < db.latest r) && decide (db.latest r ≤ hi)))).filter fun x => decide (x.1 = room)).getLast?.map (·.2) =
        if room ∈ rooms then slowNID db hi room else none := by
      refine last_const ?_ ?_
      · intro x hx hxr
        obtain ⟨r, hr, hrx⟩ := List.mem_filterMap.1 hx
        obtain ⟨n, hn, rfl⟩ := Option.map_eq_some_iff.1 hrx
        simp only at hxr
        subst hxr
        rw [if_pos (List.mem_filter.1 hr).1]; exact hn
      · intro a h
        by_cases hr : room ∈ rooms
        · rw [if_pos hr] at h
          have hd : (!(decide (0 < db.latest room) && decide (db.latest room ≤ hi))) = true := by
            simp only [Bool.not_eq_true', Bool.and_eq_false_iff, decide_eq_false_iff_not]; omega
          exact List.mem_filterMap.2 ⟨room, List.mem_filter.2 ⟨hr, hd⟩, by rw [h]; rfl⟩
        · rw [if_neg hr] at h; cases h
    rw [h1]
    simp

/-! ## The theorems -/

/-- For each room asked for, the result is the newest stored position of the room up to the given one; there is none if the room has no
event up to it. -/
theorem C101_exact (ops : List Op) (hok : ∀ o ∈ ops, OkOp o) (hi : Nat) (rooms : List String) (room : String) (hr : room ∈ rooms) (n : Nat) :
    Assoc.get (latestNIDs (run ops) hi rooms) room = some n ↔ NewestAt (run ops) room hi n := by
  have h := run_spec ops hok
  rw [latest_get, if_pos hr]
  by_cases hc : 0 < (run ops).latest room ∧ (run ops).latest room ≤ hi
  · rw [if_pos hc, Option.some.injEq]
    obtain ⟨h1, h2⟩ := h.latest room
    obtain ⟨r, hr1, hr2, hr3⟩ := h2 (by omega)
    constructor
    · rintro rfl
      exact ⟨⟨r, hr1, hr3, hr2⟩, hc.2, fun q hq hqr _ => h1 q hq hqr⟩
    · rintro ⟨⟨q, hq, hqr, hqn⟩, hle, hmax⟩
      have := h1 q hq hqr
      have := hmax r hr1 hr3 (by omega)
      omega
  · rw [if_neg hc, slow_spec]

/-- Only rooms asked for are in the result. -/
theorem C101_only (db : DB) (hi : Nat) (rooms : List String) (room : String) (hr : room ∉ rooms) :
    Assoc.get (latestNIDs db hi rooms) room = none := by rw [latest_get, if_neg hr]

theorem highest_ge (db : DB) : ∀ r ∈ db.rows, r.nid ≤ highest db := fun _ hr =>
  (foldl_max_ge _ 0).2 _ (List.mem_map_of_mem hr)

theorem run_ext (ops ops' : List Op) (hok : ∀ o ∈ ops ++ ops', OkOp o) : Ext (run ops) (run (ops ++ ops')) := by
  induction ops' using Util.snocRec with
  | nil => rw [List.append_nil]; exact Ext.refl _
  | append_singleton ops' o ih =>
    have hok' : ∀ o ∈ ops ++ ops', OkOp o := fun x hx => hok x (by
      rcases List.mem_append.1 hx with hx | hx
      · exact List.mem_append_left _ hx
      · exact List.mem_append_right _ (List.mem_append_left _ hx))
    have : run (ops ++ (ops' ++ [o])) = step (run (ops ++ ops')) o := by
      rw [← List.append_assoc]; simp [run]
    rw [this]
    exact (ih hok').trans (step_spec (run_spec _ hok') o (hok o (by simp))).2

theorem highest_seq (ops : List Op) (hok : ∀ o ∈ ops, OkOp o) : highest (run ops) ≤ (run ops).seq := by
  have hI := (run_spec ops hok).inv
  unfold highest
  rcases foldl_max_mem ((run ops).rows.map (·.nid)) 0 with h | h
  · rw [h]; exact Nat.zero_le _
  · obtain ⟨r, hr, he⟩ := List.mem_map.1 h
    rw [← he]; exact (hI.range r hr).2

/-- What is stored between the first query and the later ones does not matter: the positions are those of the time of the first query,
so that together they are one consistent start. -/
theorem C101_stable (ops ops' : List Op) (hok : ∀ o ∈ ops ++ ops', OkOp o) (rooms : List String) (room : String) :
    Assoc.get (latestNIDs (run (ops ++ ops')) (highest (run ops)) rooms) room =
      Assoc.get (latestNIDs (run ops) (highest (run ops)) rooms) room := by
  by_cases hr : room ∈ rooms
  · have hok1 : ∀ o ∈ ops, OkOp o := fun o ho => hok o (List.mem_append_left _ ho)
    have hE := run_ext ops ops' hok
    have hseq := highest_seq ops hok1
    have key : ∀ n, NewestAt (run (ops ++ ops')) room (highest (run ops)) n ↔ NewestAt (run ops) room (highest (run ops)) n := by
      intro n
      constructor
      · rintro ⟨⟨r, hr1, hr2, hr3⟩, h2, h3⟩
        obtain ⟨q, hq, hc⟩ := hE.back hr1 (by omega)
        obtain ⟨c1, c2, _⟩ := core_eq hc
        refine ⟨⟨q, hq, c2.trans hr2, c1.trans hr3⟩, h2, fun x hx hxr hxl => ?_⟩
        obtain ⟨y, hy, hyc⟩ := hE.fwd hx
        obtain ⟨d1, d2, _⟩ := core_eq hyc
        have := h3 y hy (d2.trans hxr) (by omega)
        omega
      · rintro ⟨⟨r, hr1, hr2, hr3⟩, h2, h3⟩
        obtain ⟨q, hq, hc⟩ := hE.fwd hr1
        obtain ⟨c1, c2, _⟩ := core_eq hc
        refine ⟨⟨q, hq, c2.trans hr2, c1.trans hr3⟩, h2, fun x hx hxr hxl => ?_⟩
        obtain ⟨y, hy, hyc⟩ := hE.back hx (by omega)
        obtain ⟨d1, d2, _⟩ := core_eq hyc
        have := h3 y hy (d2.trans hxr) (by omega)
        omega
    have e1 := C101_exact (ops ++ ops') hok (highest (run ops)) rooms room hr
    have e2 := C101_exact ops hok1 (highest (run ops)) rooms room hr
    cases h1 : Assoc.get (latestNIDs (run (ops ++ ops')) (highest (run ops)) rooms) room with
    | some n => exact ((e2 n).2 ((key n).1 ((e1 n).1 h1))).symm
    | none =>
      cases h2 : Assoc.get (latestNIDs (run ops) (highest (run ops)) rooms) room with
      | none => rfl
      | some n => rw [(e1 n).2 ((key n).2 ((e2 n).1 h2))] at h1; cases h1
  · rw [C101_only _ _ _ _ hr, C101_only _ _ _ _ hr]

/-- At the time of the first query the position of a room is that of its last event. -/
theorem C101_last (ops : List Op) (hok : ∀ o ∈ ops, OkOp o) (rooms : List String) (room : String) (hr : room ∈ rooms) (r : Row)
    (hm : r ∈ (run ops).rows) (hrr : r.room = room) :
    ∃ n, Assoc.get (latestNIDs (run ops) (highest (run ops)) rooms) room = some n ∧ r.nid ≤ n ∧ n ≤ highest (run ops) := by
  have h := run_spec ops hok
  obtain ⟨h1, h2⟩ := h.latest room
  have hp := (h.inv.range r hm).1
  have hle := h1 r hm hrr
  obtain ⟨q, hq, hqn, hqr⟩ := h2 (by omega)
  have hh := highest_ge _ q hq
  refine ⟨(run ops).latest room, (C101_exact ops hok _ rooms room hr _).2 ⟨⟨q, hq, hqr, hqn⟩, by omega, fun x hx hxr _ => h1 x hx hxr⟩, hle, by omega⟩

/-- The example: two rooms; a message is stored between the queries. -/
example :
    let c : String → Ev := fun i => { id := i, type := "m.room.create", hasKey := true }
    let m : String → Ev := fun i => { id := i, type := "m.room.message" }
    let ops := [Op.acc "!a" 0 false [some (c "$a"), some (m "$1")], .acc "!b" 0 false [some (c "$b"), some (m "$2")]]
    highest (run ops) = 4 ∧
      latestNIDs (run (ops ++ [.acc "!a" 0 false [some (m "$3")]])) 4 ["!a", "!b", "!x"] = [("!b", 4), ("!a", 2)] := by
  decide +kernel

end Verif.Store
