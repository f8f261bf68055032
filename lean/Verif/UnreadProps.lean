import Verif.Unread
/-! C53: unread counts converge to the last upstream value. -/
namespace Verif.Unread
open Verif

/-! ### Specification -/

/-- The highlight counts, and the notification counts, supplied for a room and user, in order. -/
def hs (room user : String) : List Op → List Int
  | [] => []
  | .update r u (some h) _ _ :: ops => if r = room ∧ u = user then h :: hs room user ops else hs room user ops
  | _ :: ops => hs room user ops

def ns (room user : String) : List Op → List Int
  | [] => []
  | .update r u _ (some n) _ :: ops => if r = room ∧ u = user then n :: ns room user ops else ns room user ops
  | _ :: ops => ns room user ops

/-- The value last supplied, zero if none was. -/
def lastOr0 (l : List Int) : Int := (l.getLast?).getD 0

/-- What is stored in a table, no row meaning zero. -/
def stored (m : List ((String × String) × Counts)) (room user : String) : Counts := (Assoc.get m (room, user)).getD (0, 0)

/-- C53 as stated, with a database that never fails: table and caches have the last values supplied. -/
def Converges : Prop := ∀ ops : List Op, (∀ r u h n ok, Op.update r u h n ok ∈ ops → ok = true) → ∀ room user,
  stored (run ops).db room user = (lastOr0 (hs room user ops), lastOr0 (ns room user ops))

/-! ### Where it fails -/

/-- A count left out is remembered as zero, so a later zero is taken for no change. -/
theorem C53_violated : ¬ Converges := by
  intro h
  have := h [.update "!r" "@a" (some 5) (some 1) true, .update "!r" "@a" none (some 1) true,
    .update "!r" "@a" (some 0) (some 1) true]
    (by intro r u h n ok hm; simp at hm; rcases hm with hm | hm | hm <;> simp [hm.2.2.2.2]) "!r" "@a"
  revert this
  decide +kernel

/-- A failed write is not repeated when upstream sends the same counts again. -/
theorem C53_violated_failure :
    stored (run [.update "!r" "@a" (some 5) (some 1) false, .update "!r" "@a" (some 5) (some 1) true]).db "!r" "@a" = (0, 0) := by
  decide +kernel

/-- Room id and user id are concatenated without separator. -/
theorem C53_violated_key :
    stored (run [.update "!r@b" "@a" (some 5) (some 1) true, .update "!r" "@b@a" (some 5) (some 1) true]).db "!r" "@b@a" = (0, 0) := by
  decide +kernel

/-! ### Where it holds -/

theorem hs_append (room user : String) (a b : List Op) : hs room user (a ++ b) = hs room user a ++ hs room user b := by
  induction a with
  | nil => rfl
  | cons o a ih =>
    cases o with
    | restart => exact ih
    | update r u h n ok =>
      cases h with
      | none => exact ih
      | some h => simp only [List.cons_append, hs, ih]; split <;> rfl

theorem ns_append (room user : String) (a b : List Op) : ns room user (a ++ b) = ns room user a ++ ns room user b := by
  induction a with
  | nil => rfl
  | cons o a ih =>
    cases o with
    | restart => exact ih
    | update r u h n ok =>
      cases n with
      | none => exact ih
      | some n => simp only [List.cons_append, ns, ih]; split <;> rfl

/-- The last counts after one more delivery. -/
def upd (c : Counts) (h n : Option Int) : Counts := (h.getD c.1, n.getD c.2)

theorem last_update (room user : String) (ops : List Op) (r u : String) (h n : Option Int) (ok : Bool) :
    (lastOr0 (hs room user (ops ++ [.update r u h n ok])), lastOr0 (ns room user (ops ++ [.update r u h n ok]))) =
      if r = room ∧ u = user then upd (lastOr0 (hs room user ops), lastOr0 (ns room user ops)) h n
      else (lastOr0 (hs room user ops), lastOr0 (ns room user ops)) := by
  rw [hs_append, ns_append]
  by_cases hru : r = room ∧ u = user
  · rw [if_pos hru]
    cases h <;> cases n <;> simp [hs, ns, hru, upd, lastOr0]
  · rw [if_neg hru]
    cases h <;> cases n <;> simp [hs, ns, hru, lastOr0]

theorem last_restart (room user : String) (ops : List Op) :
    (lastOr0 (hs room user (ops ++ [.restart])), lastOr0 (ns room user (ops ++ [.restart]))) =
      (lastOr0 (hs room user ops), lastOr0 (ns room user ops)) := by
  rw [hs_append, ns_append]; simp [hs, ns]

theorem stored_updateRow (db : List ((String × String) × Counts)) (r u room user : String) (h n : Option Int) :
    stored (updateRow db (r, u) h n) room user =
      if r = room ∧ u = user then upd (stored db room user) h n else stored db room user := by
  by_cases hru : r = room ∧ u = user
  · obtain ⟨rfl, rfl⟩ := hru
    rw [if_pos ⟨rfl, rfl⟩]
    cases h <;> cases n <;> simp only [updateRow]
    · rfl
    · cases hg : Assoc.get db (r, u) <;> simp [stored, Assoc.get_set, upd, hg]
    · cases hg : Assoc.get db (r, u) <;> simp [stored, Assoc.get_set, upd, hg]
    · simp [stored, Assoc.get_set, upd]
  · rw [if_neg hru]
    have hne : ¬ (room, user) = (r, u) := by
      intro he; simp only [Prod.mk.injEq] at he; exact hru ⟨he.1.symm, he.2.symm⟩
    cases h <;> cases n <;> simp only [updateRow]
    · cases hg : Assoc.get db (r, u) <;> simp only [stored, Assoc.get_set, if_neg hne]
    · cases hg : Assoc.get db (r, u) <;> simp only [stored, Assoc.get_set, if_neg hne]
    · simp only [stored, Assoc.get_set, if_neg hne]

theorem stored_onUnread (db : List ((String × String) × Counts)) (r u room user : String) (h n : Option Int) :
    stored (onUnread db (r, u) h n) room user =
      if r = room ∧ u = user then upd (stored db room user) h n else stored db room user := by
  by_cases hru : r = room ∧ u = user
  · obtain ⟨rfl, rfl⟩ := hru
    rw [if_pos ⟨rfl, rfl⟩]
    simp only [onUnread, stored, Assoc.get_set, if_true, Option.getD_some]
    cases hg : Assoc.get db (r, u) <;> cases h <;> cases n <;> simp [upd]
  · rw [if_neg hru]
    have hne : ¬ (room, user) = (r, u) := by
      intro he; simp only [Prod.mk.injEq] at he; exact hru ⟨he.1.symm, he.2.symm⟩
    simp only [onUnread, stored, Assoc.get_set, if_neg hne]

theorem run_snoc (ops : List Op) (op : Op) : run (ops ++ [op]) = step (run ops) op := by
  simp only [run, List.foldl_append, List.foldl_cons, List.foldl_nil]

/-- Upstream leaves a count of the room and user out only while its last value is zero. -/
def OmitsZero (room user : String) (ops : List Op) : Prop := ∀ a h n ok b, ops = a ++ .update room user h n ok :: b →
  (h = none → lastOr0 (hs room user a) = 0) ∧ (n = none → lastOr0 (ns room user a) = 0)

/-- No other room and user have the same key. -/
def OwnKey (room user : String) (ops : List Op) : Prop := ∀ r u h n ok, Op.update r u h n ok ∈ ops → r ++ u = room ++ user →
  r = room ∧ u = user

theorem OmitsZero.init {room user : String} {ops : List Op} {op : Op} (h : OmitsZero room user (ops ++ [op])) :
    OmitsZero room user ops := by
  intro a h1 n ok b he
  exact h a h1 n ok (b ++ [op]) (by rw [he]; simp)

theorem stored_filter (db : List ((String × String) × Counts)) (room user : String)
    (hn : 0 ≤ (stored db room user).1 ∧ 0 ≤ (stored db room user).2)
    (hd : (db.map (·.1)).Nodup) :
    stored (db.filter fun e => decide (0 < e.2.2) || decide (0 < e.2.1)) room user = stored db room user := by
  induction db with
  | nil => rfl
  | cons e db ih =>
    simp only [List.map_cons, List.nodup_cons] at hd
    by_cases he : e.1 = (room, user)
    · have hs : stored (e :: db) room user = e.2 := by simp [stored, Assoc.get, he]
      rw [hs] at hn ⊢
      rw [List.filter_cons]
      by_cases hp : (decide (0 < e.2.2) || decide (0 < e.2.1)) = true
      · rw [if_pos hp]; simp [stored, Assoc.get, he]
      · rw [if_neg hp]
        have hnone : Assoc.get (db.filter fun e => decide (0 < e.2.2) || decide (0 < e.2.1)) (room, user) = none := by
          cases hg : Assoc.get (db.filter fun e => decide (0 < e.2.2) || decide (0 < e.2.1)) (room, user) with
          | none => rfl
          | some v =>
            exfalso; apply hd.1
            rw [he]
            exact List.mem_map.2 ⟨_, (List.mem_filter.1 (Assoc.get_mem hg)).1, rfl⟩
        simp only [Bool.or_eq_true, decide_eq_true_eq, not_or] at hp
        simp only [stored, hnone, Option.getD_none]
        exact Prod.ext (by simp only; omega) (by simp only; omega)
    · have hs : ∀ l, stored (e :: l) room user = stored l room user := by intro l; simp [stored, Assoc.get, he]
      rw [hs] at hn ⊢
      rw [List.filter_cons]
      split
      · rw [hs]; exact ih hn hd.2
      · exact ih hn hd.2

theorem nodup_set {m : List ((String × String) × Counts)} (h : (m.map (·.1)).Nodup) (k : String × String) (v : Counts) :
    ((Assoc.set m k v).map (·.1)).Nodup := by
  simp only [Assoc.set, Assoc.del, List.map_append, List.map_cons, List.map_nil]
  rw [List.nodup_append]
  refine ⟨(List.filter_sublist.map _).nodup h, by simp, ?_⟩
  intro a ha b hb
  obtain ⟨e, he, rfl⟩ := List.mem_map.1 ha
  rw [List.mem_singleton.1 hb]
  simpa using (List.mem_filter.1 he).2

theorem db_nodup (ops : List Op) : ((run ops).db.map (·.1)).Nodup := by
  induction ops using Verif.Util.snocRec with
  | nil => simp [run]
  | append_singleton ops op ih =>
    rw [run_snoc]
    cases op with
    | restart => exact ih
    | update r u h n ok =>
      simp only [step]
      split
      · exact ih
      · cases ok
        · exact ih
        · simp only [if_true]
          cases h <;> cases n <;> simp only [updateRow]
          · exact ih
          · split <;> exact nodup_set ih _ _
          · split <;> exact nodup_set ih _ _
          · exact nodup_set ih _ _

/-- For a room and user: if the counts are not negative, the database accepts the writes, upstream leaves a count out only while it is
zero, and no other room and user have the same key, then the table, the cache, and the memory all have the last values
supplied, over any number of restarts. Missing from C53: what the three counterexamples show. -/
theorem C53_converges_partial (ops : List Op) (room user : String) (hz : OmitsZero room user ops) (hk : OwnKey room user ops)
    (hok : ∀ h n ok, Op.update room user h n ok ∈ ops → ok = true)
    (hnn : (∀ x ∈ hs room user ops, 0 ≤ x) ∧ ∀ x ∈ ns room user ops, 0 ≤ x) :
    stored (run ops).db room user = (lastOr0 (hs room user ops), lastOr0 (ns room user ops)) ∧
    stored (run ops).cache room user = (lastOr0 (hs room user ops), lastOr0 (ns room user ops)) := by
  suffices hsuf : stored (run ops).db room user = (lastOr0 (hs room user ops), lastOr0 (ns room user ops)) ∧
      stored (run ops).cache room user = (lastOr0 (hs room user ops), lastOr0 (ns room user ops)) ∧
      ∀ c, Assoc.get (run ops).mem (room ++ user) = some c → c = (lastOr0 (hs room user ops), lastOr0 (ns room user ops)) from
    ⟨hsuf.1, hsuf.2.1⟩
  induction ops using Verif.Util.snocRec with
  | nil => exact ⟨rfl, rfl, fun c h => by cases h⟩
  | append_singleton ops op ih =>
    obtain ⟨h1, h2, h3⟩ := ih hz.init (fun r u h n ok hm => hk r u h n ok (by simp [hm]))
      (fun h n ok hm => hok h n ok (by simp [hm]))
      ⟨fun x hx => hnn.1 x (by rw [hs_append]; simp [hx]), fun x hx => hnn.2 x (by rw [ns_append]; simp [hx])⟩
    have hge : 0 ≤ lastOr0 (hs room user ops) ∧ 0 ≤ lastOr0 (ns room user ops) := by
      have key : ∀ l : List Int, (∀ x ∈ l, 0 ≤ x) → 0 ≤ lastOr0 l := by
        intro l hl
        cases hg : l.getLast? with
        | none => simp [lastOr0, hg]
        | some x => simp only [lastOr0, hg, Option.getD_some]; exact hl x (List.mem_of_getLast? hg)
      exact ⟨key _ fun x hx => hnn.1 x (by rw [hs_append]; simp [hx]),
        key _ fun x hx => hnn.2 x (by rw [ns_append]; simp [hx])⟩
    rw [run_snoc]
    cases op with
    | restart =>
      rw [last_restart]
      refine ⟨h1, ?_, fun c h => by cases h⟩
      simp only [step]
      rw [stored_filter _ _ _ (by rw [h1]; exact hge) (db_nodup ops), h1]
    | update r u h n ok =>
      rw [last_update]
      by_cases hru : r = room ∧ u = user
      · obtain ⟨rfl, rfl⟩ := hru
        have hok' : ok = true := hok h n ok (by simp)
        subst hok'
        obtain ⟨hz1, hz2⟩ := hz ops h n true [] rfl
        have hor : (orZero h, orZero n) = upd (lastOr0 (hs r u ops), lastOr0 (ns r u ops)) h n := by
          cases h with
          | none => cases n with
            | none => simp [orZero, upd, hz1, hz2]
            | some n => simp [orZero, upd, hz1]
          | some h => cases n with
            | none => simp [orZero, upd, hz2]
            | some n => simp [orZero, upd]
        rw [if_pos ⟨rfl, rfl⟩, ← hor]
        simp only [step]
        by_cases hd : Assoc.get (run ops).mem (r ++ u) = some (orZero h, orZero n)
        · rw [if_pos hd]
          have := h3 _ hd
          rw [this]
          exact ⟨h1, h2, h3⟩
        · rw [if_neg hd]
          refine ⟨?_, ?_, ?_⟩
          · simp only [if_true]; rw [stored_updateRow, if_pos ⟨rfl, rfl⟩, h1, hor]
          · rw [stored_onUnread, if_pos ⟨rfl, rfl⟩, h2, hor]
          · intro c hc
            rw [Assoc.get_set, if_pos rfl] at hc
            exact (Option.some.inj hc).symm
      · rw [if_neg hru]
        have hkey : ¬ room ++ user = r ++ u := fun he => hru (hk r u h n ok (by simp) he.symm)
        simp only [step]
        split
        · exact ⟨h1, h2, h3⟩
        · refine ⟨?_, ?_, ?_⟩
          · cases ok
            · exact h1
            · simp only [if_true]; rw [stored_updateRow, if_neg hru]; exact h1
          · rw [stored_onUnread, if_neg hru]; exact h2
          · intro c hc
            rw [Assoc.get_set, if_neg hkey] at hc
            exact h3 c hc

/-- The hypotheses hold of a history with two rooms, a restart, and an omitted zero count. -/
example : stored (run [.update "!r" "@a" (some 5) (some 7) true, .update "!s" "@a" none (some 2) true, .restart,
    .update "!r" "@a" (some 0) (some 7) true, .update "!r" "@a" none (some 9) true]).db "!r" "@a" = (0, 9) := by
  refine (C53_converges_partial _ "!r" "@a" ?_ ?_ ?_ ?_).1
  · intro a h n ok b he
    match a, he with
    | [], he => simp at he; simp [← he.1.1, ← he.1.2.1]
    | [_], he => simp at he
    | [_, _], he => simp at he
    | [_, _, _], he => simp at he; obtain ⟨_, _, _, ⟨h1, h2, _⟩, _⟩ := he; simp [← h1, ← h2]
    | [_, _, _, _], he =>
      simp at he; obtain ⟨rfl, rfl, rfl, rfl, ⟨h1, h2, _⟩, _⟩ := he
      simp [← h1, ← h2, hs, lastOr0]
    | _ :: _ :: _ :: _ :: _ :: _, he => simp at he
  · intro r u h n ok hm he
    simp only [List.mem_cons, Op.update.injEq, reduceCtorEq, List.not_mem_nil, or_false, false_or] at hm
    rcases hm with hm | hm | hm | hm
    · exact ⟨hm.1, hm.2.1⟩
    · obtain ⟨rfl, rfl, _⟩ := hm; revert he; decide
    · exact ⟨hm.1, hm.2.1⟩
    · exact ⟨hm.1, hm.2.1⟩
  · intro h n ok hm
    simp at hm
    rcases hm with hm | hm | hm <;> exact hm.2.2
  · decide

end Verif.Unread
