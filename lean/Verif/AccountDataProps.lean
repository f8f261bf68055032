import Verif.AccountData
import Verif.SqlUtilProps
/-! C46: last write wins per user, room and type. -/
namespace Verif.AccountData

/-! ### Specification -/

/-- All writes of a history, in order. -/
def writes (ops : List Op) : List Row :=
  ops.flatMap fun o => o.events.map fun e => ⟨o.user, o.room, e.1, e.2⟩

/-- `d` is the value last written for the given user, room and type. -/
def LastWritten (ws : List Row) (user room type d : String) : Prop :=
  ∃ a b, ws = a ++ ⟨user, room, type, d⟩ :: b ∧
    ∀ x ∈ b, ¬ (x.user = user ∧ x.room = room ∧ x.type = type)

/-! ### Lookup -/

/-- Last value for a key in a list of rows. -/
def last (l : List Row) (k : String × String × String) : Option String :=
  ((l.filter fun r => decide (r.triple = k)).getLast?).map Row.data

theorem last_snoc (l : List Row) (r : Row) (k : String × String × String) :
    last (l ++ [r]) k = if r.triple = k then some r.data else last l k := by
  simp only [last, List.filter_append, List.filter_cons, List.filter_nil]
  by_cases h : r.triple = k <;> simp [h]

theorem last_append (l l' : List Row) (k : String × String × String) :
    last (l ++ l') k = (last l' k).or (last l k) := by
  induction l' using Verif.Util.snocRec with
  | nil => simp [last]
  | append_singleton l' r ih =>
    rw [← List.append_assoc, last_snoc, last_snoc, ih]
    split <;> simp

theorem last_iff {l : List Row} (hn : (l.map Row.triple).Nodup) (k : String × String × String) (d : String) :
    last l k = some d ↔ ∃ r ∈ l, r.triple = k ∧ r.data = d := by
  induction l using Verif.Util.snocRec with
  | nil => simp [last]
  | append_singleton l x ih =>
    rw [List.map_append, List.nodup_append] at hn
    rw [last_snoc]
    by_cases h : x.triple = k
    · rw [if_pos h]
      constructor
      · intro hd; exact ⟨x, by simp, h, Option.some.inj hd⟩
      · rintro ⟨r, hr, hk, hd⟩
        rcases List.mem_append.1 hr with hr | hr
        · exact absurd (hk.trans h.symm) (hn.2.2 _ (List.mem_map_of_mem hr) _ (by simp))
        · rw [← List.mem_singleton.1 hr, hd]
    · rw [if_neg h, ih hn.1]
      constructor
      · rintro ⟨r, hr, h2⟩; exact ⟨r, by simp [hr], h2⟩
      · rintro ⟨r, hr, hk, hd⟩
        rcases List.mem_append.1 hr with hr | hr
        · exact ⟨r, hr, hk, hd⟩
        · rw [List.mem_singleton.1 hr] at hk; exact absurd hk h

theorem last_perm {l l' : List Row} (hp : l.Perm l') (hn : (l'.map Row.triple).Nodup)
    (k : String × String × String) : last l k = last l' k := by
  have hn' : (l.map Row.triple).Nodup := (hp.map Row.triple).nodup_iff.2 hn
  apply Option.ext
  intro d
  rw [last_iff hn, last_iff hn']
  constructor <;> rintro ⟨r, hr, h⟩
  · exact ⟨r, hp.mem_iff.1 hr, h⟩
  · exact ⟨r, hp.mem_iff.2 hr, h⟩

/-! ### The table -/

theorem upsert_spec {db : List Row} (hn : (db.map Row.triple).Nodup) (r : Row) :
    ((upsert db r).map Row.triple).Nodup ∧
      ∀ k, last (upsert db r) k = if r.triple = k then some r.data else last db k := by
  by_cases h : db.any (fun x => decide (x.triple = r.triple)) = true
  · have hmap : (db.map fun x => if x.triple = r.triple then r else x).map Row.triple = db.map Row.triple := by
      rw [List.map_map]
      apply List.map_congr_left
      intro x _
      simp only [Function.comp]
      split
      · rename_i hx; exact hx.symm
      · rfl
    have hup : upsert db r = db.map fun x => if x.triple = r.triple then r else x := by
      simp only [upsert]; rw [if_pos h]
    rw [hup]
    refine ⟨by rw [hmap]; exact hn, ?_⟩
    intro k
    apply Option.ext
    intro d
    rw [last_iff (by rw [hmap]; exact hn)]
    rw [List.any_eq_true] at h
    obtain ⟨y, hy, hyk⟩ := h
    have hyk : y.triple = r.triple := of_decide_eq_true hyk
    by_cases hk : r.triple = k
    · rw [if_pos hk]
      constructor
      · rintro ⟨x, hx, hxk, hd⟩
        obtain ⟨z, hz, rfl⟩ := List.mem_map.1 hx
        by_cases hzr : z.triple = r.triple
        · rw [if_pos hzr] at hd; rw [hd]
        · rw [if_neg hzr] at hxk; exact absurd (hxk.trans hk.symm) hzr
      · intro hd
        exact ⟨r, List.mem_map.2 ⟨y, hy, by rw [if_pos hyk]⟩, hk, Option.some.inj hd⟩
    · rw [if_neg hk, last_iff hn]
      constructor
      · rintro ⟨x, hx, hxk, hd⟩
        obtain ⟨z, hz, rfl⟩ := List.mem_map.1 hx
        by_cases hzr : z.triple = r.triple
        · rw [if_pos hzr] at hxk; exact absurd hxk hk
        · rw [if_neg hzr] at hxk hd; exact ⟨z, hz, hxk, hd⟩
      · rintro ⟨x, hx, hxk, hd⟩
        have hne : ¬ x.triple = r.triple := fun he => hk (he.symm.trans hxk)
        exact ⟨x, List.mem_map.2 ⟨x, hx, by rw [if_neg hne]⟩, hxk, hd⟩
  · have hup : upsert db r = db ++ [r] := by simp only [upsert]; rw [if_neg h]
    rw [hup]
    refine ⟨?_, last_snoc db r⟩
    rw [List.map_append, List.nodup_append]
    refine ⟨hn, by simp, ?_⟩
    intro a ha b hb hab
    obtain ⟨x, hx, rfl⟩ := List.mem_map.1 ha
    rw [List.map_singleton, List.mem_singleton] at hb
    apply h
    rw [List.any_eq_true]
    exact ⟨x, hx, decide_eq_true (hab.trans hb)⟩

theorem foldl_upsert_spec {db : List Row} (hn : (db.map Row.triple).Nodup) (l : List Row) :
    ((l.foldl upsert db).map Row.triple).Nodup ∧
      ∀ k, last (l.foldl upsert db) k = (last l k).or (last db k) := by
  induction l using Verif.Util.snocRec with
  | nil => exact ⟨hn, fun k => by simp [last]⟩
  | append_singleton l r ih =>
    rw [List.foldl_append]
    obtain ⟨h1, h2⟩ := upsert_spec ih.1 r
    refine ⟨h1, fun k => ?_⟩
    show last (upsert (l.foldl upsert db) r) k = _
    rw [h2, last_snoc, ih.2]
    split <;> simp

theorem execAll_spec (chunks : List (List Row)) {db : List Row} (hn : (db.map Row.triple).Nodup)
    (hf : (chunks.flatten.map Row.triple).Nodup) :
    ∃ db', execAll db chunks = some db' ∧ (db'.map Row.triple).Nodup ∧
      ∀ k, last db' k = (last chunks.flatten k).or (last db k) := by
  induction chunks using Verif.Util.snocRec with
  | nil => exact ⟨db, rfl, hn, fun k => by simp [last]⟩
  | append_singleton cs c ih =>
    have hfl : (cs ++ [c]).flatten = cs.flatten ++ c := by simp
    rw [hfl] at hf ⊢
    rw [List.map_append, List.nodup_append] at hf
    obtain ⟨d, h1, h2, h3⟩ := ih hf.1
    obtain ⟨h4, h5⟩ := foldl_upsert_spec h2 c
    refine ⟨c.foldl upsert d, ?_, h4, ?_⟩
    · simp only [execAll, List.foldl_append] at h1 ⊢
      rw [h1]
      show exec d c = _
      simp only [exec]; rw [if_pos hf.2.1]
    · intro k
      rw [h5, h3, last_append, Option.or_assoc]

/-! ### De-duplication -/

theorem dedupe_snoc (l : List Row) (r : Row) :
    dedupe (l ++ [r]) = (dedupe l).filter (fun x => decide (key x ≠ key r)) ++ [r] := by
  simp [dedupe, List.foldl_append]

theorem mem_dedupe (l : List Row) : ∀ x ∈ dedupe l, x ∈ l := by
  induction l using Verif.Util.snocRec with
  | nil => simp [dedupe]
  | append_singleton l r ih =>
    intro x hx
    rw [dedupe_snoc] at hx
    rcases List.mem_append.1 hx with hx | hx
    · exact List.mem_append.2 (Or.inl (ih x (List.mem_filter.1 hx).1))
    · exact List.mem_append.2 (Or.inr hx)

theorem dedupe_spec (l : List Row) (hinj : ∀ x ∈ l, ∀ y ∈ l, key x = key y → x.triple = y.triple) :
    ((dedupe l).map Row.triple).Nodup ∧ ∀ k, last (dedupe l) k = last l k := by
  induction l using Verif.Util.snocRec with
  | nil => exact ⟨by simp [dedupe], fun k => rfl⟩
  | append_singleton l r ih =>
    obtain ⟨h1, h2⟩ := ih fun x hx y hy => hinj x (by simp [hx]) y (by simp [hy])
    have hkey : ∀ x ∈ dedupe l, (key x = key r ↔ x.triple = r.triple) := by
      intro x hx
      refine ⟨hinj x (by simp [mem_dedupe l x hx]) r (by simp), ?_⟩
      intro ht
      simp only [Row.triple, Prod.mk.injEq] at ht
      simp only [key]; rw [ht.1, ht.2.1, ht.2.2]
    rw [dedupe_snoc]
    have hfil : ∀ k, last ((dedupe l).filter (fun x => decide (key x ≠ key r))) k =
        if r.triple = k then none else last (dedupe l) k := by
      intro k
      simp only [last, List.filter_filter]
      by_cases hk : r.triple = k
      · rw [if_pos hk]
        have : (dedupe l).filter (fun x => decide (x.triple = k) && decide (key x ≠ key r)) = [] := by
          rw [List.filter_eq_nil_iff]
          intro x hx hc
          simp only [Bool.and_eq_true, decide_eq_true_eq] at hc
          exact hc.2 ((hkey x hx).2 (hc.1.trans hk.symm))
        rw [this]; rfl
      · rw [if_neg hk]
        congr 2
        apply List.filter_congr
        intro x hx
        by_cases hxk : x.triple = k
        · have : key x ≠ key r := fun he => hk (((hkey x hx).1 he).symm.trans hxk)
          simp [hxk, this]
        · simp [hxk]
    refine ⟨?_, ?_⟩
    · rw [List.map_append, List.nodup_append]
      refine ⟨?_, by simp, ?_⟩
      · exact (List.filter_sublist.map Row.triple).nodup h1
      · intro a ha b hb hab
        obtain ⟨x, hx, rfl⟩ := List.mem_map.1 ha
        rw [List.map_singleton, List.mem_singleton] at hb
        have hx' := List.mem_filter.1 hx
        exact (of_decide_eq_true hx'.2) ((hkey x hx'.1).2 (hab.trans hb))
    · intro k
      rw [last_snoc, last_snoc, hfil, h2]
      split <;> rfl

/-- Insert succeeds whatever the map order, and overlays the last values of the batch. -/
theorem insert_spec {db accDatas : List Row} (hn : (db.map Row.triple).Nodup)
    (hinj : ∀ x ∈ accDatas, ∀ y ∈ accDatas, key x = key y → x.triple = y.triple)
    {res : Option (List Row × List Row)} (h : Insert db accDatas res) :
    ∃ db' out, res = some (db', out) ∧ (db'.map Row.triple).Nodup ∧
      (∀ k, last db' k = (last accDatas k).or (last db k)) ∧
      (out.map Row.triple).Nodup ∧ ∀ k, last out k = last accDatas k := by
  obtain ⟨ded, hp, rfl⟩ := h
  obtain ⟨h1, h2⟩ := dedupe_spec accDatas hinj
  have hnd : (ded.map Row.triple).Nodup := (hp.map Row.triple).nodup_iff.2 h1
  obtain ⟨cs, hc1, hc2, _⟩ := SqlUtil.C47_chunks
    (show 4 ≤ SqlUtil.maxPostgresParameters by decide) ded
  obtain ⟨db', h3, h4, h5⟩ := execAll_spec cs hn (by rw [hc2]; exact hnd)
  refine ⟨db', ded, by rw [hc1]; simp [h3], h4, ?_, hnd, ?_⟩
  · intro k; rw [h5, hc2, last_perm hp h1, h2]
  · intro k; rw [last_perm hp h1, h2]

theorem single_scope_inj (user room : String) (events : List (String × String)) :
    ∀ x ∈ events.map (fun e => (⟨user, room, e.1, e.2⟩ : Row)),
      ∀ y ∈ events.map (fun e => (⟨user, room, e.1, e.2⟩ : Row)), key x = key y → x.triple = y.triple := by
  intro x hx y hy h
  obtain ⟨a, _, rfl⟩ := List.mem_map.1 hx
  obtain ⟨b, _, rfl⟩ := List.mem_map.1 hy
  simp only [key] at h
  have h' := congrArg String.toList h
  simp only [String.toList_append] at h'
  have := String.toList_inj.1 (List.append_cancel_left h')
  simp [Row.triple, this]

theorem last_writes_iff (ws : List Row) (u r t d : String) :
    last ws (u, r, t) = some d ↔ LastWritten ws u r t d := by
  induction ws using Verif.Util.snocRec with
  | nil => simp [last, LastWritten]
  | append_singleton ws x ih =>
    rw [last_snoc]
    by_cases h : x.triple = (u, r, t)
    · rw [if_pos h]
      simp only [Row.triple, Prod.mk.injEq] at h
      constructor
      · intro hd
        refine ⟨ws, [], ?_, by simp⟩
        have : x = ⟨u, r, t, d⟩ := by
          obtain ⟨a, b, c, e⟩ := x
          simp only at h hd
          rw [h.1, h.2.1, h.2.2, Option.some.inj hd]
        rw [this]
      · rintro ⟨a, b, hab, hb⟩
        rcases List.eq_nil_or_concat b with rfl | ⟨b', y, rfl⟩
        · have := List.append_inj' hab rfl
          simp only [List.cons.injEq, and_true] at this
          rw [this.2]
        · have h2 : ws ++ [x] = (a ++ ⟨u, r, t, d⟩ :: b') ++ [y] := by simpa using hab
          have := List.append_inj' h2 rfl
          simp only [List.cons.injEq, and_true] at this
          exact absurd (this.2 ▸ h) (hb y (by simp))
    · rw [if_neg h, ih]
      simp only [Row.triple, Prod.mk.injEq] at h
      constructor
      · rintro ⟨a, b, rfl, hb⟩
        refine ⟨a, b ++ [x], by simp, ?_⟩
        intro y hy
        rcases List.mem_append.1 hy with hy | hy
        · exact hb y hy
        · rw [List.mem_singleton.1 hy]; exact h
      · rintro ⟨a, b, hab, hb⟩
        rcases List.eq_nil_or_concat b with rfl | ⟨b', y, rfl⟩
        · have := List.append_inj' hab rfl
          simp only [List.cons.injEq, and_true] at this
          rw [this.2] at h
          exact absurd ⟨rfl, rfl, rfl⟩ h
        · have h2 : ws ++ [x] = (a ++ ⟨u, r, t, d⟩ :: b') ++ [y] := by simpa using hab
          have := List.append_inj' h2 rfl
          exact ⟨a, b', this.1, fun z hz => hb z (by simp [hz])⟩

theorem run_spec {ops : List Op} {db : List Row} (h : Run ops db) :
    (db.map Row.triple).Nodup ∧ ∀ k, last db k = last (writes ops) k := by
  induction h with
  | nil => exact ⟨by simp, fun k => rfl⟩
  | @snoc ops db db' out o _ hins ih =>
    obtain ⟨d, o', h1, h2, h3, _⟩ := insert_spec ih.1 (single_scope_inj o.user o.room o.events) hins
    cases h1
    refine ⟨h2, fun k => ?_⟩
    rw [h3, ih.2]
    simp only [writes, List.flatMap_append, List.flatMap_cons, List.flatMap_nil, List.append_nil]
    rw [last_append]

/-! ### C46 -/

/-- In every database reachable by any calls of `InsertAccountData`, there is a row for a user, room and type
with value `d` exactly if `d` is the value last written for them, and never two rows for the same three. -/
theorem C46_last_write {ops : List Op} {db : List Row} (h : Run ops db) :
    (∀ u r t d, ⟨u, r, t, d⟩ ∈ db ↔ LastWritten (writes ops) u r t d) ∧
    db.Pairwise (fun x y => ¬ (x.user = y.user ∧ x.room = y.room ∧ x.type = y.type)) := by
  obtain ⟨h1, h2⟩ := run_spec h
  constructor
  · intro u r t d
    rw [← last_writes_iff, ← h2, last_iff h1]
    constructor
    · intro hm; exact ⟨_, hm, rfl, rfl⟩
    · rintro ⟨⟨a, b, c, e⟩, hx, hk, hd⟩
      simp only [Row.triple, Prod.mk.injEq] at hk hd
      obtain ⟨rfl, rfl, rfl⟩ := hk
      subst hd
      exact hx
  · have := List.pairwise_map.1 h1
    refine this.imp ?_
    intro x y hne hc
    exact hne (by simp [Row.triple, hc.1, hc.2.1, hc.2.2])

/-- The three queries return exactly the last written values in their scope: the given user only, and the
given types and room / the given type in any room but not globally / any of the given rooms, with no rooms
meaning the global data. -/
theorem C46_select {ops : List Op} {db : List Row} (h : Run ops db) (user : String) (x : Row) :
    (∀ types room, x ∈ select db user types room ↔
      x.user = user ∧ x.type ∈ types ∧ x.room = room ∧ LastWritten (writes ops) x.user x.room x.type x.data) ∧
    (∀ type, x ∈ selectWithType db user type ↔
      x.user = user ∧ x.type = type ∧ x.room ≠ "" ∧ LastWritten (writes ops) x.user x.room x.type x.data) ∧
    (∀ rooms, x ∈ selectMany db user rooms ↔
      x.user = user ∧ (if rooms = [] then x.room = "" else x.room ∈ rooms) ∧
        LastWritten (writes ops) x.user x.room x.type x.data) := by
  have hm := (C46_last_write h).1 x.user x.room x.type x.data
  have hm : x ∈ db ↔ LastWritten (writes ops) x.user x.room x.type x.data := hm
  refine ⟨?_, ?_, ?_⟩
  · intro types room
    simp only [select, List.mem_filter, Bool.and_eq_true, decide_eq_true_eq, List.contains_eq_mem, hm]
    constructor
    · rintro ⟨a, ⟨b, c⟩, d⟩; exact ⟨b, c, d, a⟩
    · rintro ⟨b, c, d, a⟩; exact ⟨a, ⟨b, c⟩, d⟩
  · intro type
    simp only [selectWithType, List.mem_filter, Bool.and_eq_true, decide_eq_true_eq, hm]
    constructor
    · rintro ⟨a, ⟨b, c⟩, d⟩; exact ⟨b, c, d, a⟩
    · rintro ⟨b, c, d, a⟩; exact ⟨a, ⟨b, c⟩, d⟩
  · intro rooms
    simp only [selectMany]
    cases rooms with
    | nil =>
      simp only [List.length_nil, if_true, List.mem_filter, Bool.and_eq_true, decide_eq_true_eq, hm]
      constructor
      · rintro ⟨a, b, c⟩; exact ⟨b, c, a⟩
      · rintro ⟨b, c, a⟩; exact ⟨a, b, c⟩
    | cons r rs =>
      simp only [List.length_cons, Nat.add_eq_zero_iff, Nat.succ_ne_self, and_false, if_false, reduceCtorEq,
        List.mem_filter, Bool.and_eq_true, decide_eq_true_eq, List.contains_eq_mem, hm]
      constructor
      · rintro ⟨a, b, c⟩; exact ⟨b, c, a⟩
      · rintro ⟨b, c, a⟩; exact ⟨a, b, c⟩

/-- No call fails by itself, in whatever order the map is read, and what it returns (and is announced to the
API side) is the last value of each type in the call. -/
theorem C46_insert_total {ops : List Op} {db : List Row} (h : Run ops db) (o : Op)
    {res : Option (List Row × List Row)} (hi : InsertAccountData db o.user o.room o.events res) :
    ∃ db' out, res = some (db', out) ∧ ∀ x, x ∈ out ↔
      LastWritten (o.events.map fun e => ⟨o.user, o.room, e.1, e.2⟩) x.user x.room x.type x.data := by
  obtain ⟨db', out, h1, _, _, h4, h5⟩ :=
    insert_spec (run_spec h).1 (single_scope_inj o.user o.room o.events) hi
  refine ⟨db', out, h1, ?_⟩
  intro x
  rw [← last_writes_iff, ← h5, last_iff h4]
  constructor
  · intro hm; exact ⟨x, hm, rfl, rfl⟩
  · rintro ⟨⟨a, b, c, e⟩, hx, hk, hd⟩
    obtain ⟨a', b', c', e'⟩ := x
    simp only [Row.triple, Prod.mk.injEq] at hk hd
    obtain ⟨rfl, rfl, rfl⟩ := hk
    subst hd
    exact hx

/-- Two calls, the first naming `t` twice: one row for `t`, holding the second call's value. -/
example : ∃ db, Run [⟨"@u", "!r", [("t", "1"), ("t", "2"), ("s", "3")]⟩, ⟨"@u", "!r", [("t", "4")]⟩] db ∧
    db = [⟨"@u", "!r", "t", "4"⟩, ⟨"@u", "!r", "s", "3"⟩] := by
  refine ⟨_, ?_, rfl⟩
  refine Run.snoc (ops := [⟨"@u", "!r", [("t", "1"), ("t", "2"), ("s", "3")]⟩]) (out := [⟨"@u", "!r", "t", "4"⟩])
    (Run.snoc (ops := []) (out := [⟨"@u", "!r", "t", "2"⟩, ⟨"@u", "!r", "s", "3"⟩]) (db' := [⟨"@u", "!r", "t", "2"⟩, ⟨"@u", "!r", "s", "3"⟩]) Run.nil
      ⟨_, List.Perm.refl _, by decide⟩) ⟨_, List.Perm.refl _, by decide⟩

end Verif.AccountData
