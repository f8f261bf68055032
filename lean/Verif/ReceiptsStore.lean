import Verif.ReceiptsProps
/-! C66: what the receipt tables hold after deliveries (state/receipt_table.go 62-163). -/
namespace Verif.Receipts

/-! ### Specification -/

abbrev UKey := String × String × String

/-- The event and timestamp held for a room, user and thread. -/
def held (t : List Receipt) (k : UKey) : Option (String × Int) :=
  (t.find? fun x => decide (x.ukey = k)).map fun x => (x.event, x.ts)

/-- A table: one row per key. -/
def Table (t : List Receipt) : Prop := (t.map Receipt.ukey).Nodup

/-- The receipt is news: nothing, or another event, is held for its key. -/
def News (t : List Receipt) (r : Receipt) : Prop := ∀ p, held t r.ukey = some p → p.1 ≠ r.event

instance (t : List Receipt) (r : Receipt) : Decidable (News t r) :=
  match h : held t r.ukey with
  | none => .isTrue fun p hp => by rw [h] at hp; cases hp
  | some p =>
    if hp : p.1 = r.event then .isFalse fun hn => hn p h hp
    else .isTrue fun q hq => by rw [h] at hq; cases hq; exact hp

/-! ### Lemmas -/

theorem held_isSome (t : List Receipt) (k : UKey) : (held t k).isSome = true ↔ k ∈ t.map Receipt.ukey := by
  simp only [held, Option.isSome_map, List.find?_isSome, decide_eq_true_eq, List.mem_map]

theorem held_none (t : List Receipt) (k : UKey) : held t k = none ↔ k ∉ t.map Receipt.ukey := by
  rw [← held_isSome]; cases held t k <;> simp

theorem held_append {t : List Receipt} {r : Receipt} (h : held t r.ukey = none) (k : UKey) :
    held (t ++ [r]) k = if r.ukey = k then some (r.event, r.ts) else held t k := by
  simp only [held, List.find?_append] at *
  by_cases hk : r.ukey = k
  · subst hk
    rw [if_pos rfl]
    have : (t.find? fun x => decide (x.ukey = r.ukey)) = none := by simpa using h
    rw [this]; simp
  · rw [if_neg hk]
    have : ([r].find? fun x => decide (x.ukey = k)) = none := by simp [hk]
    rw [this, Option.or_none]

theorem held_map {t : List Receipt} {r : Receipt} (k : UKey) (hr : (held t r.ukey).isSome = true) :
    held (t.map fun x => if x.ukey = r.ukey then { x with event := r.event, ts := r.ts } else x) k =
      if r.ukey = k then some (r.event, r.ts) else held t k := by
  induction t with
  | nil => simp [held] at hr
  | cons x t ih =>
    simp only [held, List.map_cons, List.find?_cons] at ih hr ⊢
    by_cases hx : x.ukey = r.ukey
    · have hxx : ({ x with event := r.event, ts := r.ts } : Receipt).ukey = r.ukey := hx
      simp only [hx, if_true, hxx]
      by_cases hk : r.ukey = k
      · simp [hk]
      · simp only [hk, decide_false, if_false]
        by_cases hin : (List.find? (fun x => decide (x.ukey = r.ukey)) t).isSome = true
        · have := ih (by rw [Option.isSome_map]; exact hin)
          rw [if_neg hk] at this
          exact this
        · have hnot : ∀ y ∈ t, y.ukey ≠ r.ukey := by
            intro y hy he
            exact hin (List.find?_isSome.2 ⟨y, hy, by simp [he]⟩)
          have : (t.map fun x => if x.ukey = r.ukey then { x with event := r.event, ts := r.ts } else x) = t := by
            rw [List.map_congr_left (g := id)]
            · simp
            · intro y hy; simp [hnot y hy]
          rw [this]
    · simp only [hx, if_false]
      by_cases hk : x.ukey = k
      · have : r.ukey ≠ k := fun h => hx (hk.trans h.symm)
        simp [hk, this]
      · simp only [hk, decide_false]
        simp only [hx, decide_false] at hr
        exact ih hr

theorem upsert_spec (isPriv : Bool) {t : List Receipt} (ht : Table t) (r : Receipt) :
    Table (upsert isPriv t r).1 ∧
    (∀ k, held (upsert isPriv t r).1 k = if r.ukey = k ∧ News t r then some (r.event, r.ts) else held t k) ∧
    (upsert isPriv t r).2 = if News t r then some { r with priv := isPriv } else none := by
  cases hf : t.find? fun x => decide (x.ukey = r.ukey) with
  | none =>
    have hn : held t r.ukey = none := by simp only [held, hf, Option.map_none]
    have hnews : News t r := fun p hp => by rw [hn] at hp; cases hp
    have hu : upsert isPriv t r = (t ++ [{ r with priv := isPriv }], some { r with priv := isPriv }) := by
      simp only [upsert, hf]
    rw [hu, if_pos hnews]
    simp only [hnews, and_true]
    refine ⟨?_, ?_⟩
    · rw [Table, List.map_append, List.nodup_append]
      refine ⟨ht, by simp, ?_⟩
      intro a ha b hb hab
      simp only [List.map_cons, List.map_nil, List.mem_singleton] at hb
      exact (held_none t r.ukey).1 hn (by rw [show r.ukey = a from hb ▸ hab.symm]; exact ha)
    · intro k
      exact held_append (r := { r with priv := isPriv }) hn k
  | some old =>
    have hh : held t r.ukey = some (old.event, old.ts) := by simp only [held, hf, Option.map_some]
    by_cases he : old.event = r.event
    · have hnews : ¬ News t r := fun h => h _ hh he
      have hu : upsert isPriv t r = (t, none) := by
        simp only [upsert, hf]; rw [if_neg (fun h => h he)]
      rw [hu, if_neg hnews]
      simp only [hnews, and_false, if_false]
      exact ⟨ht, fun _ => trivial, trivial⟩
    · have hnews : News t r := fun p hp => by rw [hh] at hp; cases hp; exact he
      have hu : upsert isPriv t r =
          (t.map fun x => if x.ukey = r.ukey then { x with event := r.event, ts := r.ts } else x,
           some { r with priv := isPriv }) := by
        simp only [upsert, hf]; rw [if_pos he]
      rw [hu, if_pos hnews]
      simp only [hnews, and_true]
      refine ⟨?_, fun k => held_map k (by rw [hh]; rfl)⟩
      have : (t.map fun x => if x.ukey = r.ukey then { x with event := r.event, ts := r.ts } else x).map Receipt.ukey =
          t.map Receipt.ukey := by
        rw [List.map_map]
        apply List.map_congr_left
        intro x _
        simp only [Function.comp]
        split <;> rfl
      rw [Table, this]; exact ht

theorem upsertAll_snoc (isPriv : Bool) (t rs : List Receipt) (r : Receipt) : upsertAll isPriv t (rs ++ [r]) =
    ((upsert isPriv (upsertAll isPriv t rs).1 r).1,
     (upsertAll isPriv t rs).2 ++ (upsert isPriv (upsertAll isPriv t rs).1 r).2.toList) := by
  simp only [upsertAll, List.foldl_append, List.foldl_cons, List.foldl_nil]

theorem upsertAll_append (isPriv : Bool) (t a b : List Receipt) : upsertAll isPriv t (a ++ b) =
    ((upsertAll isPriv (upsertAll isPriv t a).1 b).1,
     (upsertAll isPriv t a).2 ++ (upsertAll isPriv (upsertAll isPriv t a).1 b).2) := by
  induction b using Verif.Util.snocRec with
  | nil => simp [upsertAll]
  | append_singleton b r ih =>
    rw [← List.append_assoc, upsertAll_snoc, ih, upsertAll_snoc]
    simp

/-- Rows with distinct keys: each is compared with what was held at the start. -/
theorem upsertAll_spec (isPriv : Bool) {t : List Receipt} (ht : Table t) (rs : List Receipt)
    (hn : (rs.map Receipt.ukey).Nodup) :
    Table (upsertAll isPriv t rs).1 ∧
    (∀ k, k ∉ rs.map Receipt.ukey → held (upsertAll isPriv t rs).1 k = held t k) ∧
    (∀ r ∈ rs, held (upsertAll isPriv t rs).1 r.ukey = if News t r then some (r.event, r.ts) else held t r.ukey) ∧
    (upsertAll isPriv t rs).2 = (rs.filter fun r => decide (News t r)).map fun r => { r with priv := isPriv } := by
  induction rs using Verif.Util.snocRec with
  | nil => exact ⟨ht, fun _ _ => rfl, by simp, rfl⟩
  | append_singleton rs r ih =>
    rw [List.map_append, List.nodup_append] at hn
    obtain ⟨h1, h2, h3, h4⟩ := ih hn.1
    have hr : r.ukey ∉ rs.map Receipt.ukey := fun h => hn.2.2 _ h _ (by simp) rfl
    have hsame : News (upsertAll isPriv t rs).1 r ↔ News t r := by rw [News, News, h2 _ hr]
    obtain ⟨u1, u2, u3⟩ := upsert_spec isPriv h1 r
    rw [upsertAll_snoc]
    simp only [hsame] at u2 u3 ⊢
    refine ⟨u1, ?_, ?_, ?_⟩
    · intro k hk
      rw [List.map_append, List.mem_append] at hk
      rw [u2, if_neg, h2 k (fun h => hk (Or.inl h))]
      rintro ⟨he, _⟩
      exact hk (Or.inr (by simp [he]))
    · intro x hx
      rcases List.mem_append.1 hx with hx | hx
      · rw [u2, if_neg]
        · exact h3 x hx
        · rintro ⟨he, _⟩
          exact hr (he ▸ List.mem_map_of_mem hx)
      · rw [List.mem_singleton.1 hx, u2, h2 _ hr]; simp
    · rw [h4, u3, List.filter_append, List.map_append]
      congr 1
      by_cases hnr : News t r
      · simp [hnr]
      · simp [hnr]

theorem execs_spec (isPriv : Bool) (t new : List Receipt) (chunks : List (List Receipt))
    (hn : (chunks.flatten.map Receipt.ukey).Nodup) :
    chunks.foldl (fun a c => a.bind (exec isPriv · c)) (some (t, new)) =
      some ((upsertAll isPriv t chunks.flatten).1, new ++ (upsertAll isPriv t chunks.flatten).2) := by
  induction chunks generalizing t new with
  | nil => simp [upsertAll]
  | cons c chunks ih =>
    rw [List.flatten_cons, List.map_append, List.nodup_append] at hn
    rw [List.foldl_cons, Option.bind_some]
    have he : exec isPriv (t, new) c = some ((upsertAll isPriv t c).1, new ++ (upsertAll isPriv t c).2) := by
      simp only [exec]; rw [if_pos hn.1]
    rw [he, ih _ _ hn.2.1, List.flatten_cons, upsertAll_append]
    simp

theorem bulkInsert_spec (isPriv : Bool) (t rs : List Receipt) (hn : (rs.map Receipt.ukey).Nodup) :
    bulkInsert isPriv t rs = some (upsertAll isPriv t rs) := by
  unfold bulkInsert
  by_cases h0 : rs.length = 0
  · rw [if_pos h0, List.length_eq_zero_iff.1 h0]; rfl
  · rw [if_neg h0]
    obtain ⟨cs, h1, h2, _, _⟩ := SqlUtil.C47_chunks (n := 5) (m := SqlUtil.maxPostgresParameters) (by decide) rs
    rw [h1, Option.bind_some, execs_spec _ _ _ _ (by rw [h2]; exact hn), h2]
    simp

theorem bulkInsert_dup (isPriv : Bool) (t rs : List Receipt) (hn : ¬ (rs.map Receipt.ukey).Nodup)
    (hlen : rs.length ≤ 13107) : bulkInsert isPriv t rs = none := by
  have h0 : rs.length ≠ 0 := by
    intro h; rw [List.length_eq_zero_iff.1 h] at hn; simp at hn
  unfold bulkInsert
  rw [if_neg h0]
  have : SqlUtil.chunkify 5 SqlUtil.maxPostgresParameters rs = some [rs] := by
    simp only [SqlUtil.chunkify, SqlUtil.chunkifyFuel]
    rw [if_pos (by simp only [SqlUtil.maxPostgresParameters]; omega)]
  rw [this]
  simp only [Option.bind_some, List.foldl_cons, List.foldl_nil, exec]
  rw [if_neg hn]

/-! ### C66 -/

/-- One delivery, with at most one receipt per user and thread of each kind: it is stored whatever the order the maps are
read in; afterwards each delivered receipt's event is the one held, its timestamp is held too if the event
changed, nothing else changed, and the receipts reported are exactly those whose event changed. -/
theorem C66_insert {db : DB} (hp : Table db.pub) (hq : Table db.priv) {room : String} {edu : Edu} {res : Option (DB × List Receipt)}
    {pub priv : List Receipt} (hu : Unpack room edu pub priv) (hn : (pub.map Receipt.ukey).Nodup)
    (hn' : (priv.map Receipt.ukey).Nodup) (h : Insert db room edu res) :
    ∃ db' new, res = some (db', new) ∧ Table db'.pub ∧ Table db'.priv ∧
      (∀ k, k ∉ pub.map Receipt.ukey → held db'.pub k = held db.pub k) ∧
      (∀ k, k ∉ priv.map Receipt.ukey → held db'.priv k = held db.priv k) ∧
      (∀ r ∈ pub, held db'.pub r.ukey = if News db.pub r then some (r.event, r.ts) else held db.pub r.ukey) ∧
      (∀ r ∈ priv, held db'.priv r.ukey = if News db.priv r then some (r.event, r.ts) else held db.priv r.ukey) ∧
      (∀ r, r ∈ new ↔ (r ∈ pub ∧ News db.pub r) ∨ (r ∈ priv ∧ News db.priv r)) := by
  obtain ⟨pub', priv', hu', hres⟩ := h
  -- the order in which the maps were read does not matter
  have hperm : pub'.Perm pub ∧ priv'.Perm priv := by
    unfold Unpack at hu hu'
    split at hu
    · rename_i ht
      rw [if_pos ht] at hu'
      rw [hu.1, hu.2, hu'.1, hu'.2]; exact ⟨List.Perm.refl _, List.Perm.refl _⟩
    · rename_i ht
      rw [if_neg ht] at hu'
      exact ⟨hu'.1.trans hu.1.symm, hu'.2.trans hu.2.symm⟩
  have hflag : (∀ r ∈ pub, r.priv = false) ∧ (∀ r ∈ priv, r.priv = true) := by
    by_cases ht : edu.type = "m.receipt"
    · exact ⟨fun r hr => (((mem_unpack ht hu).1 r).1 hr).1, fun r hr => (((mem_unpack ht hu).2 r).1 hr).1⟩
    · rw [Unpack, if_pos ht] at hu
      rw [hu.1, hu.2]; simp
  have m1 : (pub'.map Receipt.ukey).Nodup := (hperm.1.map _).nodup_iff.2 hn
  have m2 : (priv'.map Receipt.ukey).Nodup := (hperm.2.map _).nodup_iff.2 hn'
  rw [bulkInsert_spec _ _ _ m1, bulkInsert_spec _ _ _ m2] at hres
  obtain ⟨a1, a2, a3, a4⟩ := upsertAll_spec false hp pub' m1
  obtain ⟨b1, b2, b3, b4⟩ := upsertAll_spec true hq priv' m2
  refine ⟨⟨(upsertAll false db.pub pub').1, (upsertAll true db.priv priv').1⟩,
    (upsertAll false db.pub pub').2 ++ (upsertAll true db.priv priv').2, hres, a1, b1, ?_, ?_, ?_, ?_, ?_⟩
  · intro k hk; exact a2 k (fun h => hk ((hperm.1.map _).mem_iff.1 h))
  · intro k hk; exact b2 k (fun h => hk ((hperm.2.map _).mem_iff.1 h))
  · intro r hr; exact a3 r (hperm.1.mem_iff.2 hr)
  · intro r hr; exact b3 r (hperm.2.mem_iff.2 hr)
  · intro r
    rw [List.mem_append, a4, b4]
    simp only [List.mem_append, List.mem_map, List.mem_filter, decide_eq_true_eq]
    have e1 : ∀ x ∈ pub, ({ x with priv := false } : Receipt) = x := by
      intro x hx; have := hflag.1 x hx; cases x; simp only at this; rw [this]
    have e2 : ∀ x ∈ priv, ({ x with priv := true } : Receipt) = x := by
      intro x hx; have := hflag.2 x hx; cases x; simp only at this; rw [this]
    constructor
    · rintro (⟨x, ⟨hx, hnx⟩, rfl⟩ | ⟨x, ⟨hx, hnx⟩, rfl⟩)
      · have hx := hperm.1.mem_iff.1 hx
        rw [e1 x hx]; exact Or.inl ⟨hx, hnx⟩
      · have hx := hperm.2.mem_iff.1 hx
        rw [e2 x hx]; exact Or.inr ⟨hx, hnx⟩
    · rintro (⟨hx, hnx⟩ | ⟨hx, hnx⟩)
      · exact Or.inl ⟨r, ⟨hperm.1.mem_iff.2 hx, hnx⟩, e1 r hx⟩
      · exact Or.inr ⟨r, ⟨hperm.2.mem_iff.2 hx, hnx⟩, e2 r hx⟩

/-- Two receipts of one user for one thread in one delivery (on two events): nothing of the delivery is stored. -/
theorem C66_duplicate_rejected {db : DB} {room : String} {edu : Edu} {res : Option (DB × List Receipt)}
    {pub priv : List Receipt} (hu : Unpack room edu pub priv)
    (hdup : (¬ (pub.map Receipt.ukey).Nodup ∧ pub.length ≤ 13107) ∨
      (¬ (priv.map Receipt.ukey).Nodup ∧ priv.length ≤ 13107)) (h : Insert db room edu res) : res = none := by
  obtain ⟨pub', priv', hu', hres⟩ := h
  have hperm : pub'.Perm pub ∧ priv'.Perm priv := by
    unfold Unpack at hu hu'
    split at hu
    · rename_i ht
      rw [if_pos ht] at hu'
      rw [hu.1, hu.2, hu'.1, hu'.2]; exact ⟨List.Perm.refl _, List.Perm.refl _⟩
    · rename_i ht
      rw [if_neg ht] at hu'
      exact ⟨hu'.1.trans hu.1.symm, hu'.2.trans hu.2.symm⟩
  rcases hdup with ⟨hd, hl⟩ | ⟨hd, hl⟩
  · rw [bulkInsert_dup _ _ _ (fun h => hd ((hperm.1.map _).nodup_iff.1 h)) (by rw [hperm.1.length_eq]; exact hl)] at hres
    exact hres
  · rw [bulkInsert_dup _ db.priv _ (fun h => hd ((hperm.2.map _).nodup_iff.1 h)) (by rw [hperm.2.length_eq]; exact hl)] at hres
    rw [hres]
    split
    · rfl
    · rfl

/-- C66 as stated: the table never goes back to an older receipt. -/
def NeverGoesBack : Prop := ∀ (db db' : DB) (room : String) (edu : Edu) (new : List Receipt), Table db.pub → Table db.priv →
  Insert db room edu (some (db', new)) → ∀ k p, held db.pub k = some p → ∃ p', held db'.pub k = some p' ∧ p.2 ≤ p'.2

/-- It does: timestamps are not compared, so an old receipt from a poller that lags behind replaces a newer one. -/
theorem C66_violated : ¬ NeverGoesBack := by
  intro h
  have hi : Insert ⟨[⟨"!r", "$new", "@a", 9, "", false⟩], []⟩ "!r" ⟨"m.receipt", [(("$old", false, "@a"), ⟨5, ""⟩)]⟩
      (some (⟨[⟨"!r", "$old", "@a", 5, "", false⟩], []⟩, [⟨"!r", "$old", "@a", 5, "", false⟩])) := by
    refine ⟨[⟨"!r", "$old", "@a", 5, "", false⟩], [], ?_, by decide⟩
    rw [Unpack, if_neg (by decide)]
    exact ⟨List.Perm.refl _, List.Perm.refl _⟩
  obtain ⟨p', h1, h2⟩ := h _ _ _ _ _ (by simp [Table]) (by simp [Table]) hi ("!r", "@a", "") ("$new", 9) (by decide)
  have : p' = ("$old", 5) := by
    have : held [⟨"!r", "$old", "@a", 5, "", false⟩] ("!r", "@a", "") = some ("$old", 5) := by decide
    rw [this] at h1; exact (Option.some.inj h1).symm
  rw [this] at h2
  exact absurd h2 (by decide)

/-- A user with receipts in two threads: accepted; the unthreaded one is on the event held already. -/
example : bulkInsert false [⟨"!r", "$e", "@a", 1, "", false⟩]
    [⟨"!r", "$e", "@a", 7, "", false⟩, ⟨"!r", "$f", "@a", 8, "$t", false⟩] =
    some ([⟨"!r", "$e", "@a", 1, "", false⟩, ⟨"!r", "$f", "@a", 8, "$t", false⟩], [⟨"!r", "$f", "@a", 8, "$t", false⟩]) := by
  decide

end Verif.Receipts
