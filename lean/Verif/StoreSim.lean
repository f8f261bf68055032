import Verif.StoreSpec
/-!
# The store refines its specification
-/
namespace Verif.Store

/-! ## Lists -/

theorem sublist_filter {α : Type} [DecidableEq α] {l l' : List α} (h : l.Sublist l') (hn : l'.Nodup) : l = l'.filter fun x => decide (x ∈ l) := by
  induction h with
  | slnil => rfl
  | @cons l l' a h ih =>
    rw [List.nodup_cons] at hn
    have ha : a ∉ l := fun hm => hn.1 (h.subset hm)
    rw [List.filter_cons, if_neg (by simpa using ha)]
    exact ih hn.2
  | @cons_cons l l' a h ih =>
    rw [List.nodup_cons] at hn
    rw [List.filter_cons, if_pos (by simp)]
    congr 1
    refine (ih hn.2).trans (List.filter_congr fun x hx => ?_)
    have : x ≠ a := fun he => hn.1 (he ▸ hx)
    simp [this]

theorem nodup_of_ids {l : List Ev} (h : (l.map (·.id)).Nodup) : l.Nodup := by
  rw [List.Nodup, List.pairwise_map] at h
  exact h.imp fun {a b} hab he => hab (by rw [he])

theorem ids_inj {l : List Ev} (h : (l.map (·.id)).Nodup) {a b : Ev} (ha : a ∈ l) (hb : b ∈ l) (he : a.id = b.id) : a = b := by
  induction l with
  | nil => simp at ha
  | cons x xs ih =>
    simp only [List.map_cons, List.nodup_cons] at h
    rcases List.mem_cons.1 ha with ha' | ha' <;> rcases List.mem_cons.1 hb with hb' | hb'
    · rw [ha', hb']
    · subst ha'; exact absurd (List.mem_map.2 ⟨b, hb', he.symm⟩) h.1
    · subst hb'; exact absurd (List.mem_map.2 ⟨a, ha', he⟩) h.1
    · exact ih h.2 ha' hb'

theorem filterMap_congr' {α β : Type} {f g : α → Option β} {l : List α} (h : ∀ x ∈ l, f x = g x) : l.filterMap f = l.filterMap g := by
  induction l with
  | nil => rfl
  | cons a l ih => rw [List.filterMap_cons, List.filterMap_cons, h a (by simp), ih fun x hx => h x (by simp [hx])]

theorem find_filterMap (evs : List Ev) : ∀ L : List Row, (evs.map (·.id)).Nodup → (L.map (·.ev)).Sublist evs →
    evs.filterMap (fun e => L.find? (·.ev.id = e.id)) = L := by
  induction evs with
  | nil => intro L _ h; have := List.eq_nil_of_map_eq_nil (List.sublist_nil.1 h); simp [this]
  | cons e es ih =>
    intro L hn h
    simp only [List.map_cons, List.nodup_cons] at hn
    have hno : ∀ x ∈ es, x.id ≠ e.id := fun x hx he => hn.1 (List.mem_map.2 ⟨x, hx, he⟩)
    rcases List.sublist_cons_iff.1 h with h | ⟨r, hr, hs⟩
    · have hf : L.find? (·.ev.id = e.id) = none := by
        rw [List.find?_eq_none]
        intro x hx
        simpa using hno x.ev (h.subset (List.mem_map_of_mem hx))
      rw [List.filterMap_cons, hf]
      exact ih L hn.2 h
    · cases L with
      | nil => simp at hr
      | cons q L =>
        simp only [List.map_cons, List.cons.injEq] at hr
        obtain ⟨hq, hL⟩ := hr
        have hf : (q :: L).find? (·.ev.id = e.id) = some q := by simp [hq]
        rw [List.filterMap_cons, hf]
        simp only
        congr 1
        rw [← hL] at hs
        refine Eq.trans ?_ (ih L hn.2 hs)
        refine filterMap_congr' fun x hx => ?_
        have : ¬ q.ev.id = x.id := fun he => hno x hx (by rw [← he, hq])
        simp [this]

theorem foldl_max_ge (l : List Nat) : ∀ a, a ≤ l.foldl max a ∧ ∀ x ∈ l, x ≤ l.foldl max a := by
  induction l with
  | nil => intro a; simp
  | cons b l ih =>
    intro a
    have := ih (max a b)
    simp only [List.foldl_cons]
    refine ⟨Nat.le_trans (Nat.le_max_left a b) this.1, fun x hx => ?_⟩
    rcases List.mem_cons.1 hx with rfl | hx
    · exact Nat.le_trans (Nat.le_max_right a x) this.1
    · exact this.2 x hx

theorem foldl_max_mem (l : List Nat) : ∀ a, l.foldl max a = a ∨ l.foldl max a ∈ l := by
  induction l with
  | nil => intro a; simp
  | cons b l ih =>
    intro a
    simp only [List.foldl_cons]
    rcases ih (max a b) with h | h
    · rw [h]
      rcases Nat.le_total a b with hab | hab
      · right; rw [Nat.max_eq_right hab]; simp
      · left; exact Nat.max_eq_left hab
    · right; exact List.mem_cons_of_mem _ h

/-! ## Which events of a timeline are new -/

theorem dedup_spec (t : List (Option Ev)) : ∀ seen, dedup seen t = (firsts (t.filterMap id)).filter fun e => decide (e.id ∉ seen) := by
  induction t with
  | nil => intro seen; rfl
  | cons o t ih =>
    intro seen
    cases o with
    | none => simp only [dedup, List.filterMap_cons, id]; exact ih seen
    | some e =>
      simp only [dedup, List.filterMap_cons, id, firsts, List.filter_cons]
      by_cases he : e.id ∈ seen
      · simp only [he, if_true, not_true, decide_false, Bool.false_eq_true, if_false]
        rw [ih seen, List.filter_filter]
        refine List.filter_congr fun x _ => ?_
        by_cases hx : x.id ∈ seen
        · simp [hx]
        · have : ¬ x.id = e.id := fun h => hx (h ▸ he)
          simp [hx, this]
      · simp only [he, if_false, not_false_eq_true, decide_true, if_true]
        rw [ih (e.id :: seen), List.filter_filter]
        congr 1
        refine List.filter_congr fun x _ => ?_
        simp only [List.mem_cons, not_or]
        by_cases h1 : x.id = e.id <;> by_cases h2 : x.id ∈ seen <;> simp [h1, h2]

theorem firsts_nodup (l : List Ev) : ((firsts l).map (·.id)).Nodup := by
  induction l with
  | nil => simp [firsts]
  | cons e es ih =>
    simp only [firsts, List.map_cons, List.nodup_cons, List.mem_map, List.mem_filter, decide_eq_true_eq, not_exists, not_and]
    refine ⟨fun x hx he => hx.2 he, ?_⟩
    rw [List.Nodup, List.pairwise_map] at *
    exact ih.filter _

theorem firsts_subset (l : List Ev) : ∀ e ∈ firsts l, e ∈ l := by
  induction l with
  | nil => simp [firsts]
  | cons x xs ih =>
    intro e he
    simp only [firsts, List.mem_cons, List.mem_filter] at he
    rcases he with rfl | ⟨he, _⟩
    · simp
    · exact List.mem_cons_of_mem _ (ih e he)

theorem newSuffix_suffix (known : List String) (l : List Ev) : newSuffix known l <:+ l := by
  induction l with
  | nil => simp [newSuffix]
  | cons e es ih =>
    unfold newSuffix
    split
    · exact ih.trans (List.suffix_cons e es)
    · exact List.suffix_refl _

theorem newSuffix_unknown (known : List String) (l : List Ev) : ∀ e ∈ newSuffix known l, e.id ∉ known := by
  induction l with
  | nil => simp [newSuffix]
  | cons e es ih =>
    unfold newSuffix
    split
    · exact ih
    · rename_i h
      exact fun x hx hk => h ⟨x, hx, hk⟩

theorem takeWhile_self_iff {α : Type} (p : α → Bool) (l : List α) : l.takeWhile p = l ↔ ∀ x ∈ l, p x = true := by
  induction l with
  | nil => simp
  | cons a l ih =>
    rw [List.takeWhile_cons]
    split
    · rename_i h; simp [ih, h]
    · rename_i h; simp [h]

theorem newSuffix_takeWhile (known : List String) (p : Ev → Bool) (hp : ∀ e, p e = true ↔ e.id ∉ known) (l : List Ev) :
    (l.reverse.takeWhile p).reverse = newSuffix known l := by
  induction l with
  | nil => rfl
  | cons e es ih =>
    rw [List.reverse_cons, List.takeWhile_append]
    unfold newSuffix
    by_cases hall : ∃ x ∈ e :: es, x.id ∈ known
    · rw [if_pos hall]
      by_cases hes : ∀ x ∈ es, p x = true
      · have h1 : es.reverse.takeWhile p = es.reverse := by
          rw [takeWhile_self_iff]; exact fun x hx => hes x (List.mem_reverse.1 hx)
        have hpe : ¬ p e = true := by
          obtain ⟨x, hx, hk⟩ := hall
          rcases List.mem_cons.1 hx with rfl | hx
          · exact fun h => (hp x).1 h hk
          · exact absurd hk ((hp x).1 (hes x hx))
        rw [if_pos (by rw [h1]), ← ih, h1]
        simp [hpe]
      · rw [if_neg, ih]
        intro hlen
        apply hes
        have h1 := (List.takeWhile_sublist p).eq_of_length hlen
        rw [takeWhile_self_iff] at h1
        exact fun x hx => h1 x (List.mem_reverse.2 hx)
    · rw [if_neg hall]
      have hp' : ∀ x ∈ e :: es, p x = true := fun x hx => (hp x).2 fun hk => hall ⟨x, hx, hk⟩
      have h1 : es.reverse.takeWhile p = es.reverse := by
        rw [takeWhile_self_iff]; exact fun x hx => hp' x (by simp [List.mem_reverse.1 hx])
      rw [if_pos (by rw [h1])]
      simp [hp' e (by simp)]

theorem filterNew_spec (db : DB) (known : List String) (hk : ∀ id, id ∈ known ↔ ∃ r ∈ db.rows, r.ev.id = id) (evs : List Ev) :
    filterNew db evs = newSuffix known evs ∨ ∃ e, evs = [e] ∧ e.id ∈ known ∧ filterNew db evs = [e] := by
  have hp : ∀ e : Ev, (!db.rows.any (·.ev.id = e.id)) = true ↔ e.id ∉ known := by
    intro e
    rw [hk, Bool.not_eq_true', ← Bool.not_eq_true, List.any_eq_true]
    simp
  unfold filterNew
  split
  · rename_i hl
    match evs, hl with
    | [], _ => left; rfl
    | [e], _ =>
      by_cases he : e.id ∈ known
      · exact Or.inr ⟨e, rfl, he, rfl⟩
      · left; simp [newSuffix, he]
  · left
    simp only
    split
    · rename_i h0
      rw [← newSuffix_takeWhile known _ hp evs]
      have hno : ∀ x ∈ evs, ¬ (!db.rows.any (·.ev.id = x.id)) = true := by
        intro x hx h
        have : x ∈ evs.filter fun e => !db.rows.any (·.ev.id = e.id) := List.mem_filter.2 ⟨hx, h⟩
        rw [List.length_eq_zero_iff.1 h0] at this; simp at this
      have : evs.reverse.takeWhile (fun e => !db.rows.any (·.ev.id = e.id)) = [] := by
        cases hr : evs.reverse with
        | nil => rfl
        | cons x xs =>
          have hx : x ∈ evs := List.mem_reverse.1 (hr ▸ by simp)
          rw [List.takeWhile_cons, if_neg (hno x hx)]
      rw [this]; rfl
    · exact newSuffix_takeWhile known _ hp evs

/-! ## Building a state map -/

theorem foldl_ingest (l : List Row) : ∀ (m : List Row) (F : St), m.Pairwise (fun a b => a.ev.key ≠ b.ev.key) →
    (∀ k i, (∃ r ∈ m, r.ev.key = k ∧ r.ev.id = i) ↔ F k = some i) →
    (l.foldl ingest m).Pairwise (fun a b => a.ev.key ≠ b.ev.key) ∧
    (∀ x ∈ l.foldl ingest m, x ∈ m ∨ x ∈ l) ∧
    (∀ k i, (∃ r ∈ l.foldl ingest m, r.ev.key = k ∧ r.ev.id = i) ↔ (l.map (·.ev)).foldl St.apply F k = some i) := by
  induction l with
  | nil => intro m F hm hF; exact ⟨hm, fun x hx => Or.inl hx, hF⟩
  | cons r l ih =>
    intro m F hm hF
    obtain ⟨h1, h2⟩ := ingest_spec m r hm
    obtain ⟨g1, g2, g3⟩ := ih (ingest m r) (F.apply r.ev) h2 (fun k i => by
      simp only [h1]
      constructor
      · rintro ⟨x, hx, hk, hi⟩
        rcases hx with rfl | ⟨hx, hne⟩
        · simp [St.apply, ← hk, hi]
        · have : ¬ k = r.ev.key := fun h => hne (hk.trans h)
          simp only [St.apply, this, if_false]
          exact (hF k i).1 ⟨x, hx, hk, hi⟩
      · intro h
        by_cases hk : k = r.ev.key
        · simp only [St.apply, hk, if_true, Option.some.injEq] at h
          exact ⟨r, Or.inl rfl, hk.symm, h⟩
        · simp only [St.apply, hk, if_false] at h
          obtain ⟨x, hx, hxk, hxi⟩ := (hF k i).2 h
          exact ⟨x, Or.inr ⟨hx, fun he => hk (hxk.symm.trans he)⟩, hxk, hxi⟩)
    refine ⟨g1, fun x hx => ?_, g3⟩
    rcases g2 x hx with h | h
    · rcases (h1 x).1 h with rfl | ⟨h, _⟩
      · exact Or.inr (by simp)
      · exact Or.inl h
    · exact Or.inr (by simp [h])

theorem foldl_ingest_distinct (l : List Row) : ∀ m : List Row, (m ++ l).Pairwise (fun a b => a.ev.key ≠ b.ev.key) → l.foldl ingest m = m ++ l := by
  induction l with
  | nil => intro m _; simp
  | cons r l ih =>
    intro m h
    have h0 := List.pairwise_append.1 h
    have : ingest m r = m ++ [r] := by
      simp only [ingest]
      congr 1
      rw [List.filter_eq_self]
      intro x hx
      simpa using h0.2.2 x hx r (by simp)
    rw [List.foldl_cons, this, ih _ (by simpa using h)]
    simp

theorem foldl_ingest_last (l : List Row) (r : Row) (m : List Row) : r ∈ (l ++ [r]).foldl ingest m := by
  rw [List.foldl_append]
  simp [ingest]

/-! ## The simulation -/

structure Rel (db : DB) (sp : Spec) : Prop where
  inv : Inv db
  known : ∀ id, id ∈ sp.known ↔ ∃ r ∈ db.rows, r.ev.id = id
  cur : ∀ room, Cur db room (db.cur room) (sp.cur room)
  befs : ∀ r ∈ db.rows, r.isState = false → ∃ o, sp.before r.ev.id = some o ∧ Cur db r.room r.before o ∧ RepOk db r
  inits : ∀ r ∈ db.rows, r.isState = true → r.before = 0 ∧ r.replaces = 0
  latest : ∀ room, (∀ r ∈ db.rows, r.room = room → r.nid ≤ db.latest room) ∧
    (db.latest room ≠ 0 → ∃ r ∈ db.rows, r.nid = db.latest room ∧ r.room = room)

theorem Rel.empty : Rel {} {} := by
  constructor <;> simp [Inv.empty, Cur]

/-- What upstream may send: event types without the separator character, and no event twice in a state block. -/
def OkOp : Op → Prop
  | .init _ _ block => ((block.filterMap id).map (·.id)).Nodup ∧ ∀ e ∈ block.filterMap id, Clean e
  | .acc _ _ _ timeline => ∀ e ∈ timeline.filterMap id, Clean e

theorem Cur.zero {db : DB} (h : Inv db) {room : String} {sid : Nat} {f : Option St} (hc : Cur db room sid f) : sid = 0 ↔ f = none := by
  cases f with
  | none => exact ⟨fun _ => rfl, fun _ => hc⟩
  | some g =>
    obtain ⟨⟨s, hs, rfl, _⟩, _⟩ := hc
    have := (h.srange s hs).1
    constructor
    · intro h0; omega
    · intro h0; cases h0

/-- The inserted rows are those of the unknown events, in order. -/
theorem insert_new {db : DB} (hI : Inv db) (room : String) (st : Bool) (skip : Nat) (evs : List (Ev × Bool)) (hc : ∀ e ∈ evs, Clean e.1)
    (hn : ((evs.map (·.1)).map (·.id)).Nodup) (known : List String) (hk : ∀ id, id ∈ known ↔ ∃ r ∈ db.rows, r.ev.id = id) :
    (insert db room st skip evs).2.map (·.ev) = (evs.map (·.1)).filter fun e => decide (e.id ∉ known) := by
  obtain ⟨h1, h2, h3, h4, h5, h6, h7, _⟩ := insert_spec db hI room st skip evs hc
  refine (sublist_filter h5 (nodup_of_ids hn)).trans (List.filter_congr fun e he => ?_)
  congr 1
  rw [hk]
  have hids := h1.ids
  rw [h3, List.map_append] at hids
  rw [eq_iff_iff]
  constructor
  · intro hm hx
    obtain ⟨r, hr, rfl⟩ := List.mem_map.1 hm
    obtain ⟨q, hq, hqe⟩ := hx
    exact (List.nodup_append.1 hids).2.2 _ (List.mem_map_of_mem (f := fun r : Row => r.ev.id) hq) _ (List.mem_map_of_mem (f := fun r : Row => r.ev.id) hr) hqe
  · intro hx
    obtain ⟨p, hp, rfl⟩ := List.mem_map.1 he
    obtain ⟨r, hr, hre⟩ := h6 p hp
    rw [h3] at hr
    rcases List.mem_append.1 hr with hr | hr
    · exact absurd ⟨r, hr, hre⟩ hx
    · have : r.ev = p.1 := ids_inj hn (List.mem_map.2 ⟨_, h7 r hr, rfl⟩) he hre
      exact List.mem_map.2 ⟨r, hr, this⟩

/-- If nothing was inserted nothing changed. -/
theorem insert_none {db : DB} {sp : Spec} (h : Rel db sp) (room : String) (st : Bool) (skip : Nat) (evs : List (Ev × Bool)) (hc : ∀ e ∈ evs, Clean e.1)
    (h0 : (insert db room st skip evs).2 = []) : Rel (insert db room st skip evs).1 sp := by
  obtain ⟨h1, h2, h3, h4, h5, h6, h7, h8, h9, h10, h11⟩ := insert_spec db h.inv room st skip evs hc
  rw [h0, List.append_nil] at h3
  refine ⟨h1, by rw [h3]; exact h.known, by rw [h10]; exact fun r => (h.cur r).mono h.inv h2, ?_, by rw [h3]; exact h.inits,
    by rw [h3, h11]; exact h.latest⟩
  rw [h3]
  intro r hr hs
  obtain ⟨o, ho, hc, hrep⟩ := h.befs r hr hs
  exact ⟨o, ho, hc.mono h.inv h2, hrep.mono h.inv h2 (hc.le h.inv)⟩

theorem accumulate_spec {db : DB} {sp : Spec} (h : Rel db sp) (room : String) (skip : Nat) (limited : Bool) (timeline : List (Option Ev))
    (hok : OkOp (.acc room skip limited timeline)) :
    ∃ db' post, accumulate db room skip limited timeline = some (db', post) ∧ Rel db' (specStep sp (.acc room skip limited timeline)) ∧
      Ext db db' ∧ db'.rows.map Row.core = db.rows.map Row.core ++ post.map Row.core ∧
      (∀ r ∈ post, r.room = room ∧ r.isState = false) ∧
      ((post = [] ∧ specStep sp (.acc room skip limited timeline) = sp) ∨
       (post.map (·.ev) = newSuffix sp.known (firsts (timeline.filterMap id)) ∧ post ≠ [] ∧
        canStart (sp.cur room) ((post.map (·.ev)).take 1))) := by
  have hincoming : dedup [] timeline = firsts (timeline.filterMap id) := by rw [dedup_spec]; simp
  have hclean : ∀ e ∈ firsts (timeline.filterMap id), Clean e := fun e he => hok e (firsts_subset _ e he)
  unfold accumulate
  simp only [hincoming]
  generalize hF : firsts (timeline.filterMap id) = F at hclean
  have hFn : (F.map (·.id)).Nodup := hF ▸ firsts_nodup _
  rcases filterNew_spec db sp.known h.known F with hnew | ⟨e, rfl, hek, hfn⟩
  · rw [hnew]
    have hunk := newSuffix_unknown sp.known F
    have hsuf := newSuffix_suffix sp.known F
    generalize hN : newSuffix sp.known F = N at hunk hsuf
    cases N with
    | nil =>
      have hsp : specStep sp (.acc room skip limited timeline) = sp := by
        rw [specStep_acc sp room skip limited timeline (by rw [hF, hN])]; simp
      exact ⟨db, [], rfl, by rw [hsp]; exact h, Ext.refl db, by simp, by simp, Or.inl ⟨rfl, hsp⟩⟩
    | cons first rest =>
      simp only
      have hz := (h.cur room).zero h.inv
      by_cases hg : db.cur room = 0 ∧ ¬ (first.type = "m.room.create" ∧ first.stateKey = "")
      · rw [if_pos hg]
        have hsp : specStep sp (.acc room skip limited timeline) = sp := by
          rw [specStep_acc sp room skip limited timeline (by rw [hF, hN]), if_neg]
          rintro ⟨_, hcs⟩
          rcases hcs with hcs | ⟨x, hx, hcx⟩
          · exact hcs (hz.1 hg.1)
          · simp only [List.take_succ_cons, List.take_zero, List.mem_singleton] at hx
            subst hx; exact hg.2 hcx
        exact ⟨db, [], rfl, by rw [hsp]; exact h, Ext.refl db, by simp, by simp, Or.inl ⟨rfl, hsp⟩⟩
      · rw [if_neg hg]
        have hspc : canStart (sp.cur room) ((first :: rest).take 1) := by
          by_cases h0 : db.cur room = 0
          · right
            have : isCreate first := Classical.byContradiction fun hh => hg ⟨h0, hh⟩
            exact ⟨first, by simp, this⟩
          · left; exact fun hh => h0 (hz.2 hh)
        generalize htg : ((first :: rest).map fun e => (e, missingPrevious limited F first e)) = tagged
        have htmap : tagged.map (·.1) = first :: rest := by rw [← htg, List.map_map]; simp [Function.comp_def]
        have hNn : ((first :: rest).map (·.id)).Nodup := (hsuf.sublist.map _).nodup hFn
        have hct : ∀ e ∈ tagged, Clean e.1 := by
          intro e he
          have : e.1 ∈ first :: rest := htmap ▸ List.mem_map_of_mem he
          exact hclean _ (hsuf.subset this)
        obtain ⟨h1, h2, h3, h4, h5, h6, h7, h8, h9, h10, h11⟩ := insert_spec db h.inv room false skip tagged hct
        have hins := insert_new h.inv room false skip tagged hct (by rw [htmap]; exact hNn) sp.known h.known
        rw [htmap, List.filter_eq_self.2 (fun x hx => by simpa using hunk x hx)] at hins
        generalize hdb1 : (insert db room false skip tagged).1 = db1 at *
        generalize hpost : (insert db room false skip tagged).2 = post at *
        have hpl : ¬ post.length = 0 := by
          intro h0; rw [List.length_eq_zero_iff.1 h0] at hins; simp at hins
        rw [if_neg hpl]
        have hfm : (first :: rest).filterMap (fun e => post.find? (·.ev.id = e.id)) = post :=
          find_filterMap (first :: rest) post hNn (by rw [hins]; exact List.Sublist.refl _)
        simp only [hfm]
        have hasc : post.Pairwise fun a b => a.nid < b.nid := by
          have := h1.asc; rw [h3] at this; exact (List.pairwise_append.1 this).2.1
        have hloop : Loop db1 room (db.cur room) (sp.cur room) sp.before post := by
          refine ⟨h1, (h.cur room).mono h.inv h2, ?_, ?_, ?_, hasc, ?_⟩
          · rw [h3]
            intro r hr hnp hs
            rcases List.mem_append.1 hr with hr | hr
            · obtain ⟨o, ho, hc, hrep⟩ := h.befs r hr hs
              exact ⟨o, ho, hc.mono h.inv h2, hrep.mono h.inv h2 (hc.le h.inv)⟩
            · exact absurd hr hnp
          · intro r hr
            exact ⟨by rw [h3]; exact List.mem_append_right _ hr, (h4 r hr).2.1, (h4 r hr).2.2.1⟩
          · intro r hr s hs hn
            rw [h8] at hs
            obtain ⟨q, hq, hqn, _⟩ := h.inv.exist s hs _ hn
            have := (h.inv.range q hq).2; have := (h4 r hr).1; omega
          · rw [h3]
            intro r hr hs
            rcases List.mem_append.1 hr with hr | hr
            · exact h.inits r hr hs
            · have := (h4 r hr).2.2.1; rw [this] at hs; cases hs
        obtain ⟨db2, snap2, g1, g2, g3, g4, g5, g6⟩ := accLoop_spec post hloop
        rw [g1]
        rw [hins] at g2
        have hne : post ≠ [] := fun h0 => hpl (by rw [h0]; rfl)
        have hexp : specStep sp (.acc room skip limited timeline) =
            { known := sp.known ++ (first :: rest).map (·.id)
              cur := fun r => if r = room then (specLoop (sp.cur room, sp.before) (first :: rest)).1 else sp.cur r
              before := (specLoop (sp.cur room, sp.before) (first :: rest)).2 } := by
          rw [specStep_acc sp room skip limited timeline (by rw [hF, hN]), if_pos ⟨by simp, hspc⟩]
        have hE : Ext db db2 := h2.trans g3
        have hE' : ∀ c l, Ext db2 { db2 with cur := c, latest := l } :=
          fun c l => ⟨⟨[], by simp⟩, ⟨[], by simp⟩, Nat.le_refl _, Nat.le_refl _⟩
        refine ⟨_, post, rfl, ?_, hE.trans (hE' _ _), by rw [← List.map_append, ← h3]; exact g4,
          fun r hr => ⟨(h4 r hr).2.1, (h4 r hr).2.2.1⟩, Or.inr ⟨hins, hne, by rw [hins]; exact hspc⟩⟩
        rw [hexp]
        have hrowsback : ∀ r ∈ db2.rows, ∃ q ∈ db.rows ++ post, q.core = r.core := by
          intro r hr
          have : r.core ∈ db1.rows.map Row.core := g4 ▸ List.mem_map_of_mem hr
          rw [h3] at this
          obtain ⟨q, hq, hqc⟩ := List.mem_map.1 this; exact ⟨q, hq, hqc⟩
        have hrowsfwd : ∀ r ∈ db.rows ++ post, ∃ q ∈ db2.rows, q.core = r.core := by
          intro r hr
          have : r.core ∈ db2.rows.map Row.core := by rw [g4, h3]; exact List.mem_map_of_mem hr
          obtain ⟨q, hq, hqc⟩ := List.mem_map.1 this; exact ⟨q, hq, hqc⟩
        refine ⟨g2.inv.of_core rfl rfl rfl rfl, fun id => ?_, fun r => ?_, fun r hr hs => ?_, ?_, fun r => ?_⟩
        · simp only [List.mem_append, h.known, List.mem_map]
          constructor
          · rintro (⟨r, hr, hid⟩ | ⟨e, he, hid⟩)
            · obtain ⟨q, hq, hqc⟩ := hrowsfwd r (List.mem_append_left _ hr)
              exact ⟨q, hq, by rw [(core_eq hqc).2.2.1]; exact hid⟩
            · rw [← hins] at he
              obtain ⟨r, hr, rfl⟩ := List.mem_map.1 he
              obtain ⟨q, hq, hqc⟩ := hrowsfwd r (List.mem_append_right _ hr)
              exact ⟨q, hq, by rw [(core_eq hqc).2.2.1]; exact hid⟩
          · rintro ⟨r, hr, hid⟩
            obtain ⟨q, hq, hqc⟩ := hrowsback r hr
            rcases List.mem_append.1 hq with hq | hq
            · exact Or.inl ⟨q, hq, by rw [(core_eq hqc).2.2.1]; exact hid⟩
            · exact Or.inr ⟨q.ev, hins ▸ List.mem_map_of_mem hq, by rw [(core_eq hqc).2.2.1]; exact hid⟩
        · by_cases hr : r = room
          · subst hr; simp only [if_true]; exact g2.cur.mono g2.inv (hE' _ _)
          · simp only [hr, if_false]; exact ((h.cur r).mono h.inv hE).mono g2.inv (hE' _ _)
        · obtain ⟨o, ho, hc, hrep⟩ := g2.befs r hr (by simp) hs
          exact ⟨o, ho, hc.mono g2.inv (hE' _ _), hrep.mono g2.inv (hE' _ _) (hc.le g2.inv)⟩
        · exact g2.inits
        · by_cases hr : r = room
          · subst hr
            simp only [if_true]
            obtain ⟨m1, m2⟩ := foldl_max_ge (post.map (·.nid)) 0
            refine ⟨fun x hx hxr => ?_, fun _ => ?_⟩
            · obtain ⟨q, hq, hqc⟩ := hrowsback x hx
              rw [← (core_eq hqc).1]
              rcases List.mem_append.1 hq with hq | hq
              · obtain ⟨p, ps, hps⟩ := List.exists_cons_of_ne_nil hne
                have hp : p ∈ post := hps ▸ by simp
                have a1 := (h.inv.range q hq).2
                have a2 := (h4 p hp).1
                have a3 := m2 _ (List.mem_map_of_mem (f := fun r : Row => r.nid) hp)
                omega
              · exact m2 _ (List.mem_map_of_mem (f := fun r : Row => r.nid) hq)
            · rcases foldl_max_mem (post.map (·.nid)) 0 with h0 | hm
              · obtain ⟨p, ps, hps⟩ := List.exists_cons_of_ne_nil hne
                have hp : p ∈ post := hps ▸ by simp
                have a2 := (h4 p hp).1
                have a3 := m2 _ (List.mem_map_of_mem (f := fun r : Row => r.nid) hp)
                omega
              · obtain ⟨p, hp, hpn⟩ := List.mem_map.1 hm
                obtain ⟨q, hq, hqc⟩ := hrowsfwd p (List.mem_append_right _ hp)
                exact ⟨q, hq, (core_eq hqc).1.trans hpn, (core_eq hqc).2.1.trans (h4 p hp).2.1⟩
          · simp only [hr, if_false]
            refine ⟨fun x hx hxr => ?_, fun hl => ?_⟩
            · obtain ⟨q, hq, hqc⟩ := hrowsback x hx
              rcases List.mem_append.1 hq with hq | hq
              · rw [← (core_eq hqc).1]
                exact (h.latest r).1 q hq ((core_eq hqc).2.1.trans hxr)
              · exact absurd ((hxr.symm.trans (core_eq hqc).2.1.symm).trans (h4 q hq).2.1) hr
            · obtain ⟨p, hp, hpn, hpr⟩ := (h.latest r).2 hl
              obtain ⟨q, hq, hqc⟩ := hrowsfwd p (List.mem_append_left _ hp)
              exact ⟨q, hq, (core_eq hqc).1.trans hpn, (core_eq hqc).2.1.trans hpr⟩
  · rw [hfn]
    have hsuf : newSuffix sp.known [e] = [] := by simp [newSuffix, hek]
    have hsp : specStep sp (.acc room skip limited timeline) = sp := by
      rw [specStep_acc sp room skip limited timeline (by rw [hF, hsuf])]; simp
    rw [hsp]
    dsimp only
    split
    · exact ⟨db, [], rfl, h, Ext.refl db, by simp, by simp, Or.inl ⟨rfl, rfl⟩⟩
    · generalize htg : ([e].map fun x => (x, missingPrevious limited [e] e x)) = tagged
      have htmap : tagged.map (·.1) = [e] := by rw [← htg]; rfl
      have hct : ∀ x ∈ tagged, Clean x.1 := by
        intro x hx
        exact hclean _ (htmap ▸ List.mem_map_of_mem hx)
      have hins := insert_new h.inv room false skip tagged hct (by rw [htmap]; simp) sp.known h.known
      rw [htmap] at hins
      have h0 : (insert db room false skip tagged).2 = [] := by
        refine List.eq_nil_of_map_eq_nil (f := fun r : Row => r.ev) ?_
        rw [hins]; simp [hek]
      rw [if_pos (by rw [h0]; rfl)]
      refine ⟨_, [], rfl, insert_none h room false skip tagged hct h0, (insert_spec db h.inv room false skip tagged hct).2.1, ?_, by simp,
        Or.inl ⟨rfl, rfl⟩⟩
      rw [(insert_spec db h.inv room false skip tagged hct).2.2.1, h0]; simp

open Classical in
theorem initialise_spec {db : DB} {sp : Spec} (h : Rel db sp) (room : String) (skip : Nat) (block : List (Option Ev))
    (hok : OkOp (.init room skip block)) :
    Rel (step db (.init room skip block)) (specStep sp (.init room skip block)) ∧ Ext db (step db (.init room skip block)) ∧
      ∃ new, (step db (.init room skip block)).rows.map Row.core = db.rows.map Row.core ++ new.map Row.core ∧
        (∀ r ∈ new, r.room = room ∧ r.isState = true) ∧
        ((new = [] ∧ specStep sp (.init room skip block) = sp) ∨
         (specStep sp (.init room skip block)).cur = fun r => if r = room then
           some ((new.map (·.ev)).foldl St.apply ((sp.cur room).getD .none)) else sp.cur r) ∧
        (specStep sp (.init room skip block)).before = sp.before := by
  obtain ⟨hnod, hclean⟩ := hok
  simp only [step]
  unfold initialise
  generalize hN : ((block.filterMap id).filter fun e => decide (e.id ∉ sp.known)) = N
  rw [specStep_init sp room skip block hN]
  have hz := (h.cur room).zero h.inv
  have keep : ¬ (N ≠ [] ∧ canStart (sp.cur room) (block.filterMap id)) → 
      (if N ≠ [] ∧ canStart (sp.cur room) (block.filterMap id) then
        { sp with
          known := sp.known ++ N.map (·.id)
          cur := fun r => if r = room then some (N.foldl St.apply ((sp.cur room).getD .none)) else sp.cur r }
        else sp) = sp := fun hh => if_neg hh
  have same : Rel db sp ∧ Ext db db ∧ ∃ new, db.rows.map Row.core = db.rows.map Row.core ++ new.map Row.core ∧
        (∀ r ∈ new, r.room = room ∧ r.isState = true) ∧
        ((new = [] ∧ sp = sp) ∨ sp.cur = fun r => if r = room then
           some ((new.map (·.ev)).foldl St.apply ((sp.cur room).getD .none)) else sp.cur r) ∧ sp.before = sp.before :=
    ⟨h, Ext.refl db, [], by simp, by simp, Or.inl ⟨rfl, rfl⟩, rfl⟩
  by_cases hb : block.length = 0
  · rw [if_pos hb]
    have hb' := List.length_eq_zero_iff.1 hb
    subst hb'
    rw [keep (fun hh => hh.1 (by rw [← hN]; rfl))]; exact same
  rw [if_neg hb]
  dsimp only
  generalize hE : block.filterMap id = evs at *
  by_cases he : evs.length = 0
  · rw [if_pos he]
    have he' := List.length_eq_zero_iff.1 he
    subst he'
    rw [keep (fun hh => hh.1 (by rw [← hN]; rfl))]; exact same
  rw [if_neg he]
  by_cases hg : db.cur room = 0 ∧ ¬ evs.any (fun e => e.type = "m.room.create" && e.stateKey = "") = true
  · rw [if_pos hg]
    rw [keep]
    · exact same
    intro hh
    rcases hh.2 with hc | ⟨e, hm, hc⟩
    · exact hc (hz.1 hg.1)
    · exact hg.2 (List.any_eq_true.2 ⟨e, hm, by simp [hc.1, hc.2]⟩)
  rw [if_neg hg]
  have hcs : canStart (sp.cur room) evs := by
    by_cases h0 : db.cur room = 0
    · right
      have := Classical.byContradiction fun hh => hg ⟨h0, hh⟩
      obtain ⟨e, hm, hc⟩ := List.any_eq_true.1 this
      exact ⟨e, hm, by simpa [isCreate] using hc⟩
    · left; exact fun hh => h0 (hz.2 hh)
  generalize htg : (evs.map fun e => (e, false)) = tagged
  have htmap : tagged.map (·.1) = evs := by rw [← htg, List.map_map]; simp [Function.comp_def]
  have hct : ∀ e ∈ tagged, Clean e.1 := fun e he => hclean _ (htmap ▸ List.mem_map_of_mem he)
  have hins := insert_new h.inv room true skip tagged hct (by rw [htmap]; exact hnod) sp.known h.known
  rw [htmap, hN] at hins
  by_cases h0 : (insert db room true skip tagged).2.length = 0
  · rw [if_pos h0]
    have h0' := List.length_eq_zero_iff.1 h0
    have hN0 : N = [] := by rw [← hins, h0']; rfl
    rw [if_neg (fun hh => hh.1 hN0)]
    exact ⟨insert_none h room true skip tagged hct h0', (insert_spec db h.inv room true skip tagged hct).2.1, [],
      by simp [(insert_spec db h.inv room true skip tagged hct).2.2.1, h0'], by simp, Or.inl ⟨rfl, rfl⟩, rfl⟩
  rw [if_neg h0]
  obtain ⟨h1, h2, h3, h4, h5, h6, h7, h8, h9, h10, h11⟩ := insert_spec db h.inv room true skip tagged hct
  generalize hdb1 : (insert db room true skip tagged).1 = db1 at *
  generalize hpost : (insert db room true skip tagged).2 = new at *
  have hne : new ≠ [] := fun hh => h0 (by rw [hh]; rfl)
  have hNne : N ≠ [] := fun hh => hne (List.eq_nil_of_map_eq_nil (hins.trans hh))
  rw [htmap] at h5
  have hfm : (evs.filterMap fun e => (new.find? (·.ev.id = e.id)).map fun r => { r with ev := e }) = new := by
    refine Eq.trans (filterMap_congr' fun e hem => ?_) (find_filterMap evs new hnod h5)
    cases hf : new.find? (·.ev.id = e.id) with
    | none => rfl
    | some r =>
      have hid : r.ev.id = e.id := by simpa using List.find?_some hf
      have hrm : r.ev ∈ evs := h5.subset (List.mem_map_of_mem (List.mem_of_find?_eq_some hf))
      have := ids_inj hnod hrm hem hid
      subst this; rfl
  rw [hfm]
  have hsp : (if N ≠ [] ∧ canStart (sp.cur room) evs then
        { sp with
          known := sp.known ++ N.map (·.id)
          cur := fun r => if r = room then some (N.foldl St.apply ((sp.cur room).getD .none)) else sp.cur r }
        else sp) = { sp with
          known := sp.known ++ N.map (·.id)
          cur := fun r => if r = room then some (N.foldl St.apply ((sp.cur room).getD .none)) else sp.cur r } := if_pos ⟨hNne, hcs⟩
  rw [hsp]
  obtain ⟨old, ho, hor, hok, hos, hoat, hof⟩ := ((h.cur room).mono h.inv h2).rows h1
  have hstart : (if db.cur room > 0 then (stripped db1 (db.cur room)).map (·.foldl ingest []) else some []) = some old := by
    by_cases hc : db.cur room = 0
    · rw [hc] at ho
      simp only [ne_eq, not_true, if_false, Option.some.injEq] at ho
      rw [hc]; simp [← ho]
    · rw [if_pos hc] at ho
      rw [if_pos (by omega), ho, Option.map_some, foldl_ingest_distinct old [] (by simpa using hok)]
      rfl
  simp only [hstart]
  obtain ⟨m1, m2, m3⟩ := foldl_ingest new old _ hok hof
  have hlast : ∃ r ∈ new.foldl ingest old, r ∈ new ∧ ∀ q ∈ new, q.nid ≤ r.nid := by
    obtain ⟨l, r, hlr⟩ : ∃ l r, new = l ++ [r] := by
      rcases List.eq_nil_or_concat new with hh | ⟨l, r, hh⟩
      · exact absurd hh hne
      · exact ⟨l, r, by rw [hh]; simp⟩
    refine ⟨r, by rw [hlr]; exact foldl_ingest_last l r old, by rw [hlr]; simp, fun q hq => ?_⟩
    have hasc := h1.asc
    rw [h3, hlr] at hasc
    have hasc := (List.pairwise_append.1 (List.pairwise_append.1 hasc).2.1).2.2
    rw [hlr] at hq
    rcases List.mem_append.1 hq with hq | hq
    · have := hasc q hq r (by simp); omega
    · simp only [List.mem_singleton] at hq; rw [hq]; exact Nat.le_refl _
  generalize hm : new.foldl ingest old = m at *
  have hmr : ∀ r ∈ m, r ∈ db1.rows ∧ r.room = room := by
    intro r hr
    rcases m2 r hr with hr | hr
    · exact hor r hr
    · exact ⟨by rw [h3]; exact List.mem_append_right _ hr, (h4 r hr).2.1⟩
  obtain ⟨hI2, hE2, hrows2, hid2, ⟨s2, hs2, hs2i, hs2r⟩, hsn2, hat2⟩ := insertSnap_spec h1 room m hmr m1
  simp only [Option.getD_some]
  have hE' : ∀ c l, Ext (insertSnap db1 room m).1 { (insertSnap db1 room m).1 with cur := c, latest := l } :=
    fun c l => ⟨⟨[], by simp⟩, ⟨[], by simp⟩, Nat.le_refl _, Nat.le_refl _⟩
  have hEall := h2.trans hE2
  refine ⟨?_, hEall.trans (hE' _ _), new, by rw [hrows2, h3, List.map_append],
    fun r hr => ⟨(h4 r hr).2.1, (h4 r hr).2.2.1⟩, Or.inr (by simp only [← hins]), trivial⟩
  refine ⟨hI2.of_core rfl rfl rfl rfl, fun id => ?_, fun r => ?_, fun r hr hs => ?_, fun r hr hs => ?_, fun r => ?_⟩
  · simp only [hrows2, h3, List.mem_append, h.known, ← hins, List.map_map, List.mem_map, Function.comp]
    constructor
    · rintro (⟨r, hr, hid⟩ | ⟨r, hr, hid⟩)
      · exact ⟨r, Or.inl hr, hid⟩
      · exact ⟨r, Or.inr hr, hid⟩
    · rintro ⟨r, hr | hr, hid⟩
      · exact Or.inl ⟨r, hr, hid⟩
      · exact Or.inr ⟨r, hr, hid⟩
  · by_cases hr : r = room
    · subst hr
      simp only [if_true]
      refine Cur.mono hI2 (hE' _ _) ?_
      rw [hid2]
      refine ⟨⟨s2, hs2, hs2i, hs2r⟩, fun k id => ?_⟩
      rw [← hins, ← m3 k id]
      simp only [hat2]
      constructor
      · rintro ⟨n, r, hr, hk, hi, _⟩; exact ⟨r, hr, hk, hi⟩
      · rintro ⟨r, hr, hk, hi⟩; exact ⟨r.nid, r, hr, hk, hi, rfl⟩
    · simp only [hr, if_false]; exact ((h.cur r).mono h.inv hEall).mono hI2 (hE' _ _)
  · simp only [hrows2, h3] at hr
    rcases List.mem_append.1 hr with hr | hr
    · obtain ⟨o, ho, hc, hrep⟩ := h.befs r hr hs
      exact ⟨o, ho, (hc.mono h.inv hEall).mono hI2 (hE' _ _), (hrep.mono h.inv hEall (hc.le h.inv)).mono hI2 (hE' _ _) ((hc.mono h.inv hEall).le hI2)⟩
    · have := (h4 r hr).2.2.1; rw [this] at hs; cases hs
  · simp only [hrows2, h3] at hr
    rcases List.mem_append.1 hr with hr | hr
    · exact h.inits r hr hs
    · exact (h4 r hr).2.2.2
  · simp only [hrows2, h3]
    obtain ⟨lr, hlm, hln, hlmax⟩ := hlast
    obtain ⟨_, mx⟩ := foldl_max_ge (m.map (·.nid)) 0
    by_cases hr : r = room
    · subst hr
      simp only [if_true]
      refine ⟨fun x hx hxr => ?_, fun _ => ?_⟩
      · have a3 := mx _ (List.mem_map_of_mem (f := fun r : Row => r.nid) hlm)
        rcases List.mem_append.1 hx with hx | hx
        · have a1 := (h.inv.range x hx).2
          have a2 := (h4 lr hln).1
          omega
        · have := hlmax x hx; omega
      · rcases foldl_max_mem (m.map (·.nid)) 0 with h00 | hmm
        · have a3 := mx _ (List.mem_map_of_mem (f := fun r : Row => r.nid) hlm)
          have a2 := (h4 lr hln).1
          omega
        · obtain ⟨p, hp, hpn⟩ := List.mem_map.1 hmm
          exact ⟨p, h3 ▸ (hmr p hp).1, hpn, (hmr p hp).2⟩
    · simp only [hr, if_false]
      refine ⟨fun x hx hxr => ?_, fun hl => ?_⟩
      · rcases List.mem_append.1 hx with hx | hx
        · exact (h.latest r).1 x hx hxr
        · exact absurd (hxr.symm.trans (h4 x hx).2.1) hr
      · obtain ⟨p, hp, hpn, hpr⟩ := (h.latest r).2 hl
        exact ⟨p, List.mem_append_left _ hp, hpn, hpr⟩

theorem step_spec {db : DB} {sp : Spec} (h : Rel db sp) (o : Op) (hok : OkOp o) : Rel (step db o) (specStep sp o) ∧ Ext db (step db o) := by
  cases o with
  | init room skip block => exact ⟨(initialise_spec h room skip block hok).1, (initialise_spec h room skip block hok).2.1⟩
  | acc room skip limited timeline =>
    obtain ⟨db', post, h1, h2, h3, _⟩ := accumulate_spec h room skip limited timeline hok
    simp only [step, h1, Option.map_some, Option.getD_some]
    exact ⟨h2, h3⟩

theorem run_spec (ops : List Op) (hok : ∀ o ∈ ops, OkOp o) : Rel (run ops) (specRun ops) := by
  induction ops using Verif.Util.snocRec with
  | nil => exact Rel.empty
  | append_singleton l a ih =>
    simp only [run, specRun, List.foldl_append, List.foldl_cons, List.foldl_nil]
    exact (step_spec (ih fun o ho => hok o (by simp [ho])) a (hok a (by simp))).1

end Verif.Store
