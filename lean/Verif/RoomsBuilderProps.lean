import Verif.RoomsBuilder
/-! # C27: rooms are built once, with all the subscriptions that asked for them -/
namespace Verif.RoomsBuilder

variable {σ S : Type}

/-- Subscription `i` asked for the room. -/
def Asks (b : State S) (i : Nat) (room : String) : Prop := ∃ p ∈ b.rooms, p.1 = i ∧ room ∈ p.2

/-- Some subscription asked for the room. -/
def Requested (b : State S) (room : String) : Prop := ∃ i, Asks b i room

/-- An order in which the map of rooms can be iterated: each requested room once. -/
structure IsOrder (b : State S) (order : List String) : Prop where
  nodup : order.Nodup
  mem : ∀ room, room ∈ order ↔ Requested b room

/-- Rooms are only added to subscriptions that exist. -/
def KnownIDs (b : State S) : Prop := ∀ i room, Asks b i room → i < b.subs.length

/-- `ids` lists the subscriptions that asked for the room, ascending. -/
structure Askers (b : State S) (room : String) (ids : List Nat) : Prop where
  sorted : ids.Pairwise (· < ·)
  mem : ∀ i, i ∈ ids ↔ i < b.subs.length ∧ Asks b i room

theorem idsOf_askers (b : State S) (room : String) : Askers b room (idsOf b room) := by
  refine ⟨List.pairwise_lt_range.filter _, ?_⟩
  intro i
  unfold idsOf Asks
  simp only [List.mem_filter, List.mem_range, List.any_eq_true, Bool.and_eq_true, decide_eq_true_eq, exists_eq_right]

theorem sorted_ext : ∀ {a c : List Nat}, a.Pairwise (· < ·) → c.Pairwise (· < ·) → (∀ i, i ∈ a ↔ i ∈ c) → a = c := by
  intro a
  induction a with
  | nil => intro c _ _ h; cases c with
    | nil => rfl
    | cons x c => exact absurd ((h x).2 (by simp)) (by simp)
  | cons x a ih =>
    intro c ha hc h
    cases c with
    | nil => exact absurd ((h x).1 (by simp)) (by simp)
    | cons y c =>
      rw [List.pairwise_cons] at ha hc
      have hxy : x = y := by
        rcases List.mem_cons.1 ((h x).1 (by simp)) with e | hx
        · exact e
        · rcases List.mem_cons.1 ((h y).2 (by simp)) with e | hy
          · exact e.symm
          · have := ha.1 y hy; have := hc.1 x hx; omega
      subst hxy
      congr 1
      refine ih ha.2 hc.2 fun i => ?_
      have := h i
      simp only [List.mem_cons] at this
      constructor
      · intro hi
        rcases this.1 (Or.inr hi) with rfl | h'
        · exact absurd (ha.1 _ hi) (by omega)
        · exact h'
      · intro hi
        rcases this.2 (Or.inr hi) with rfl | h'
        · exact absurd (hc.1 _ hi) (by omega)
        · exact h'

theorem askers_unique {b : State S} {room : String} {ids : List Nat} (h : Askers b room ids) : ids = idsOf b room :=
  sorted_ext h.sorted (idsOf_askers b room).sorted fun i => by rw [h.mem, (idsOf_askers b room).mem]

/-! ## The loop, for any way of combining -/

structure Inv (b : State S) (Good : σ → List Nat → S → Prop) (s : Built σ S) (done : List String) : Prop where
  keys : (s.groups.map (·.1)).Nodup
  rooms : ∀ g ∈ s.groups, ∀ room ∈ g.2, idsOf b room = g.1
  perm : (s.groups.flatMap (·.2)).Perm done
  known : ∀ g ∈ s.groups, (s.subOf.lookup g.1).isSome = true
  good : ∀ k c, s.subOf.lookup k = some c → Good s.heap k c

theorem addTo_keys (gs : List (List Nat × List String)) (k : List Nat) (room : String) :
    (addTo gs k room).map (·.1) = if k ∈ gs.map (·.1) then gs.map (·.1) else gs.map (·.1) ++ [k] := by
  induction gs with
  | nil => simp [addTo]
  | cons g gs ih =>
    simp only [addTo]
    split
    · rename_i h; simp [h]
    · rename_i h
      have : ¬ k = g.1 := fun e => h e.symm
      simp only [List.map_cons, ih, List.mem_cons, this, false_or]
      split <;> simp

theorem addTo_mem (gs : List (List Nat × List String)) (k : List Nat) (room : String) (g) (h : g ∈ addTo gs k room) :
    g ∈ gs ∨ (g.1 = k ∧ (g.2 = [room] ∨ ∃ g' ∈ gs, g'.1 = k ∧ g.2 = g'.2 ++ [room])) := by
  induction gs with
  | nil => simp only [addTo, List.mem_singleton] at h; subst h; simp
  | cons x gs ih =>
    simp only [addTo] at h
    split at h
    · rename_i hx
      rcases List.mem_cons.1 h with rfl | h
      · exact Or.inr ⟨hx, Or.inr ⟨x, by simp, hx, rfl⟩⟩
      · exact Or.inl (List.mem_cons_of_mem _ h)
    · rcases List.mem_cons.1 h with rfl | h
      · exact Or.inl (by simp)
      · rcases ih h with h | ⟨h1, h2 | ⟨g', h3, h4⟩⟩
        · exact Or.inl (List.mem_cons_of_mem _ h)
        · exact Or.inr ⟨h1, Or.inl h2⟩
        · exact Or.inr ⟨h1, Or.inr ⟨g', List.mem_cons_of_mem _ h3, h4⟩⟩

theorem addTo_perm (gs : List (List Nat × List String)) (k : List Nat) (room : String) :
    ((addTo gs k room).flatMap (·.2)).Perm (gs.flatMap (·.2) ++ [room]) := by
  induction gs with
  | nil => simp [addTo]
  | cons g gs ih =>
    simp only [addTo]
    split
    · simp only [List.flatMap_cons, List.append_assoc]
      exact List.Perm.append_left _ List.perm_append_comm
    · simp only [List.flatMap_cons, List.append_assoc]
      exact List.Perm.append_left _ ih

theorem lookup_snoc (l : List (List Nat × S)) (k k' : List Nat) (c : S) :
    (l ++ [(k', c)]).lookup k = match l.lookup k with | some x => some x | none => if k = k' then some c else none := by
  induction l with
  | nil =>
    simp only [List.nil_append, List.lookup_cons, List.lookup_nil]
    cases h : (k == k')
    · have : ¬ k = k' := by simpa using h
      simp [this]
    · have : k = k' := by simpa using h
      simp [this]
  | cons p l ih =>
    obtain ⟨x, y⟩ := p
    rw [List.cons_append, List.lookup_cons, List.lookup_cons]
    cases h : (k == x)
    · exact ih
    · rfl

/-- Combining never breaks what was combined before, and gives a good result. -/
structure CombOK (comb : σ → S → S → σ × S) (b : State S) (Good : σ → List Nat → S → Prop) : Prop where
  ok : ∀ h ids, (∀ i, b.subs[i]? ≠ none → ∃ c, Good h [i] c) → ids ≠ [] → (∀ i ∈ ids, i < b.subs.length) →
    ∃ h' c, combineIDs comb b.subs ids h none = (h', some c) ∧ Good h' ids c ∧ ∀ k c', Good h k c' → Good h' k c'

theorem inv_body (comb : σ → S → S → σ × S) (b : State S) (Good : σ → List Nat → S → Prop) (hc : CombOK comb b Good)
    (s : Built σ S) (done : List String) (room : String) (hi : Inv b Good s done) (hreq : idsOf b room ≠ [])
    (hsing : ∀ i, b.subs[i]? ≠ none → ∃ c, Good s.heap [i] c) :
    Inv b Good (body comb b s room) (done ++ [room]) ∧
    (∀ i, b.subs[i]? ≠ none → ∃ c, Good (body comb b s room).heap [i] c) := by
  have hgroups : ∀ gs, gs = addTo s.groups (idsOf b room) room →
      (gs.map (·.1)).Nodup ∧ (∀ g ∈ gs, ∀ r ∈ g.2, idsOf b r = g.1) ∧ (gs.flatMap (·.2)).Perm (done ++ [room]) ∧
      (∀ g ∈ gs, g.1 = idsOf b room ∨ g ∈ s.groups) := by
    rintro gs rfl
    refine ⟨?_, ?_, (addTo_perm _ _ _).trans (hi.perm.append_right _), ?_⟩
    · rw [addTo_keys]
      split
      · exact hi.keys
      · rename_i hn
        rw [List.nodup_append]
        exact ⟨hi.keys, by simp, fun x hx y hy e => hn (by
          rw [List.mem_singleton] at hy; rw [← hy, ← e]; exact hx)⟩
    · intro g hg r hr
      rcases addTo_mem _ _ _ _ hg with h | ⟨h1, h2 | ⟨g', h3, h4, h5⟩⟩
      · exact hi.rooms g h r hr
      · rw [h2, List.mem_singleton] at hr; rw [hr, h1]
      · rw [h5, List.mem_append, List.mem_singleton] at hr
        rcases hr with hr | rfl
        · rw [hi.rooms g' h3 r hr, h4, h1]
        · exact h1.symm
    · intro g hg
      rcases addTo_mem _ _ _ _ hg with h | ⟨h1, _⟩
      · exact Or.inr h
      · exact Or.inl h1
  obtain ⟨g1, g2, g3, g4⟩ := hgroups _ rfl
  unfold body
  simp only
  cases hl : s.subOf.lookup (idsOf b room) with
  | some c =>
    simp only
    refine ⟨⟨g1, g2, g3, ?_, hi.good⟩, hsing⟩
    intro g hg
    rcases g4 g hg with e | h
    · rw [e, hl]; rfl
    · exact hi.known g h
  | none =>
    obtain ⟨h', c, e1, e2, e3⟩ := hc.ok s.heap (idsOf b room) hsing hreq fun i hi' =>
      (((idsOf_askers b room).mem i).1 hi').1
    rw [e1]
    simp only
    refine ⟨⟨g1, g2, g3, ?_, ?_⟩, ?_⟩
    · intro g hg
      rw [lookup_snoc]
      rcases g4 g hg with e | h
      · rw [e, hl]; simp
      · have := hi.known g h
        cases hk : s.subOf.lookup g.1 with
        | none => rw [hk] at this; cases this
        | some _ => rfl
    · intro k c' hk
      rw [lookup_snoc] at hk
      cases hk' : s.subOf.lookup k with
      | some x =>
        rw [hk'] at hk
        simp only [Option.some.injEq] at hk
        subst hk
        exact e3 _ _ (hi.good _ _ hk')
      | none =>
        rw [hk'] at hk
        simp only at hk
        split at hk
        · rename_i ek
          simp only [Option.some.injEq] at hk
          subst hk; subst ek
          exact e2
        · cases hk
    · intro i hi'
      obtain ⟨c, hc'⟩ := hsing i hi'
      exact ⟨c, e3 _ _ hc'⟩

theorem lookup_singles_aux (l : List S) (n : Nat) (k : List Nat) (c : S) :
    ((l.zipIdx n).map fun p => (([p.2] : List Nat), p.1)).lookup k = some c → ∃ i, k = [n + i] ∧ l[i]? = some c := by
  induction l generalizing n with
  | nil => intro h; simp at h
  | cons x l ih =>
    intro h
    rw [List.zipIdx_cons, List.map_cons, List.lookup_cons] at h
    cases hk : (k == [n]) with
    | true =>
      rw [hk] at h
      simp only [Option.some.injEq] at h
      exact ⟨0, by simpa using hk, by simp [h]⟩
    | false =>
      rw [hk] at h
      obtain ⟨i, h1, h2⟩ := ih (n + 1) h
      exact ⟨i + 1, by rw [h1, show n + 1 + i = n + (i + 1) by omega], by simpa using h2⟩

theorem nodup_flatMap_nodup (l : List (List Nat × List String)) (h : (l.flatMap (·.2)).Nodup) : ∀ g ∈ l, g.2.Nodup := by
  intro g hg
  induction l with
  | nil => cases hg
  | cons x l ih =>
    rw [List.flatMap_cons, List.nodup_append] at h
    rcases List.mem_cons.1 hg with rfl | hg
    · exact h.1
    · exact ih h.2.1 hg

theorem build_spec (comb : σ → S → S → σ × S) (b : State S) (Good : σ → List Nat → S → Prop) (hc : CombOK comb b Good)
    (h : σ) (order : List String) (hk : KnownIDs b) (ho : IsOrder b order)
    (hinit : ∀ i c, b.subs[i]? = some c → Good h [i] c) :
    ∃ h' res, build comb h b order = some (h', res) ∧ (res.flatMap (·.2)).Perm order ∧
      ∀ p ∈ res, ∀ room ∈ p.2, Good h' (idsOf b room) p.1 := by
  unfold build
  have hno : (b.rooms.any fun p => decide (b.subs.length ≤ p.1) && !p.2.isEmpty) = false := by
    rw [Bool.eq_false_iff]
    intro hh
    rw [List.any_eq_true] at hh
    obtain ⟨p, hp, h2⟩ := hh
    simp only [Bool.and_eq_true, decide_eq_true_eq, Bool.not_eq_true'] at h2
    obtain ⟨i, rs⟩ := p
    cases rs with
    | nil => simp at h2
    | cons r rs =>
      have := hk i r ⟨_, hp, rfl, by simp⟩
      simp only at h2; omega
  rw [hno]
  simp only [Bool.false_eq_true, if_false]
  generalize hinits : (⟨h, b.subs.zipIdx.map fun p => ([p.2], p.1), []⟩ : Built σ S) = init
  have hI : Inv b Good init [] := by
    subst hinits
    refine ⟨by simp, by simp, by simp, by simp, ?_⟩
    intro k c hl
    obtain ⟨i, h1, h2⟩ := lookup_singles_aux b.subs 0 k c hl
    rw [h1, Nat.zero_add]
    exact hinit i c h2
  have hS : ∀ i, b.subs[i]? ≠ none → ∃ c, Good init.heap [i] c := by
    subst hinits
    intro i hi
    cases hs : b.subs[i]? with
    | none => exact absurd hs hi
    | some c => exact ⟨c, hinit i c hs⟩
  have main : ∀ (todo done : List String) (s : Built σ S), Inv b Good s done →
      (∀ i, b.subs[i]? ≠ none → ∃ c, Good s.heap [i] c) → (∀ r ∈ todo, idsOf b r ≠ []) →
      Inv b Good (todo.foldl (body comb b) s) (done ++ todo) := by
    intro todo
    induction todo with
    | nil => intro done s hs _ _; simpa using hs
    | cons r todo ih =>
      intro done s hs hsing ht
      obtain ⟨h1, h2⟩ := inv_body comb b Good hc s done r hs (ht r (by simp)) hsing
      have := ih (done ++ [r]) _ h1 h2 fun x hx => ht x (by simp [hx])
      simpa using this
  have hfin := main order [] init hI hS (by
    intro r hr
    obtain ⟨i, hi⟩ := (ho.mem r).1 hr
    have : i ∈ idsOf b r := ((idsOf_askers b r).mem i).2 ⟨hk i r hi, hi⟩
    intro e; rw [e] at this; cases this)
  rw [List.nil_append] at hfin
  refine ⟨_, _, rfl, ?_, ?_⟩
  · refine List.Perm.trans ?_ hfin.perm
    have hknown := hfin.known
    generalize (order.foldl (body comb b) init).subOf = so at hknown
    generalize (order.foldl (body comb b) init).groups = gs at hknown
    have : (gs.filterMap fun g => (so.lookup g.1).map fun s => (s, g.2)).flatMap (·.2) = gs.flatMap (·.2) := by
      induction gs with
      | nil => rfl
      | cons g gs ih =>
        have h1 := hknown g (by simp)
        cases hl : so.lookup g.1 with
        | none => rw [hl] at h1; cases h1
        | some x =>
          rw [List.filterMap_cons, hl]
          simp only [Option.map_some, List.flatMap_cons]
          rw [ih fun g' hg' => hknown g' (by simp [hg'])]
    rw [this]
  · intro p hp room hr
    rw [List.mem_filterMap] at hp
    obtain ⟨g, hg, hm⟩ := hp
    cases hl : (order.foldl (body comb b) init).subOf.lookup g.1 with
    | none => rw [hl] at hm; cases hm
    | some x =>
      rw [hl] at hm
      simp only [Option.map_some, Option.some.injEq] at hm
      subst hm
      simp only at hr ⊢
      rw [hfin.rooms g hg room hr]
      exact hfin.good _ _ hl

/-! ## Values -/

/-- The combination of several subscriptions, in order. -/
def combineAll : List Request.Sub → Option Request.Sub
  | [] => none
  | s :: ss => some (ss.foldl Request.combine s)

theorem combineIDs_value (subs : List Request.Sub) (ids : List Nat) (hb : ∀ i ∈ ids, i < subs.length) :
    (∀ a, combineIDs valueComb subs ids () (some a) = ((), some ((ids.filterMap (subs[·]?)).foldl Request.combine a))) ∧
    combineIDs valueComb subs ids () none = ((), combineAll (ids.filterMap (subs[·]?))) := by
  induction ids with
  | nil => exact ⟨fun _ => rfl, rfl⟩
  | cons i ids ih =>
    have ih := ih fun x hx => hb x (by simp [hx])
    have hi := hb i (by simp)
    have hs : subs[i]? = some subs[i] := List.getElem?_eq_getElem hi
    refine ⟨?_, ?_⟩
    · intro a
      simp only [combineIDs, hs, valueComb]
      rw [ih.1]
      simp [hs]
    · simp only [combineIDs, hs]
      rw [ih.1]
      simp [hs, combineAll]

/-- C27, with subscriptions as values: whatever the iteration order, every requested room is built
exactly once, and its subscription is the combination of exactly the subscriptions that asked
for it, in the order in which they were added. -/
theorem C27_values (b : State Request.Sub) (order : List String) (hk : KnownIDs b) (ho : IsOrder b order) :
    ∃ res, build valueComb () b order = some ((), res) ∧ (res.flatMap (·.2)).Perm order ∧
      ∀ p ∈ res, ∀ room ∈ p.2, ∀ ids, Askers b room ids → combineAll (ids.filterMap (b.subs[·]?)) = some p.1 := by
  obtain ⟨⟨⟩, res, h1, h2, h3⟩ := build_spec valueComb b
    (fun _ ids c => combineAll (ids.filterMap (b.subs[·]?)) = some c)
    ⟨by
      intro h ids _ hne hb
      obtain ⟨⟩ := h
      refine ⟨(), ?_⟩
      have := (combineIDs_value b.subs ids hb).2
      cases ids with
      | nil => exact absurd rfl hne
      | cons i ids =>
        have hi := hb i (by simp)
        have hs : b.subs[i]? = some b.subs[i] := List.getElem?_eq_getElem hi
        rw [this]
        rw [List.filterMap_cons, hs]
        exact ⟨_, rfl, rfl, fun _ _ h => h⟩⟩
    () order hk ho (by
      intro i c hi
      simp [hi, combineAll])
  exact ⟨res, h1, h2, fun p hp room hr ids ha => by rw [askers_unique ha]; exact h3 p hp room hr⟩

/-- `IncludesRoom` says whether the room was requested. -/
theorem C27_includes (b : State S) (room : String) : includesRoom b room = true ↔ Requested b room := by
  unfold includesRoom Requested Asks
  simp only [List.any_eq_true, decide_eq_true_eq, exists_eq_right]
  constructor
  · rintro ⟨p, hp, h⟩; exact ⟨p.1, p, hp, rfl, h⟩
  · rintro ⟨i, p, hp, _, h⟩; exact ⟨p, hp, h⟩

/-! ## Slices -/

/-- The slices of the subscriptions have no spare capacity. -/
def NoSpare (h : Heap) (subs : List GSub) : Prop :=
  ∀ s ∈ subs, ∀ a n, s.rs = some (a, n) → ∃ arr, h[a]? = some arr ∧ n = arr.length

/-- The slice lies inside the heap. -/
def Inside (h : Heap) (s : Slice) : Prop := ∀ a n, s = some (a, n) → a < h.length

theorem read_ext (h ext : Heap) (s : Slice) (hi : Inside h s) : read (h ++ ext) s = read h s := by
  cases s with
  | none => rfl
  | some p =>
    obtain ⟨a, n⟩ := p
    simp only [read]
    rw [List.getElem?_append_left (hi a n rfl)]

/-- The accumulated slice is either a full slice of the start heap or an array made since. -/
def Own (h0 h : Heap) (s : Slice) : Prop :=
  ∀ a n, s = some (a, n) → (a < h0.length ∧ ∃ arr, h0[a]? = some arr ∧ n = arr.length) ∨
    (h0.length ≤ a ∧ ∃ arr, h[a]? = some arr ∧ n ≤ arr.length)

theorem goAppend_own (grow : Nat → Nat → Nat) (h0 ext : Heap) (s : Slice) (xs : List Entry) (ho : Own h0 (h0 ++ ext) s) :
    ∃ ext', (goAppend grow (h0 ++ ext) s xs).1 = h0 ++ ext' ∧ Own h0 (h0 ++ ext') (goAppend grow (h0 ++ ext) s xs).2 ∧
      read (h0 ++ ext') (goAppend grow (h0 ++ ext) s xs).2 = read (h0 ++ ext) s ++ xs := by
  cases xs with
  | nil => exact ⟨ext, rfl, ho, by simp [goAppend]⟩
  | cons x xs =>
    cases s with
    | none =>
      simp only [goAppend]
      refine ⟨_, List.append_assoc _ _ _, ?_, ?_⟩
      · intro a n e
        simp only [Option.some.injEq, Prod.mk.injEq] at e
        obtain ⟨rfl, rfl⟩ := e
        right
        refine ⟨by simp, _, by rw [← List.append_assoc, List.getElem?_concat_length], by simp⟩
      · unfold read
        simp only
        rw [← List.append_assoc, List.getElem?_concat_length]
        simp
    | some p =>
      obtain ⟨a, n⟩ := p
      simp only [goAppend]
      rcases ho a n rfl with ⟨hlt, arr, harr, hn⟩ | ⟨hge, arr, harr, hn⟩
      · have ha : (h0 ++ ext)[a]? = some arr := by rw [List.getElem?_append_left hlt]; exact harr
        simp only [ha, Option.getD_some]
        rw [if_neg (by subst hn; simp)]
        refine ⟨_, List.append_assoc _ _ _, ?_, ?_⟩
        · intro a' n' e
          simp only [Option.some.injEq, Prod.mk.injEq] at e
          obtain ⟨rfl, rfl⟩ := e
          right
          refine ⟨by simp, _, by rw [← List.append_assoc, List.getElem?_concat_length], by simp [hn]⟩
        · unfold read
          simp only
          rw [← List.append_assoc, List.getElem?_concat_length, ha]
          simp only [Option.getD_some]
          rw [List.take_append_of_le_length (by simp only [List.length_append, List.length_take]; omega)]
          rw [List.take_of_length_le (by simp only [List.length_append, List.length_take]; omega)]
      · simp only [harr, Option.getD_some]
        have halt : a < (h0 ++ ext).length := by
          apply Classical.byContradiction
          intro hc
          rw [List.getElem?_eq_none (by omega)] at harr
          cases harr
        split
        · rename_i hcap
          refine ⟨ext.set (a - h0.length) (write arr n (x :: xs)), ?_, ?_, ?_⟩
          · rw [List.set_append_right _ _ hge]
          · intro a' n' e
            simp only [Option.some.injEq, Prod.mk.injEq] at e
            obtain ⟨rfl, rfl⟩ := e
            right
            refine ⟨hge, write arr n (x :: xs), ?_, ?_⟩
            · rw [← List.set_append_right _ _ hge, List.getElem?_set_self halt]
            · simp only [write, List.length_append, List.length_take, List.length_drop]
              omega
          · unfold read
            simp only
            rw [← List.set_append_right _ _ hge, List.getElem?_set_self halt, harr]
            simp only [Option.getD_some, write]
            rw [List.take_append_of_le_length (by simp only [List.length_append, List.length_take]; omega)]
            rw [List.take_of_length_le (by simp only [List.length_append, List.length_take]; omega)]
        · refine ⟨_, List.append_assoc _ _ _, ?_, ?_⟩
          · intro a' n' e
            simp only [Option.some.injEq, Prod.mk.injEq] at e
            obtain ⟨rfl, rfl⟩ := e
            right
            refine ⟨by simp, _, by rw [← List.append_assoc, List.getElem?_concat_length], ?_⟩
            simp; omega
          · unfold read
            simp only
            rw [← List.append_assoc, List.getElem?_concat_length, harr]
            simp only [Option.getD_some]
            rw [List.take_append_of_le_length (by simp only [List.length_append, List.length_take]; omega)]
            rw [List.take_of_length_le (by simp only [List.length_append, List.length_take]; omega)]

/-- What the combination of these subscriptions should be: all the required state, in order, and
the largest limit. -/
structure Union (h0 : Heap) (subs : List GSub) (ids : List Nat) (reqState : List Entry) (limit : Int) : Prop where
  state : reqState = (ids.filterMap (subs[·]?)).flatMap fun s => read h0 s.rs
  ge : ∀ s ∈ ids.filterMap (subs[·]?), s.limit ≤ limit
  one : ∃ s ∈ ids.filterMap (subs[·]?), s.limit = limit

theorem combine_slices (grow : Nat → Nat → Nat) (h0 : Heap) (subs : List GSub) (hsp : NoSpare h0 subs)
    (h1 : Heap) (hext : ∃ e, h1 = h0 ++ e) (ids : List Nat) (hb : ∀ i ∈ ids, i < subs.length) :
    ∀ (a : GSub) (ext : Heap), Own h1 (h1 ++ ext) a.rs →
    ∃ ext' c, combineIDs (sliceComb grow) subs ids (h1 ++ ext) (some a) = (h1 ++ ext', some c) ∧ Own h1 (h1 ++ ext') c.rs ∧
      read (h1 ++ ext') c.rs = read (h1 ++ ext) a.rs ++ (ids.filterMap (subs[·]?)).flatMap (fun s => read h0 s.rs) ∧
      a.limit ≤ c.limit ∧ (∀ s ∈ ids.filterMap (subs[·]?), s.limit ≤ c.limit) ∧
      (c.limit = a.limit ∨ ∃ s ∈ ids.filterMap (subs[·]?), s.limit = c.limit) := by
  induction ids with
  | nil => intro a ext ho; exact ⟨ext, a, rfl, ho, by simp, Int.le_refl _, by simp, Or.inl rfl⟩
  | cons i ids ih =>
    intro a ext ho
    have hi := hb i (by simp)
    have hs : subs[i]? = some subs[i] := List.getElem?_eq_getElem hi
    obtain ⟨e0, rfl⟩ := hext
    have hin : Inside h0 subs[i].rs := by
      intro x n e
      obtain ⟨arr, harr, _⟩ := hsp _ (List.getElem_mem hi) x n e
      exact (List.getElem?_eq_some_iff.1 harr).1
    have hread : read (h0 ++ e0 ++ ext) subs[i].rs = read h0 subs[i].rs := by
      rw [List.append_assoc, read_ext _ _ _ hin]
    obtain ⟨ext1, g1, g2, g3⟩ := goAppend_own grow (h0 ++ e0) ext a.rs (read h0 subs[i].rs) ho
    simp only [combineIDs, hs, sliceComb, hread]
    rw [g1]
    have := ih (fun x hx => hb x (by simp [hx]))
      ⟨if a.limit > subs[i].limit then a.limit else subs[i].limit, (goAppend grow (h0 ++ e0 ++ ext) a.rs (read h0 subs[i].rs)).2⟩
      ext1 g2
    obtain ⟨ext2, c, k1, k2, k3, k4, k5, k6⟩ := this
    refine ⟨ext2, c, k1, k2, ?_, ?_, ?_, ?_⟩
    · rw [k3, g3, List.append_assoc, List.filterMap_cons, hs]; rfl
    · simp only at k4; split at k4 <;> omega
    · intro s hs'
      rw [List.filterMap_cons, hs] at hs'
      rcases List.mem_cons.1 hs' with rfl | hs'
      · simp only at k4; split at k4 <;> omega
      · exact k5 s hs'
    · rw [List.filterMap_cons, hs]
      rcases k6 with k6 | ⟨s, hs', e⟩
      · simp only at k6
        split at k6
        · exact Or.inl k6
        · exact Or.inr ⟨subs[i], by simp, k6.symm⟩
      · exact Or.inr ⟨s, List.mem_cons_of_mem _ hs', e⟩

/-- C27, with slices, partial: if the required state slices of the subscriptions have no spare
capacity, then (for every growth policy of `append`, every iteration order) every requested room is
built exactly once, and the required state read afterwards is all of what the subscriptions that
asked for it require, and the limit is the largest of theirs.  Missing: slices with spare capacity
(`C27_violated`). -/
theorem C27_slices_partial (grow : Nat → Nat → Nat) (h : Heap) (b : State GSub) (order : List String)
    (hk : KnownIDs b) (ho : IsOrder b order) (hsp : NoSpare h b.subs) :
    ∃ h' res, build (sliceComb grow) h b order = some (h', res) ∧ (res.flatMap (·.2)).Perm order ∧
      ∀ p ∈ res, ∀ room ∈ p.2, ∀ ids, Askers b room ids → Union h b.subs ids (read h' p.1.rs) p.1.limit := by
  have inside : ∀ s ∈ b.subs, Inside h s.rs := by
    intro s hs x n e
    obtain ⟨arr, harr, _⟩ := hsp s hs x n e
    exact (List.getElem?_eq_some_iff.1 harr).1
  obtain ⟨h', res, h1, h2, h3⟩ := build_spec (sliceComb grow) b
    (fun h' ids c => (∃ e, h' = h ++ e) ∧ Inside h' c.rs ∧ Union h b.subs ids (read h' c.rs) c.limit)
    ⟨by
      intro h1 ids hg hne hb
      cases ids with
      | nil => exact absurd rfl hne
      | cons i ids =>
        have hi := hb i (by simp)
        have hs : b.subs[i]? = some b.subs[i] := List.getElem?_eq_getElem hi
        obtain ⟨_, ⟨e, rfl⟩, _, _⟩ := hg i (by rw [hs]; simp)
        have own : Own (h ++ e) (h ++ e ++ []) b.subs[i].rs := by
          intro a n ea
          left
          obtain ⟨arr, harr, hn⟩ := hsp _ (List.getElem_mem hi) a n ea
          have hlt := (List.getElem?_eq_some_iff.1 harr).1
          exact ⟨by simp; omega, arr, by rw [List.getElem?_append_left hlt]; exact harr, hn⟩
        obtain ⟨ext', c, k1, k2, k3, k4, k5, k6⟩ := combine_slices grow h b.subs hsp (h ++ e) ⟨e, rfl⟩ ids
          (fun x hx => hb x (by simp [hx])) b.subs[i] [] own
        rw [List.append_nil] at k1 k3
        refine ⟨h ++ e ++ ext', c, ?_, ⟨⟨e ++ ext', by simp⟩, ?_, ?_⟩, ?_⟩
        · simp only [combineIDs, hs]; exact k1
        · intro a n ea
          rcases k2 a n ea with ⟨hlt, _⟩ | ⟨_, arr, harr, _⟩
          · simp at hlt ⊢; omega
          · exact (List.getElem?_eq_some_iff.1 harr).1
        · rw [k3, read_ext _ _ _ (inside _ (List.getElem_mem hi))]
          refine ⟨?_, ?_, ?_⟩
          · rw [List.filterMap_cons, hs]; rfl
          · intro s hs'
            rw [List.filterMap_cons, hs] at hs'
            rcases List.mem_cons.1 hs' with rfl | hs'
            · exact k4
            · exact k5 s hs'
          · rw [List.filterMap_cons, hs]
            rcases k6 with k6 | ⟨s, hs', e⟩
            · exact ⟨b.subs[i], by simp, k6.symm⟩
            · exact ⟨s, List.mem_cons_of_mem _ hs', e⟩
        · rintro k c' ⟨_, hin, hu⟩
          refine ⟨⟨e ++ ext', by simp⟩, ?_, ?_⟩
          · intro a n ea
            have := hin a n ea
            simp at this ⊢; omega
          · rw [read_ext _ _ _ hin]; exact hu⟩
    h order hk ho (by
      intro i c hi
      refine ⟨⟨[], by simp⟩, inside c (List.mem_of_getElem? hi), ?_⟩
      refine ⟨by simp [hi], by simp [hi], by simp [hi]⟩)
  exact ⟨h', res, h1, h2, fun p hp room hr ids ha => by rw [askers_unique ha]; exact (h3 p hp room hr).2.2⟩

/-- C27 is violated when a required state slice has spare capacity (three entries decoded from JSON
have capacity four): rooms `!a` and `!b` are in a common list and each in one more list; the two
combined slices share the array of the common one, and `!a` is built with the entry of the list of `!b`
instead of its own. -/
theorem C27_violated (grow : Nat → Nat → Nat) : ∃ (h : Heap) (b : State GSub) (order : List String) (h' : Heap)
    (res : List (GSub × List String)),
    KnownIDs b ∧ IsOrder b order ∧ build (sliceComb grow) h b order = some (h', res) ∧
    ∃ p ∈ res, ∃ room ∈ p.2, ∃ ids, Askers b room ids ∧ ∃ i ∈ ids, ∃ s, b.subs[i]? = some s ∧
      ∃ e ∈ read h s.rs, e ∉ read h' p.1.rs := by
  let h : Heap := [[("m.room.name", ""), ("m.room.topic", ""), ("m.room.avatar", ""), ("", "")],
    [("m.room.encryption", "")], [("m.space.child", "*")]]
  let b : State GSub := ⟨[⟨1, some (0, 3)⟩, ⟨1, some (1, 1)⟩, ⟨1, some (2, 1)⟩],
    [(0, ["!a", "!b"]), (1, ["!a"]), (2, ["!b"])]⟩
  have hA : ∀ i room, Asks b i room ↔ (i = 0 ∧ (room = "!a" ∨ room = "!b")) ∨ (i = 1 ∧ room = "!a") ∨ (i = 2 ∧ room = "!b") := by
    intro i room
    constructor
    · rintro ⟨p, hp, rfl, hr⟩
      simp only [b, List.mem_cons, List.not_mem_nil, or_false] at hp
      rcases hp with rfl | rfl | rfl <;> simpa using hr
    · rintro (⟨rfl, hr⟩ | ⟨rfl, rfl⟩ | ⟨rfl, rfl⟩)
      · exact ⟨(0, ["!a", "!b"]), by simp [b], rfl, by simpa using hr⟩
      · exact ⟨(1, ["!a"]), by simp [b], rfl, by simp⟩
      · exact ⟨(2, ["!b"]), by simp [b], rfl, by simp⟩
  refine ⟨h, b, ["!a", "!b"], [[("m.room.name", ""), ("m.room.topic", ""), ("m.room.avatar", ""), ("m.space.child", "*")],
    [("m.room.encryption", "")], [("m.space.child", "*")]],
    [(⟨1, some (0, 4)⟩, ["!a"]), (⟨1, some (0, 4)⟩, ["!b"])], ?_, ?_, rfl, ?_⟩
  · intro i room ha
    have := (hA i room).1 ha
    show i < 3
    omega
  · refine ⟨by decide, ?_⟩
    intro room
    constructor
    · intro hr
      simp only [List.mem_cons, List.not_mem_nil, or_false] at hr
      exact ⟨0, (hA 0 room).2 (Or.inl ⟨rfl, hr⟩)⟩
    · rintro ⟨i, hi⟩
      rcases (hA i room).1 hi with ⟨_, h | h⟩ | ⟨_, h⟩ | ⟨_, h⟩ <;> simp [h]
  · refine ⟨(⟨1, some (0, 4)⟩, ["!a"]), by simp, "!a", by simp, [0, 1], ?_, 1, by simp, ⟨1, some (1, 1)⟩, rfl, ("m.room.encryption", ""), ?_, ?_⟩
    · exact (show idsOf b "!a" = [0, 1] by decide +kernel) ▸ idsOf_askers b "!a"
    · decide
    · decide

/-- Three lists and one subscription; the rooms of the first and second overlap. -/
example :
    let h : Heap := [[("m.room.name", ""), ("m.room.topic", "")], [("m.room.encryption", "")]]
    let b := run [.addSub ⟨1, some (0, 2)⟩, .addRooms 0 ["!a", "!b"], .addSub (S := GSub) ⟨5, some (1, 1)⟩,
      .addRooms 1 ["!b", "!c"], .addRooms 1 ["!c"]]
    (build (sliceComb fun _ n => 2 * n) h b ["!c", "!a", "!b"]).map (fun r => r.2.map fun p => (read r.1 p.1.rs, p.1.limit, p.2)) =
      some [([("m.room.encryption", "")], 5, ["!c"]),
        ([("m.room.name", ""), ("m.room.topic", "")], 1, ["!a"]),
        ([("m.room.name", ""), ("m.room.topic", ""), ("m.room.encryption", "")], 5, ["!b"])] := by
  decide +kernel

end Verif.RoomsBuilder
