import Verif.SortableRooms
import Verif.ListOpsProps
/-! # C07, C08: sorting and the index map -/
namespace Verif.SortableRooms
open Verif.Util

/-! ## Specification of the orders -/

/-- The group a room belongs to when sorting by notification level. -/
def levelRank (m : Meta) : Nat :=
  if m.highlight > 0 then 0 else if m.notif > 0 then (if m.encrypted then 1 else 2) else 3

/-- The supported orders: does a room with metadata `a` come strictly before one
with `b`? -/
def before : String → Option (Meta → Meta → Prop)
  | "by_name" => some fun a b => a.name < b.name
  | "by_recency" => some fun a b => a.ts > b.ts
  | "by_notification_level" => some fun a b => levelRank a < levelRank b
  | "by_notification_count" => some fun a b => a.notif > b.notif
  | "by_highlight_count" => some fun a b => a.highlight > b.highlight
  | _ => none

/-- A sort order is supported. -/
def Supported (s : String) : Prop := before s ≠ none

/-- Lexicographic combination: the first order that separates the rooms decides.
Unsupported orders never separate. -/
def Precedes : List String → Meta → Meta → Prop
  | [], _, _ => False
  | s :: ss, a, b =>
    match before s with
    | none => Precedes ss a b
    | some R => R a b ∨ (¬ R b a ∧ Precedes ss a b)

/-! ## Strict weak orders -/

/-- Strict weak order: asymmetric and negatively transitive. -/
def SWO (P : Meta → Meta → Prop) : Prop :=
  (∀ a b, P a b → ¬ P b a) ∧ (∀ a b c, P a c → P a b ∨ P b c)

theorem swo_lex {P Q : Meta → Meta → Prop} (hP : SWO P) (hQ : SWO Q) :
    SWO fun a b => P a b ∨ (¬ P b a ∧ Q a b) := by
  constructor
  · rintro a b (h | ⟨h1, h2⟩) (h' | ⟨h1', h2'⟩)
    · exact hP.1 _ _ h h'
    · exact h1' h
    · exact h1 h'
    · exact hQ.1 _ _ h2 h2'
  · rintro a b c (h | ⟨h1, h2⟩)
    · rcases hP.2 a b c h with h | h
      · exact Or.inl (Or.inl h)
      · exact Or.inr (Or.inl h)
    · by_cases hab : P a b
      · exact Or.inl (Or.inl hab)
      · by_cases hbc : P b c
        · exact Or.inr (Or.inl hbc)
        · have hba : ¬ P b a := by
            intro h
            rcases hP.2 b c a h with h | h
            · exact hbc h
            · exact h1 h
          have hcb : ¬ P c b := by
            intro h
            rcases hP.2 c a b h with h | h
            · exact h1 h
            · exact hab h
          rcases hQ.2 a b c h2 with h | h
          · exact Or.inl (Or.inr ⟨hba, h⟩)
          · exact Or.inr (Or.inr ⟨hcb, h⟩)

theorem swo_key {K : Type} (lt : K → K → Prop) (f : Meta → K)
    (asymm : ∀ x y, lt x y → ¬ lt y x) (neg : ∀ x y z, lt x z → lt x y ∨ lt y z) :
    SWO fun a b => lt (f a) (f b) :=
  ⟨fun _ _ h => asymm _ _ h, fun _ _ _ h => neg _ _ _ h⟩

theorem before_cases (s : String) (P : Meta → Meta → Prop) (h : before s = some P) :
    (s = "by_name" ∧ P = fun a b => a.name < b.name) ∨
    (s = "by_recency" ∧ P = fun a b => a.ts > b.ts) ∨
    (s = "by_notification_level" ∧ P = fun a b => levelRank a < levelRank b) ∨
    (s = "by_notification_count" ∧ P = fun a b => a.notif > b.notif) ∨
    (s = "by_highlight_count" ∧ P = fun a b => a.highlight > b.highlight) := by
  unfold before at h
  split at h
  all_goals simp at h
  all_goals subst h
  all_goals simp

theorem swo_before {s : String} {P : Meta → Meta → Prop} (h : before s = some P) : SWO P := by
  rcases before_cases s P h with ⟨_, rfl⟩ | ⟨_, rfl⟩ | ⟨_, rfl⟩ | ⟨_, rfl⟩ | ⟨_, rfl⟩
  · refine swo_key (fun x y : String => x < y) (·.name) (fun x y h => String.lt_asymm h) ?_
    intro x y z h
    by_cases hxy : x < y
    · exact Or.inl hxy
    · right
      have hyx : y ≤ x := String.not_lt.1 hxy
      exact Std.lt_of_le_of_lt hyx h
  · refine swo_key (fun x y : Nat => x > y) (·.ts) ?_ ?_ <;> intros <;> omega
  · refine swo_key (fun x y : Nat => x < y) levelRank ?_ ?_ <;> intros <;> omega
  · refine swo_key (fun x y : Int => x > y) (·.notif) ?_ ?_ <;> intros <;> omega
  · refine swo_key (fun x y : Int => x > y) (·.highlight) ?_ ?_ <;> intros <;> omega

theorem swo_precedes (ss : List String) : SWO (Precedes ss) := by
  induction ss with
  | nil => exact ⟨fun _ _ h => h.elim, fun _ _ _ h => h.elim⟩
  | cons s ss ih =>
    cases hb : before s with
    | none =>
      have e : Precedes (s :: ss) = Precedes ss := by funext a b; simp [Precedes, hb]
      rw [e]; exact ih
    | some P =>
      have e : Precedes (s :: ss) = fun a b => P a b ∨ (¬ P b a ∧ Precedes ss a b) := by
        funext a b; simp [Precedes, hb]
      rw [e]; exact swo_lex (swo_before hb) ih

/-! ## The comparators implement the orders -/

theorem cmpOf_spec (s : String) :
    (cmpOf s = none ∧ before s = none) ∨
    ∃ c P, cmpOf s = some c ∧ before s = some P ∧
      ∀ a b, (c a b = 1 ↔ P a b) ∧ (c a b = -1 ↔ P b a) := by
  by_cases h1 : s = "by_highlight_count"
  · subst h1
    refine Or.inr ⟨cmpHighlight, _, by simp [cmpOf], rfl, ?_⟩
    intro a b; unfold cmpHighlight
    split
    · constructor <;> constructor <;> intro h <;> first | omega | cases h
    · split <;> constructor <;> constructor <;> intro h <;> first | omega | rfl | cases h
  by_cases h2 : s = "by_notification_count"
  · subst h2
    refine Or.inr ⟨cmpNotif, _, by simp [cmpOf], rfl, ?_⟩
    intro a b; unfold cmpNotif
    split
    · constructor <;> constructor <;> intro h <;> first | omega | cases h
    · split <;> constructor <;> constructor <;> intro h <;> first | omega | rfl | cases h
  by_cases h3 : s = "by_name"
  · subst h3
    refine Or.inr ⟨cmpName, _, by simp [cmpOf], rfl, ?_⟩
    intro a b; unfold cmpName
    split
    · rename_i e
      rw [e]
      have := String.lt_irrefl b.name
      simp [this]
    · rename_i hne
      split
      · rename_i hlt
        have := String.lt_asymm hlt
        simp [hlt, this]
      · rename_i hge
        have hle := String.not_lt.1 hge
        have : b.name < a.name := by
          apply Classical.byContradiction
          intro hn
          exact hne (String.le_antisymm (String.not_lt.1 hn) hle)
        simp [hge, this]
  by_cases h4 : s = "by_recency"
  · subst h4
    refine Or.inr ⟨cmpRecency, _, by simp [cmpOf], rfl, ?_⟩
    intro a b; unfold cmpRecency
    split
    · constructor <;> constructor <;> intro h <;> first | omega | cases h
    · split <;> constructor <;> constructor <;> intro h <;> first | omega | rfl | cases h
  by_cases h5 : s = "by_notification_level"
  · subst h5
    refine Or.inr ⟨cmpLevel, _, by simp [cmpOf], rfl, ?_⟩
    intro a b
    obtain ⟨an, at_, ah, ac, ae⟩ := a
    obtain ⟨bn, bt, bh, bc, be⟩ := b
    simp only [cmpLevel, levelRank]
    by_cases x1 : ah > 0 <;> by_cases x2 : bh > 0 <;> by_cases x3 : ac > 0 <;> by_cases x4 : bc > 0 <;>
      cases ae <;> cases be <;> simp [x1, x2, x3, x4]
  left
  constructor
  · simp [cmpOf, h1, h2, h3, h4, h5]
  · unfold before
    split <;> first | contradiction | rfl

theorem cmpsOf_spec (ss : List String) :
    (cmpsOf ss = none ∧ ∃ s ∈ ss, ¬ Supported s) ∨
    ∃ cs, cmpsOf ss = some cs ∧ (∀ s ∈ ss, Supported s) ∧ ∀ a b, less cs a b = true ↔ Precedes ss a b := by
  induction ss with
  | nil => exact Or.inr ⟨[], rfl, by simp, by simp [less, Precedes]⟩
  | cons s ss ih =>
    rcases cmpOf_spec s with ⟨h1, h2⟩ | ⟨c, P, h1, h2, h3⟩
    · left
      exact ⟨by simp [cmpsOf, h1], s, by simp, by simp [Supported, h2]⟩
    · rcases ih with ⟨h4, s', hs', hn⟩ | ⟨cs, h4, h5, h6⟩
      · left
        exact ⟨by simp [cmpsOf, h1, h4], s', by simp [hs'], hn⟩
      · right
        refine ⟨c :: cs, by simp [cmpsOf, h1, h4], ?_, ?_⟩
        · intro x hx
          rcases List.mem_cons.1 hx with rfl | hx
          · simp [Supported, h2]
          · exact h5 x hx
        · intro a b
          simp only [less, Precedes, h2]
          obtain ⟨g1, g2⟩ := h3 a b
          by_cases hc1 : c a b = 1
          · simp [hc1, g1.1 hc1]
          · by_cases hc2 : c a b = -1
            · have := g2.1 hc2
              have hn : ¬ P a b := fun h => hc1 (g1.2 h)
              simp [hc2, this, hn]
            · have hn1 : ¬ P a b := fun h => hc1 (g1.2 h)
              have hn2 : ¬ P b a := fun h => hc2 (g2.2 h)
              simp [hc1, hc2, hn1, hn2, h6]

/-! ## Stability of the sort -/

theorem oinsert_sublist {α} (le : α → α → Bool) (a : α) (l : List α) : l.Sublist (oinsert le a l) := by
  induction l with
  | nil => simp [oinsert]
  | cons b l ih =>
    simp only [oinsert]
    split
    · exact List.sublist_cons_self _ _
    · exact ih.cons_cons b

theorem oinsert_pair {α} {le : α → α → Bool}
    {a x : α} {l : List α}
    (hs : l.Pairwise fun x y => le x y = true) (hx : x ∈ l) (hle : le a x = true) :
    [a, x].Sublist (oinsert le a l) := by
  induction l with
  | nil => cases hx
  | cons b l ih =>
    rw [List.pairwise_cons] at hs
    simp only [oinsert]
    split
    · exact List.Sublist.cons_cons a (List.singleton_sublist.2 hx)
    · rename_i hab
      rcases List.mem_cons.1 hx with rfl | hx
      · exact absurd hle hab
      · exact (ih hs.2 hx).cons b

theorem isort_stable {α} {le : α → α → Bool}
    (trans : ∀ a b c, le a b = true → le b c = true → le a c = true)
    (total : ∀ a b, (le a b || le b a) = true) {l : List α} {a b : α}
    (h : [a, b].Sublist l) (hle : le a b = true) : [a, b].Sublist (isort le l) := by
  induction l with
  | nil => cases h
  | cons c l ih =>
    simp only [isort]
    cases h with
    | cons _ h => exact (ih h).trans (oinsert_sublist le c _)
    | cons_cons _ h =>
      have hb : b ∈ isort le l := (isort_perm le l).mem_iff.2 (List.singleton_sublist.1 h)
      exact oinsert_pair (isort_pairwise trans total l) hb hle

theorem filter_oinsert {α} {le : α → α → Bool}
    (trans : ∀ a b c, le a b = true → le b c = true → le a c = true) (p : α → Bool) (a : α) {l : List α}
    (hs : l.Pairwise fun x y => le x y = true) :
    (oinsert le a l).filter p = if p a then oinsert le a (l.filter p) else l.filter p := by
  induction l with
  | nil =>
    simp only [oinsert]
    cases hp : p a <;> simp [oinsert, hp]
  | cons b l ih =>
    rw [List.pairwise_cons] at hs
    simp only [oinsert]
    have head : ∀ l' : List α, (∀ x ∈ l', le a x = true) → oinsert le a l' = a :: l' := by
      intro l' h
      cases l' with
      | nil => rfl
      | cons x l' => simp [oinsert, h x (by simp)]
    by_cases hab : le a b = true
    · rw [if_pos hab]
      have hall : ∀ x ∈ (b :: l).filter p, le a x = true := by
        intro x hx
        rcases List.mem_cons.1 (List.mem_filter.1 hx).1 with rfl | hx
        · exact hab
        · exact trans _ _ _ hab (hs.1 x hx)
      rw [head _ hall, List.filter_cons]
    · rw [if_neg hab, List.filter_cons, ih hs.2, List.filter_cons]
      cases hp : p b <;> cases hpa : p a <;> simp [oinsert, hab]

theorem filter_isort {α} {le : α → α → Bool}
    (trans : ∀ a b c, le a b = true → le b c = true → le a c = true)
    (total : ∀ a b, (le a b || le b a) = true) (p : α → Bool) (l : List α) :
    (isort le l).filter p = isort le (l.filter p) := by
  induction l with
  | nil => rfl
  | cons a l ih =>
    simp only [isort]
    rw [filter_oinsert trans p a (isort_pairwise trans total l), ih, List.filter_cons]
    cases p a <;> simp [isort]

theorem isort_of_sorted {α} {le : α → α → Bool} {l : List α} (h : l.Pairwise fun x y => le x y = true) :
    isort le l = l := by
  induction l with
  | nil => rfl
  | cons a l ih =>
    rw [List.pairwise_cons] at h
    simp only [isort, ih h.2]
    cases l with
    | nil => rfl
    | cons b l => simp [oinsert, h.1 b (by simp)]

/-- The ordering test handed to the sort. -/
theorem le_facts {ss : List String} {cs : List Cmp} (h : ∀ a b, less cs a b = true ↔ Precedes ss a b)
    (finder : String → Meta) :
    (∀ a b c : String, (!less cs (finder b) (finder a)) = true → (!less cs (finder c) (finder b)) = true →
      (!less cs (finder c) (finder a)) = true) ∧
    (∀ a b : String, ((!less cs (finder b) (finder a)) || (!less cs (finder a) (finder b))) = true) := by
  have hs := swo_precedes ss
  have hn : ∀ a b, (!less cs a b) = true ↔ ¬ Precedes ss a b := by
    intro a b
    rw [← h]
    simp
  constructor
  · intro a b c h1 h2
    rw [hn] at *
    intro h3
    rcases hs.2 _ (finder b) _ h3 with h4 | h4
    · exact h2 h4
    · exact h1 h4
  · intro a b
    rw [Bool.or_eq_true, hn, hn]
    by_cases hab : Precedes ss (finder a) (finder b)
    · exact Or.inl (hs.1 _ _ hab)
    · exact Or.inr hab

/-! ## C07 -/

/-- C07. Sorting fails exactly for unsupported orders.  Otherwise the result is a
permutation in which no later room precedes an earlier one, and two rooms of
which the second does not precede the first stay in their order. -/
theorem C07_sort (s : State) (finder : String → Meta) (sortBy : List String) :
    (sort s finder sortBy = none ↔ ∃ o ∈ sortBy, ¬ Supported o) ∧
    ∀ t, sort s finder sortBy = some t →
      t.ids.Perm s.ids ∧
      t.ids.Pairwise (fun earlier later => ¬ Precedes sortBy (finder later) (finder earlier)) ∧
      (∀ a b, [a, b].Sublist s.ids → ¬ Precedes sortBy (finder b) (finder a) → [a, b].Sublist t.ids) := by
  unfold sort
  rcases cmpsOf_spec sortBy with ⟨h1, o, ho, hn⟩ | ⟨cs, h1, h2, h3⟩
  · rw [h1]
    refine ⟨⟨fun _ => ⟨o, ho, hn⟩, fun _ => rfl⟩, ?_⟩
    intro t ht; cases ht
  · rw [h1]
    refine ⟨⟨nofun, ?_⟩, ?_⟩
    · rintro ⟨o, ho, hn⟩; exact absurd (h2 o ho) hn
    · intro t ht
      simp only [Option.some.injEq] at ht
      subst ht
      obtain ⟨tr, tot⟩ := le_facts h3 finder
      have hn : ∀ a b, (!less cs a b) = true ↔ ¬ Precedes sortBy a b := by
        intro a b; rw [← h3]; simp
      refine ⟨isort_perm _ _, ?_, ?_⟩
      · refine (isort_pairwise tr tot s.ids).imp ?_
        intro a b h
        exact (hn _ _).1 h
      · intro a b hab hp
        exact isort_stable tr tot hab ((hn _ _).2 hp)

/-- C07. Sorting again, after the metadata of one room changed, moves at most
that room: this is what the list operations rely on. -/
theorem C07_one_move (s : State) (finder : String → Meta) (sortBy : List String) (room : String)
    (hnd : s.ids.Nodup)
    (hsorted : (s.ids.erase room).Pairwise fun a b => ¬ Precedes sortBy (finder b) (finder a))
    (t : State) (ht : sort s finder sortBy = some t) :
    ListOps.OneMove (fun _ => t.ids) s.ids room := by
  unfold sort at ht
  rcases cmpsOf_spec sortBy with ⟨h1, _⟩ | ⟨cs, h1, h2, h3⟩
  · rw [h1] at ht; cases ht
  · rw [h1] at ht
    simp only [Option.some.injEq] at ht
    subst ht
    obtain ⟨tr, tot⟩ := le_facts h3 finder
    refine ⟨isort_perm _ _, ?_⟩
    simp only
    have hndT : (sortIDs cs finder s.ids).Nodup := (isort_perm _ _).nodup_iff.2 hnd
    rw [hndT.erase_eq_filter, hnd.erase_eq_filter]
    unfold sortIDs
    rw [filter_isort tr tot]
    apply isort_of_sorted
    rw [hnd.erase_eq_filter] at hsorted
    refine hsorted.imp ?_
    intro a b h
    rw [← h3] at h
    simpa using h

example :
    let f : String → Meta := fun r => if r = "a" then ⟨"x", 5, 0, 1, true⟩ else if r = "b" then ⟨"y", 9, 0, 3, false⟩ else ⟨"z", 7, 2, 0, false⟩
    (sort (new ["a", "b", "c"]) f ["by_notification_level", "by_recency"]).map (·.ids) = some ["c", "a", "b"] ∧
    (sort (new ["a", "b", "c"]) f ["by_magic"]).map (·.ids) = none := by decide +kernel

/-! ## C08 -/

/-- The index map agrees with the list. -/
structure Inv (s : State) : Prop where
  nodup : s.ids.Nodup
  idx : ∀ r i, s.idx r = some i ↔ s.ids[i]? = some r

theorem reindex_spec (l : List String) (hnd : l.Nodup) (m : String → Option Nat) (n : Nat) (r : String) :
    reindex m n l r = if r ∈ l then some (n + l.idxOf r) else m r := by
  induction l generalizing m n with
  | nil => simp [reindex]
  | cons x l ih =>
    simp only [reindex]
    rw [List.nodup_cons] at hnd
    rw [ih hnd.2]
    by_cases hrx : r = x
    · subst hrx
      simp [hnd.1]
    · have : ¬ x = r := fun h => hrx h.symm
      by_cases hrl : r ∈ l
      · simp only [hrl, if_true, List.mem_cons, or_true]
        have hb : (x == r) = false := by simp [this]
        rw [List.idxOf_cons, hb]
        simp only [cond_false, Option.some.injEq]; omega
      · simp [hrl, hrx]

theorem getElem?_iff_idxOf {l : List String} (hnd : l.Nodup) (r : String) (i : Nat) :
    l[i]? = some r ↔ r ∈ l ∧ l.idxOf r = i := by
  constructor
  · intro h
    have hm := List.mem_of_getElem? h
    refine ⟨hm, ?_⟩
    have hi : i < l.length := by
      apply Classical.byContradiction
      intro hn
      rw [List.getElem?_eq_none (by omega)] at h
      cases h
    rw [List.getElem?_eq_getElem hi] at h
    simp only [Option.some.injEq] at h
    rw [← h]
    exact hnd.idxOf_getElem i hi
  · rintro ⟨hm, rfl⟩
    rw [List.getElem?_eq_getElem (List.idxOf_lt_length_of_mem hm)]
    simp

theorem inv_sort {s t : State} (hnd : s.ids.Nodup) (hsub : ∀ r, s.idx r ≠ none → r ∈ s.ids)
    {finder : String → Meta} {sortBy : List String}
    (h : sort s finder sortBy = some t) : Inv t := by
  have hp := ((C07_sort s finder sortBy).2 t h).1
  have hndT : t.ids.Nodup := hp.nodup_iff.2 hnd
  refine ⟨hndT, ?_⟩
  unfold sort at h
  cases hc : cmpsOf sortBy with
  | none => rw [hc] at h; cases h
  | some cs =>
    rw [hc] at h
    simp only [Option.some.injEq] at h
    subst h
    intro r i
    simp only at *
    rw [reindex_spec _ hndT, getElem?_iff_idxOf hndT]
    by_cases hm : r ∈ sortIDs cs finder s.ids
    · simp [hm]
    · have hnone : s.idx r = none := by
        apply Classical.byContradiction
        intro hne
        exact hm (hp.mem_iff.2 (hsub r hne))
      simp [hm, hnone]

theorem inv_add {s : State} (h : Inv s) (room : String) : Inv (add s room).1 := by
  unfold add
  split
  · exact h
  · rename_i hi
    have hnm : room ∉ s.ids := by
      intro hm
      have := (h.idx room (s.ids.idxOf room)).2 ((getElem?_iff_idxOf h.nodup _ _).2 ⟨hm, rfl⟩)
      rw [hi] at this; cases this
    refine ⟨?_, ?_⟩
    · rw [List.nodup_append]
      refine ⟨h.nodup, by simp, ?_⟩
      intro a ha b hb hab
      simp only [List.mem_singleton] at hb
      subst hb; subst hab; exact hnm ha
    · intro r i
      simp only
      by_cases hr : r = room
      · subst hr
        simp only [if_true, Option.some.injEq]
        constructor
        · rintro rfl; simp
        · intro hg
          rcases Nat.lt_trichotomy i s.ids.length with hlt | heq | hgt
          · rw [List.getElem?_append_left hlt] at hg
            exact absurd (List.mem_of_getElem? hg) hnm
          · exact heq.symm
          · rw [List.getElem?_eq_none (by simp; omega)] at hg; cases hg
      · rw [if_neg hr, h.idx]
        rcases Nat.lt_trichotomy i s.ids.length with hlt | heq | hgt
        · rw [List.getElem?_append_left hlt]
        · subst heq
          simp only [List.getElem?_concat_length, Option.some.injEq]
          constructor
          · intro hg; rw [List.getElem?_eq_none (by omega)] at hg; cases hg
          · intro hg; exact absurd hg.symm hr
        · rw [List.getElem?_eq_none (by omega), List.getElem?_eq_none (by simp; omega)]

theorem inv_remove {s : State} (h : Inv s) (room : String) :
    ∃ t i, remove s room = some (t, i) ∧ Inv t ∧ t.ids = s.ids.erase room ∧
      (i = -1 ↔ room ∉ s.ids) := by
  unfold remove
  cases hi : s.idx room with
  | none =>
    have hnm : room ∉ s.ids := by
      intro hm
      have := (h.idx room (s.ids.idxOf room)).2 ((getElem?_iff_idxOf h.nodup _ _).2 ⟨hm, rfl⟩)
      rw [hi] at this; cases this
    exact ⟨s, -1, rfl, h, (List.erase_of_not_mem hnm).symm, by simp [hnm]⟩
  | some i =>
    have hg := (h.idx room i).1 hi
    obtain ⟨hm, hidx⟩ := (getElem?_iff_idxOf h.nodup _ _).1 hg
    have hlt : i < s.ids.length := by rw [← hidx]; exact List.idxOf_lt_length_of_mem hm
    simp only [hlt, if_true]
    have he : s.ids.take i ++ s.ids.drop (i + 1) = s.ids.erase room := by
      rw [List.erase_eq_eraseIdx_of_idxOf hidx]
      rw [List.eraseIdx_eq_take_drop_succ]
    have hndE : (s.ids.erase room).Nodup := h.nodup.erase room
    refine ⟨_, _, rfl, ⟨?_, ?_⟩, he, ?_⟩
    · simp only; rw [he]; exact hndE
    · intro r k
      simp only
      have hlen : (s.ids.take i).length = i := by simp; omega
      have hdrop : (s.ids.take i ++ s.ids.drop (i + 1)).drop i = s.ids.drop (i + 1) := by
        rw [List.drop_append_of_le_length (by omega)]
        simp
      have hsplit : s.ids = s.ids.take i ++ room :: s.ids.drop (i + 1) := by
        have hge : s.ids[i] = room := by
          rw [List.getElem?_eq_getElem hlt] at hg
          simpa using hg
        rw [← hge]
        simp
      have hndS := h.nodup
      rw [hsplit] at hndS
      have hndT : (s.ids.take i).Nodup := (List.nodup_append.1 hndS).1
      have hnd2 := (List.nodup_append.1 hndS).2.1
      have hdis := (List.nodup_append.1 hndS).2.2
      rw [List.nodup_cons] at hnd2
      rw [hdrop, reindex_spec _ hnd2.2, he, getElem?_iff_idxOf hndE, ← he]
      by_cases hrd : r ∈ s.ids.drop (i + 1)
      · have hrt : r ∉ s.ids.take i := fun hh => hdis r hh r (by simp [hrd]) rfl
        rw [if_pos hrd, List.idxOf_append, if_neg hrt, hlen]
        simp [hrd, Nat.add_comm]
      · rw [if_neg hrd]
        by_cases hrr : r = room
        · subst hrr
          have hrt : r ∉ s.ids.take i := fun hh => hdis r hh r (by simp) rfl
          simp [hrd, hrt]
        · rw [if_neg hrr, h.idx, getElem?_iff_idxOf h.nodup]
          by_cases hrt : r ∈ s.ids.take i
          · have e1 : s.ids.idxOf r = (s.ids.take i).idxOf r := by
              conv => lhs; rw [hsplit]
              rw [List.idxOf_append, if_pos hrt]
            rw [List.idxOf_append, if_pos hrt, e1]
            have : r ∈ s.ids := List.mem_of_mem_take hrt
            simp [hrt, this]
          · have : r ∉ s.ids := by
              rw [hsplit]; simp [hrt, hrd, hrr]
            simp [this, hrt, hrd]
    · constructor
      · intro h; omega
      · intro h; exact absurd hm h

theorem inv_run {s : State} (h : Inv s) (ops : List Op) : ∃ t, run s ops = some t ∧ Inv t := by
  induction ops generalizing s with
  | nil => exact ⟨s, rfl, h⟩
  | cons o ops ih =>
    have hstep : ∃ t, step s o = some t ∧ Inv t := by
      cases o with
      | add r => exact ⟨_, rfl, inv_add h r⟩
      | remove r =>
        obtain ⟨t, i, h1, h2, _⟩ := inv_remove h r
        exact ⟨t, by simp [step, h1], h2⟩
      | sort f by_ =>
        cases hs : sort s f by_ with
        | none => exact ⟨s, by simp [step, hs], h⟩
        | some t =>
          refine ⟨t, by simp [step, hs], inv_sort h.nodup ?_ hs⟩
          intro r hr
          cases hi : s.idx r with
          | none => exact absurd hi hr
          | some i => exact List.mem_of_getElem? ((h.idx r i).1 hi)
    obtain ⟨t, h1, h2⟩ := hstep
    obtain ⟨u, h3, h4⟩ := ih h2
    exact ⟨u, by simp [run, h1, h3], h4⟩

/-- C08, partial: for a list that was created from distinct rooms and then sorted
by supported orders, any sequence of additions, removals and sorts (failed ones
included) runs without panic, keeps the rooms distinct, and lookup returns exactly
the position of a room.  Missing: lists whose first sort order is unsupported, for
which the claim is false (`C08_violated`). -/
theorem C08_index_partial (rooms : List String) (hnd : rooms.Nodup) (finder : String → Meta) (sortBy : List String)
    (s0 : State) (h0 : sort (new rooms) finder sortBy = some s0) (ops : List Op) :
    ∃ s, run s0 ops = some s ∧ s.ids.Nodup ∧
      (∀ r i, indexOf s r = some i ↔ s.ids[i]? = some r) ∧
      (∀ r, indexOf s r = none ↔ r ∉ s.ids) := by
  have hi : Inv s0 := inv_sort (s := new rooms) hnd (by simp [new]) h0
  obtain ⟨s, h1, h2⟩ := inv_run hi ops
  refine ⟨s, h1, h2.nodup, h2.idx, ?_⟩
  intro r
  constructor
  · intro hn hm
    have := (h2.idx r _).2 ((getElem?_iff_idxOf h2.nodup r _).2 ⟨hm, rfl⟩)
    simp only [indexOf] at hn
    rw [hn] at this; cases this
  · intro hm
    cases hi : indexOf s r with
    | none => rfl
    | some i => exact absurd (List.mem_of_getElem? ((h2.idx r i).1 hi)) hm

/-- What `Add` and `Remove` answer in such a list: whether the room is new, which is put at the end, and where the removed room was, with
nothing else moved. -/
theorem C08_results (rooms : List String) (hnd : rooms.Nodup) (finder : String → Meta) (sortBy : List String)
    (s0 : State) (h0 : sort (new rooms) finder sortBy = some s0) (ops : List Op) (s : State) (hs : run s0 ops = some s) (room : String) :
    (room ∉ s.ids → (add s room).1.ids = s.ids ++ [room] ∧ (add s room).2 = true) ∧
    (room ∈ s.ids → (add s room).1.ids = s.ids ∧ (add s room).2 = false) ∧
    (room ∉ s.ids → remove s room = some (s, -1)) ∧
    (room ∈ s.ids → ∃ t a b, remove s room = some (t, (a.length : Int)) ∧ s.ids = a ++ room :: b ∧ t.ids = a ++ b) := by
  have hi : Inv s0 := inv_sort (s := new rooms) hnd (by simp [new]) h0
  obtain ⟨s', h1, h2⟩ := inv_run hi ops
  rw [hs] at h1
  cases h1
  have hnone : room ∉ s.ids → s.idx room = none := fun hm => by
    cases hi : s.idx room with
    | none => rfl
    | some i => exact absurd (List.mem_of_getElem? ((h2.idx room i).1 hi)) hm
  have hsome : room ∈ s.ids → ∃ i, s.idx room = some i := fun hm => by
    obtain ⟨i, hi⟩ := List.mem_iff_getElem?.1 hm
    exact ⟨i, (h2.idx room i).2 hi⟩
  refine ⟨fun hm => ?_, fun hm => ?_, fun hm => ?_, fun hm => ?_⟩
  · simp [add, hnone hm]
  · obtain ⟨i, hi⟩ := hsome hm
    simp [add, hi]
  · simp [remove, hnone hm]
  · obtain ⟨i, hi⟩ := hsome hm
    have hg := (h2.idx room i).1 hi
    obtain ⟨hlt, hge⟩ := List.getElem?_eq_some_iff.1 hg
    refine ⟨⟨s.ids.take i ++ s.ids.drop (i + 1), reindex (fun x => if x = room then none else s.idx x) i ((s.ids.take i ++ s.ids.drop (i + 1)).drop i)⟩,
      s.ids.take i, s.ids.drop (i + 1), ?_, ?_, rfl⟩
    · simp only [remove, hi, hlt, if_true]
      rw [List.length_take, Nat.min_eq_left (Nat.le_of_lt hlt)]
    · rw [← hge]; simp

/-- A list with a room added and removed. -/
example : ((sort (new ["!a", "!b"]) (fun r => ⟨r, 0, 0, 0, false⟩) ["by_name"]).bind fun s => (remove (add s "!c").1 "!a").map fun x =>
    ((add s "!c").2, x.1.ids, x.2)) = some (true, ["!b", "!c"], 0) := by decide +kernel

/-- C08 is violated by a list whose sort order (chosen by the client) is not
supported: the index stays empty, a room in the list is reported absent, and
adding it again duplicates it. -/
theorem C08_violated : ∃ (rooms : List String) (finder : String → Meta) (sortBy : List String) (s : State),
    rooms.Nodup ∧ run (new rooms) [.sort finder sortBy, .add "!a"] = some s ∧ ¬ s.ids.Nodup := by
  refine ⟨["!a"], fun _ => ⟨"", 0, 0, 0, false⟩, ["by_magic"], (add (new ["!a"]) "!a").1, by decide, rfl, by decide⟩

example :
    let f : String → Meta := fun r => ⟨r, 0, 0, 0, false⟩
    ((sort (new ["c", "a"]) f ["by_name"]).bind fun s => run s [.add "b", .remove "a", .sort f ["by_name"]]).map
      (fun s => (s.ids, indexOf s "b", indexOf s "c", indexOf s "a")) = some (["b", "c"], some 0, some 1, none) := by
  decide +kernel

end Verif.SortableRooms
