import Verif.Lists
import Verif.SortableRoomsProps
import Verif.FiltersProps
/-! # C09 and C61: which rooms a list holds, and the recency of a room in a list -/
namespace Verif.Lists
open Verif
variable (S : Strs)

/-! ## Invariant -/

/-- Rooms of a list are known. -/
def Known (all : String → Option Room) (ids : List String) : Prop := ∀ id ∈ ids, (all id).isSome = true

structure GInv (s : State) : Prop where
  keys_nodup : s.keys.Nodup
  keys_iff : ∀ id, (s.all id).isSome = true ↔ id ∈ s.keys
  ids : ∀ id r, s.all id = some r → r.id = id
  lists_nodup : (s.lists.map (·.1)).Nodup
  list : ∀ k l, (k, l) ∈ s.lists → SortableRooms.Inv l.sr ∧ Known s.all l.sr.ids

/-- The operations as the connection performs them: lists are created with a
supported sort order, and map iteration visits every room once. -/
def Good : Op → Prop
  | .assign _ _ so _ perm => (∃ by_, so = some by_ ∧ ∀ o ∈ by_, SortableRooms.Supported o) ∧ ∀ l, (perm l).Perm l
  | _ => True

theorem mem_idx {st : SortableRooms.State} (h : SortableRooms.Inv st) (id : String) :
    (st.idx id).isSome = true ↔ id ∈ st.ids := by
  constructor
  · intro hs
    cases hi : st.idx id with
    | none => rw [hi] at hs; cases hs
    | some i => exact List.mem_of_getElem? ((h.idx id i).1 hi)
  · intro hm
    rw [(h.idx id _).2 ((SortableRooms.getElem?_iff_idxOf h.nodup id _).2 ⟨hm, rfl⟩)]
    rfl

theorem inv_sub {st : SortableRooms.State} (h : SortableRooms.Inv st) (r : String) (hr : st.idx r ≠ none) :
    r ∈ st.ids := by
  apply (mem_idx h r).1
  cases hi : st.idx r with
  | none => exact absurd hi hr
  | some i => rfl

theorem sortList_inv {all : String → Option Room} {key : String} {st st' : SortableRooms.State} {by_ : List String}
    (hi : SortableRooms.Inv st) (h : sortList S all key st by_ = some st') :
    SortableRooms.Inv st' ∧ st'.ids.Perm st.ids := by
  unfold sortList at h
  split at h
  · simp only [Option.some.injEq] at h
    cases hs : SortableRooms.sort st (findM S all key) by_ with
    | none => rw [hs] at h; simp at h; subst h; exact ⟨hi, List.Perm.refl _⟩
    | some t =>
      rw [hs] at h; simp at h; subst h
      exact ⟨SortableRooms.inv_sort hi.nodup (inv_sub hi) hs, ((SortableRooms.C07_sort _ _ _).2 _ hs).1⟩
  · cases h

theorem filteredAdd_spec {all : String → Option Room} {l : FList} (r : Room) (hi : SortableRooms.Inv l.sr) :
    SortableRooms.Inv (filteredAdd S all l r) ∧
    ∀ id, id ∈ (filteredAdd S all l r).ids ↔ id ∈ l.sr.ids ∨ (incl S all l.filter r = true ∧ id = r.id) := by
  unfold filteredAdd
  split
  · rename_i hinc
    refine ⟨SortableRooms.inv_add hi _, ?_⟩
    intro id
    unfold SortableRooms.add
    cases hidx : l.sr.idx r.id with
    | none => simp [hinc]
    | some i =>
      have : r.id ∈ l.sr.ids := List.mem_of_getElem? ((hi.idx _ _).1 hidx)
      simp only [hinc, true_and]
      constructor
      · exact Or.inl
      · rintro (h | rfl)
        · exact h
        · exact this
  · rename_i hinc
    refine ⟨hi, fun id => ?_⟩
    simp [hinc]

theorem remove_spec {st st' : SortableRooms.State} {id0 : String} (hi : SortableRooms.Inv st)
    (h : (SortableRooms.remove st id0).map (·.1) = some st') :
    SortableRooms.Inv st' ∧ ∀ id, id ∈ st'.ids ↔ id ∈ st.ids ∧ id ≠ id0 := by
  obtain ⟨t, i, h1, h2, h3, _⟩ := SortableRooms.inv_remove hi id0
  rw [h1] at h
  simp at h
  subst h
  refine ⟨h2, fun id => ?_⟩
  rw [h3, hi.nodup.mem_erase_iff]
  exact ⟨fun h => ⟨h.2, h.1⟩, fun h => ⟨h.2, h.1⟩⟩

/-- The effect of a live update on one list. -/
theorem updateList_spec {all : String → Option Room} {req : String → Req} {r : Room} {key : String} {l l' : FList}
    (hi : SortableRooms.Inv l.sr) (h : updateList S all req r key l = some l') :
    l'.filter = l.filter ∧ SortableRooms.Inv l'.sr ∧
    ∀ id, id ∈ l'.sr.ids ↔
      if id = r.id then incl S all l.filter r = true ∧ r.f.hasLeft = false else id ∈ l.sr.ids := by
  unfold updateList at h
  have hmem := mem_idx hi r.id
  cases hd : deltaOf S all l r with
  | none =>
    rw [hd] at h
    simp only [Option.some.injEq] at h
    subst h
    refine ⟨rfl, hi, fun id => ?_⟩
    unfold deltaOf at hd
    simp only at hd
    split at hd
    · split at hd <;> cases hd
    · rename_i hne
      split at hd
      · cases hd
      · rename_i hns
        split
        · rename_i e; subst e
          constructor
          · intro hm; exact absurd (hmem.2 hm) hne
          · rintro ⟨h1, h2⟩; exact absurd (by simp [h1, h2]) hns
        · rfl
  | some op =>
    rw [hd] at h
    simp only [Option.map_eq_some_iff] at h
    obtain ⟨sr, hr, rfl⟩ := h
    refine ⟨rfl, ?_⟩
    unfold deltaOf at hd
    simp only at hd
    have key_ : SortableRooms.Inv sr ∧
        ((op = .add → ∀ id, id ∈ sr.ids ↔ id ∈ l.sr.ids ∨ (incl S all l.filter r = true ∧ id = r.id)) ∧
         (op = .del → ∀ id, id ∈ sr.ids ↔ id ∈ l.sr.ids ∧ id ≠ r.id) ∧
         (op = .change → ∀ id, id ∈ sr.ids ↔ id ∈ l.sr.ids)) := by
      unfold resort at hr
      split at hr
      · cases op with
        | add =>
          simp only [Option.some.injEq] at hr; subst hr
          obtain ⟨a, b⟩ := filteredAdd_spec S (all := all) r hi
          exact ⟨a, fun _ => b, nofun, nofun⟩
        | del =>
          obtain ⟨a, b⟩ := remove_spec hi hr
          exact ⟨a, nofun, fun _ => b, nofun⟩
        | change =>
          simp only [Option.some.injEq] at hr; subst hr
          exact ⟨hi, nofun, nofun, fun _ _ => Iff.rfl⟩
      · split at hr
        · cases hr
        · cases op with
          | add =>
            simp only [calcEffect] at hr
            obtain ⟨a, b⟩ := filteredAdd_spec S (all := all) r hi
            obtain ⟨c, d⟩ := sortList_inv S a hr
            exact ⟨c, fun _ id => (d.mem_iff).trans (b id), nofun, nofun⟩
          | del =>
            simp only [calcEffect] at hr
            split at hr
            · rename_i hn
              simp only [Option.some.injEq] at hr; subst hr
              refine ⟨hi, nofun, fun _ id => ?_, nofun⟩
              constructor
              · intro hm
                refine ⟨hm, ?_⟩
                rintro rfl
                have := hmem.2 hm
                rw [hn] at this; cases this
              · exact fun h => h.1
            · obtain ⟨a, b⟩ := remove_spec hi hr
              exact ⟨a, nofun, fun _ => b, nofun⟩
          | change =>
            simp only [calcEffect] at hr
            split at hr
            · simp only [Option.some.injEq] at hr; subst hr
              exact ⟨hi, nofun, nofun, fun _ _ => Iff.rfl⟩
            · obtain ⟨c, d⟩ := sortList_inv S hi hr
              exact ⟨c, nofun, nofun, fun _ id => d.mem_iff⟩
    refine ⟨key_.1, fun id => ?_⟩
    simp only
    split at hd
    · rename_i hex
      have hm := hmem.1 hex
      split at hd
      · rename_i hs
        simp only [Bool.and_eq_true, Bool.not_eq_true'] at hs
        simp only [Option.some.injEq] at hd
        rw [key_.2.2.2 hd.symm id]
        split
        · rename_i e; subst e; simp [hm, hs]
        · rfl
      · rename_i hs
        simp only [Bool.and_eq_true, Bool.not_eq_true'] at hs
        simp only [Option.some.injEq] at hd
        rw [key_.2.2.1 hd.symm id]
        split
        · rename_i e; subst e; simp [hs]
        · rename_i e; simp [e]
    · rename_i hex
      have hm : r.id ∉ l.sr.ids := fun h => hex (hmem.2 h)
      split at hd
      · rename_i hs
        simp only [Bool.and_eq_true, Bool.not_eq_true'] at hs
        simp only [Option.some.injEq] at hd
        rw [key_.2.1 hd.symm id]
        split
        · rename_i e; subst e; simp [hs]
        · rename_i e; simp [e]
      · cases hd

theorem updateLists_spec {all : String → Option Room} {req : String → Req} {r : Room} :
    ∀ {ls ls' : List (String × FList)}, updateLists S all req r ls = some ls' →
      ls'.map (·.1) = ls.map (·.1) ∧
      (∀ k l', (k, l') ∈ ls' → ∃ l, (k, l) ∈ ls ∧ updateList S all req r k l = some l') ∧
      (∀ k, ls.lookup k = none → ls'.lookup k = none) ∧
      (∀ k l, ls.lookup k = some l → ∃ l', ls'.lookup k = some l' ∧ updateList S all req r k l = some l')
  | [], ls', h => by
    simp only [updateLists, Option.some.injEq] at h
    subst h
    simp
  | (k0, l0) :: ls, ls', h => by
    simp only [updateLists] at h
    cases h1 : updateList S all req r k0 l0 with
    | none => rw [h1] at h; cases h
    | some l0' =>
      cases h2 : updateLists S all req r ls with
      | none => rw [h1, h2] at h; cases h
      | some ls2 =>
        rw [h1, h2] at h
        simp at h
        subst h
        obtain ⟨a, b, c, d⟩ := updateLists_spec h2
        refine ⟨by simp [a], ?_, ?_, ?_⟩
        · intro k l' hm
          rcases List.mem_cons.1 hm with e | hm
          · simp only [Prod.mk.injEq] at e
            obtain ⟨rfl, rfl⟩ := e
            exact ⟨l0, by simp, h1⟩
          · obtain ⟨l, hl, hu⟩ := b k l' hm
            exact ⟨l, by simp [hl], hu⟩
        · intro k hk
          simp only [List.lookup_cons] at hk ⊢
          split at hk <;> rename_i e
          · cases hk
          · exact c k hk
        · intro k l hk
          simp only [List.lookup_cons] at hk ⊢
          split at hk <;> rename_i e
          · simp only [Option.some.injEq] at hk
            subst hk
            rw [beq_iff_eq] at e
            subst e
            exact ⟨l0', rfl, h1⟩
          · exact d k l hk

theorem lookup_mem {ls : List (String × FList)} {k : String} {l : FList} (h : ls.lookup k = some l) : (k, l) ∈ ls := by
  induction ls with
  | nil => cases h
  | cons p ls ih =>
    obtain ⟨k0, l0⟩ := p
    simp only [List.lookup_cons] at h
    split at h <;> rename_i e
    · rw [beq_iff_eq] at e
      simp only [Option.some.injEq] at h
      subst e; subst h
      simp
    · simp [ih h]

theorem lookup_filter_ne (ls : List (String × FList)) (key k : String) :
    (ls.filter fun p => p.1 ≠ key).lookup k = if k = key then none else ls.lookup k := by
  induction ls with
  | nil => simp
  | cons p ls ih =>
    obtain ⟨k0, l0⟩ := p
    rw [List.filter_cons]
    by_cases hk : k0 = key
    · simp only [hk, ne_eq, not_true_eq_false, decide_false, Bool.false_eq_true, if_false]
      rw [ih, List.lookup_cons]
      by_cases e : k = key
      · simp [e]
      · have : (k == key) = false := by simpa using e
        simp [e, this]
    · simp only [ne_eq, hk, not_false_eq_true, decide_true, if_true]
      rw [List.lookup_cons, List.lookup_cons, ih]
      by_cases e : k = k0
      · subst e; simp [hk]
      · have : (k == k0) = false := by simpa using e
        simp [this]

theorem lookup_putList (ls : List (String × FList)) (key k : String) (l : FList) :
    (putList ls key l).lookup k = if k = key then some l else ls.lookup k := by
  unfold putList
  rw [List.lookup_cons, lookup_filter_ne]
  by_cases e : k = key
  · simp [e]
  · have : (k == key) = false := by simpa using e
    simp [e, this]

theorem putList_inv {ls : List (String × FList)} {key : String} {l : FList} (h : (ls.map (·.1)).Nodup) :
    ((putList ls key l).map (·.1)).Nodup ∧ ∀ k l', (k, l') ∈ putList ls key l → (k, l') = (key, l) ∨ (k, l') ∈ ls := by
  unfold putList
  constructor
  · rw [List.map_cons, List.nodup_cons]
    constructor
    · intro hm
      obtain ⟨p, hp, he⟩ := List.mem_map.1 hm
      have := (List.mem_filter.1 hp).2
      simp [he] at this
    · exact (List.Sublist.map _ List.filter_sublist).nodup h
  · intro k l' hm
    rcases List.mem_cons.1 hm with e | hm
    · exact Or.inl e
    · exact Or.inr (List.mem_filter.1 hm).1

/-- What is known of the state after `update`. -/
theorem update_spec {s s' : State} (hg : GInv s) {req : String → Req} {r : Room} (h : update S s req r = some s') :
    GInv s' ∧ s'.all = (fun id => if id = r.id then some (mergeRoom s r) else s.all id) ∧
    (∀ k, getList s k = none → getList s' k = none) ∧
    (∀ k l, getList s k = some l → ∃ l', getList s' k = some l' ∧ l'.filter = l.filter ∧
      ∀ id, id ∈ l'.sr.ids ↔
        if id = r.id then incl S s'.all l.filter (mergeRoom s r) = true ∧ r.f.hasLeft = false else id ∈ l.sr.ids) := by
  have hid : (mergeRoom s r).id = r.id := by
    unfold mergeRoom; split <;> rfl
  have hleft : (mergeRoom s r).f = r.f := by
    unfold mergeRoom; split <;> rfl
  unfold update at h
  simp only [Option.map_eq_some_iff, hid] at h
  obtain ⟨ls, hu, rfl⟩ := h
  obtain ⟨a, b, c, d⟩ := updateLists_spec S hu
  have hks : ∀ id, ((if id = r.id then some (mergeRoom s r) else s.all id).isSome = true) ↔
      id = r.id ∨ (s.all id).isSome = true := by
    intro id
    split
    · rename_i e; simp [e]
    · rename_i e; simp [e]
  refine ⟨⟨?_, ?_, ?_, ?_, ?_⟩, rfl, ?_, ?_⟩
  · simp only
    split
    · exact hg.keys_nodup
    · rename_i hn
      rw [List.nodup_append]
      refine ⟨hg.keys_nodup, by simp, ?_⟩
      intro x hx y hy hxy
      simp only [List.mem_singleton] at hy
      subst hy; subst hxy; exact hn hx
  · intro id
    simp only
    rw [hks, hg.keys_iff]
    split
    · rename_i hm
      constructor
      · rintro (rfl | h)
        · exact hm
        · exact h
      · exact Or.inr
    · simp [or_comm]
  · intro id x hx
    simp only at hx
    split at hx
    · rename_i e
      simp only [Option.some.injEq] at hx
      subst hx; rw [hid, e]
    · exact hg.ids id x hx
  · simp only [a]; exact hg.lists_nodup
  · intro k l hm
    obtain ⟨l0, hl0, hul⟩ := b k l hm
    obtain ⟨hi, hkn⟩ := hg.list k l0 hl0
    obtain ⟨_, h2, h3⟩ := updateList_spec S hi hul
    refine ⟨h2, ?_⟩
    intro id hid'
    simp only
    rw [hks]
    rw [h3, hid] at hid'
    split at hid'
    · rename_i e; exact Or.inl e
    · exact Or.inr (hkn id hid')
  · intro k hk; exact c k hk
  · intro k l hk
    obtain ⟨l', hl', hul⟩ := d k l hk
    obtain ⟨hi, _⟩ := hg.list k l (lookup_mem hk)
    obtain ⟨h1, _, h3⟩ := updateList_spec S hi hul
    refine ⟨l', hl', h1, ?_⟩
    intro id
    rw [h3, hid, hleft]

theorem sort_mem {s s' : State} (hg : GInv s) {key : String} {by_ : List String} (h : sortOp S s key by_ = some s') :
    GInv s' ∧ s'.all = s.all ∧ (∀ k, getList s k = none → getList s' k = none) ∧
    (∀ k l, getList s k = some l → ∃ l', getList s' k = some l' ∧ l'.filter = l.filter ∧ l'.sr.ids.Perm l.sr.ids) := by
  unfold sortOp at h
  cases hl : getList s key with
  | none =>
    rw [hl] at h; simp only [Option.some.injEq] at h; subst h
    exact ⟨hg, rfl, fun _ h => h, fun k l h => ⟨l, h, rfl, List.Perm.refl _⟩⟩
  | some l =>
    rw [hl] at h
    simp only [Option.map_eq_some_iff] at h
    obtain ⟨sr, hs, rfl⟩ := h
    obtain ⟨hi, hkn⟩ := hg.list key l (lookup_mem hl)
    obtain ⟨hi', hp⟩ := sortList_inv S hi hs
    obtain ⟨hn, hm⟩ := putList_inv (key := key) (l := ⟨l.filter, sr⟩) hg.lists_nodup
    refine ⟨⟨hg.keys_nodup, hg.keys_iff, hg.ids, hn, ?_⟩, rfl, ?_, ?_⟩
    · intro k l' hkl
      rcases hm k l' hkl with e | e
      · simp only [Prod.mk.injEq] at e
        obtain ⟨_, rfl⟩ := e
        exact ⟨hi', fun id hid => hkn id (hp.mem_iff.1 hid)⟩
      · exact hg.list k l' e
    · intro k hk
      show (putList _ _ _).lookup k = none
      rw [lookup_putList]
      split
      · rename_i e; subst e; rw [hl] at hk; cases hk
      · exact hk
    · intro k l0 hk
      by_cases e : k = key
      · subst e
        rw [hl] at hk; simp only [Option.some.injEq] at hk; subst hk
        exact ⟨⟨l.filter, sr⟩, by show (putList _ _ _).lookup k = _; rw [lookup_putList, if_pos rfl], rfl, hp⟩
      · exact ⟨l0, by show (putList _ _ _).lookup k = _; rw [lookup_putList, if_neg e]; exact hk, rfl, List.Perm.refl _⟩

theorem assign_spec {s s' : State} (hg : GInv s) {key : String} {f : Filters.Filter} {so : Option (List String)}
    {ow : Bool} {perm : List String → List String} (hgood : Good (.assign key f so ow perm))
    (h : assign S s key f so ow perm = some s') :
    GInv s' ∧ s'.all = s.all ∧ (∀ k, k ≠ key → getList s' k = getList s k) ∧
    ((ow = false ∧ (getList s key).isSome = true ∧ getList s' key = getList s key) ∨
     ((ow = true ∨ getList s key = none) ∧ ∃ l, getList s' key = some l ∧ l.filter = f ∧
        ∀ id, id ∈ l.sr.ids ↔ ∃ r, s.all id = some r ∧ incl S s.all f r = true)) := by
  obtain ⟨⟨by_, hso, hsup⟩, hperm⟩ := hgood
  unfold assign at h
  split at h
  · rename_i hc
    simp only [Bool.and_eq_true, Bool.not_eq_true'] at hc
    simp only [Option.some.injEq] at h; subst h
    exact ⟨hg, rfl, fun _ _ => rfl, Or.inl ⟨hc.1, hc.2, rfl⟩⟩
  · rename_i hc
    have hcr : ow = true ∨ getList s key = none := by
      cases ow with
      | true => exact Or.inl rfl
      | false =>
        right
        cases hgl : getList s key with
        | none => rfl
        | some l => rw [hgl] at hc; simp at hc
    subst hso
    have hall : ((perm s.keys).all fun id => (s.all id).isSome) = true := by
      rw [List.all_eq_true]
      intro id hid
      exact (hg.keys_iff id).2 ((hperm _).mem_iff.1 hid)
    simp only [newFiltered, hall, if_true, Option.bind_eq_bind, Option.bind_some] at h
    cases hsl : sortList S s.all key (SortableRooms.new ((perm s.keys).filter (inclID S s.all f))) by_ with
    | none => rw [hsl] at h; cases h
    | some sr =>
      rw [hsl] at h
      simp at h
      subst h
      have hmem : ∀ id, id ∈ ((perm s.keys).filter (inclID S s.all f)) ↔ ∃ r, s.all id = some r ∧ incl S s.all f r = true := by
        intro id
        rw [List.mem_filter, (hperm _).mem_iff, ← hg.keys_iff, inclID]
        cases hx : s.all id with
        | none => simp
        | some r => simp
      have hnd : ((perm s.keys).filter (inclID S s.all f)).Nodup := ((hperm _).nodup_iff.2 hg.keys_nodup).filter _
      have hsr : SortableRooms.Inv sr ∧ ∀ id, id ∈ sr.ids ↔ ∃ r, s.all id = some r ∧ incl S s.all f r = true := by
        unfold sortList at hsl
        split at hsl
        · simp only [Option.some.injEq] at hsl
          cases hs : SortableRooms.sort (SortableRooms.new ((perm s.keys).filter (inclID S s.all f))) (findM S s.all key) by_ with
          | none =>
            obtain ⟨o, ho, hn⟩ := (SortableRooms.C07_sort _ _ _).1.1 hs
            exact absurd (hsup o ho) hn
          | some t =>
            rw [hs] at hsl; simp at hsl; subst hsl
            refine ⟨SortableRooms.inv_sort hnd (by simp [SortableRooms.new]) hs, fun id => ?_⟩
            rw [((SortableRooms.C07_sort _ _ _).2 _ hs).1.mem_iff]
            exact hmem id
        · cases hsl
      obtain ⟨hn, hm⟩ := putList_inv (key := key) (l := ⟨f, sr⟩) hg.lists_nodup
      refine ⟨⟨hg.keys_nodup, hg.keys_iff, hg.ids, hn, ?_⟩, rfl, ?_, Or.inr ⟨hcr, ⟨f, sr⟩, ?_, rfl, hsr.2⟩⟩
      · intro k l' hkl
        rcases hm k l' hkl with e | e
        · simp only [Prod.mk.injEq] at e
          obtain ⟨_, rfl⟩ := e
          refine ⟨hsr.1, fun id hid => ?_⟩
          obtain ⟨r, hr, _⟩ := (hsr.2 id).1 hid
          simp [hr]
        · exact hg.list k l' e
      · intro k hk
        show (putList _ _ _).lookup k = _
        rw [lookup_putList, if_neg hk]; rfl
      · show (putList _ _ _).lookup key = _
        rw [lookup_putList, if_pos rfl]

theorem delete_inv {s : State} (hg : GInv s) (key : String) : GInv (delete s key) := by
  have hsome : ∀ id, ((delete s key).all id).isSome = (s.all id).isSome := by
    intro id; simp [delete]
  refine ⟨hg.keys_nodup, fun id => by rw [hsome]; exact hg.keys_iff id, ?_, ?_, ?_⟩
  · intro id r hr
    simp only [delete, Option.map_eq_some_iff] at hr
    obtain ⟨x, hx, rfl⟩ := hr
    exact hg.ids id x hx
  · exact (List.Sublist.map _ List.filter_sublist).nodup hg.lists_nodup
  · intro k l hm
    obtain ⟨a, b⟩ := hg.list k l (List.mem_filter.1 hm).1
    exact ⟨a, fun id hid => by rw [hsome]; exact b id hid⟩

theorem delete_get (s : State) (key k : String) (hk : k ≠ key) : getList (delete s key) k = getList s k := by
  show (List.filter _ _).lookup k = _
  rw [lookup_filter_ne, if_neg hk]; rfl

theorem touch_all (s : State) (key id i : String) :
    (touch s key id).all i = (s.all i).map fun r =>
      if i = id then { r with interested := fun k => if k = key then some (effTs r key) else r.interested k } else r := by
  simp only [touch]
  by_cases e : i = id
  · subst e; simp
  · simp [e]

theorem touch_inv {s : State} (hg : GInv s) (key id : String) : GInv (touch s key id) := by
  have hsome : ∀ i, ((touch s key id).all i).isSome = (s.all i).isSome := by
    intro i; rw [touch_all]; simp
  refine ⟨hg.keys_nodup, fun i => by rw [hsome]; exact hg.keys_iff i, ?_, hg.lists_nodup, ?_⟩
  · intro i r hr
    rw [touch_all, Option.map_eq_some_iff] at hr
    obtain ⟨x, hx, rfl⟩ := hr
    have := hg.ids i x hx
    split
    · exact this
    · exact this
  · intro k l hm
    obtain ⟨a, b⟩ := hg.list k l hm
    exact ⟨a, fun i hi => by rw [hsome]; exact b i hi⟩

theorem step_inv {s s' : State} (hg : GInv s) {o : Op} (ho : Good o) (h : step S s o = some s') : GInv s' := by
  cases o with
  | update req r => exact (update_spec S hg h).1
  | assign key f so ow perm => exact (assign_spec S hg ho h).1
  | sort key by_ => exact (sort_mem S hg h).1
  | delete key => simp only [step, Option.some.injEq] at h; subst h; exact delete_inv hg key
  | touch key id => simp only [step, Option.some.injEq] at h; subst h; exact touch_inv hg key id

theorem run_inv {s s' : State} (hg : GInv s) {os : List Op} (ho : ∀ o ∈ os, Good o) (h : run S s os = some s') :
    GInv s' := by
  induction os generalizing s with
  | nil => simp only [run, Option.some.injEq] at h; subst h; exact hg
  | cons o os ih =>
    simp only [run, Option.bind_eq_some_iff] at h
    obtain ⟨s1, h1, h2⟩ := h
    exact ih (step_inv S hg (ho o (by simp)) h1) (fun x hx => ho x (by simp [hx])) h2

theorem init_inv : GInv {} := ⟨by simp, by simp, by simp, by simp, by simp⟩

theorem run_append {s s' : State} {a b : List Op} (h : run S s (a ++ b) = some s') :
    ∃ m, run S s a = some m ∧ run S m b = some s' := by
  induction a generalizing s with
  | nil => exact ⟨s, rfl, h⟩
  | cons o a ih =>
    simp only [List.cons_append, run, Option.bind_eq_some_iff] at h
    obtain ⟨s1, h1, h2⟩ := h
    obtain ⟨m, h3, h4⟩ := ih h2
    exact ⟨m, by simp [run, h1, h3], h4⟩

/-! ## C09 -/

/-- The operation neither removes nor re-creates the list `key` (a request may
still ask for the list without overwriting it), nor updates the room `id`. -/
def Leaves (key id : String) : Op → Prop
  | .update _ r => r.id ≠ id
  | .assign k _ _ ow _ => k ≠ key ∨ ow = false
  | .sort _ _ => True
  | .delete k => k ≠ key
  | .touch _ _ => True

theorem leaves_step {s s' : State} (hg : GInv s) {o : Op} (ho : Good o) (h : step S s o = some s')
    {key id : String} (hl : Leaves key id o) {l : FList} (hget : getList s key = some l) :
    ∃ l', getList s' key = some l' ∧ l'.filter = l.filter ∧ (id ∈ l'.sr.ids ↔ id ∈ l.sr.ids) := by
  cases o with
  | update req r =>
    obtain ⟨_, _, _, h4⟩ := update_spec S hg h
    obtain ⟨l', a, b, c⟩ := h4 key l hget
    refine ⟨l', a, b, ?_⟩
    rw [c, if_neg (fun e => hl e.symm)]
  | assign k f so ow perm =>
    obtain ⟨_, _, h3, h4⟩ := assign_spec S hg ho h
    by_cases e : k = key
    · subst e
      rcases h4 with ⟨_, _, h5⟩ | ⟨h5, _⟩
      · exact ⟨l, by rw [h5, hget], rfl, Iff.rfl⟩
      · rcases h5 with h5 | h5
        · rcases hl with hl | hl
          · exact absurd rfl hl
          · rw [h5] at hl; cases hl
        · rw [hget] at h5; cases h5
    · exact ⟨l, by rw [h3 key (fun x => e x.symm), hget], rfl, Iff.rfl⟩
  | sort k by_ =>
    obtain ⟨_, _, _, h4⟩ := sort_mem S hg h
    obtain ⟨l', a, b, c⟩ := h4 key l hget
    exact ⟨l', a, b, c.mem_iff⟩
  | delete k =>
    simp only [step, Option.some.injEq] at h; subst h
    exact ⟨l, by rw [delete_get _ _ _ (fun e => hl e.symm), hget], rfl, Iff.rfl⟩
  | touch k i =>
    simp only [step, Option.some.injEq] at h; subst h
    exact ⟨l, hget, rfl, Iff.rfl⟩

theorem leaves_run {s s' : State} (hg : GInv s) {os : List Op} (ho : ∀ o ∈ os, Good o) (h : run S s os = some s')
    {key id : String} (hl : ∀ o ∈ os, Leaves key id o) {l : FList} (hget : getList s key = some l) :
    ∃ l', getList s' key = some l' ∧ l'.filter = l.filter ∧ (id ∈ l'.sr.ids ↔ id ∈ l.sr.ids) := by
  induction os generalizing s l with
  | nil => simp only [run, Option.some.injEq] at h; subst h; exact ⟨l, hget, rfl, Iff.rfl⟩
  | cons o os ih =>
    simp only [run, Option.bind_eq_some_iff] at h
    obtain ⟨s1, h1, h2⟩ := h
    obtain ⟨l1, a, b, c⟩ := leaves_step S hg (ho o (by simp)) h1 (hl o (by simp)) hget
    obtain ⟨l2, a', b', c'⟩ := ih (step_inv S hg (ho o (by simp)) h1) (fun x hx => ho x (by simp [hx])) h2
      (fun x hx => hl x (by simp [hx])) a
    exact ⟨l2, a', b'.trans b, c'.trans c⟩

/-- C09, partial, first half.  After any history in which a room was updated while the
list existed, and which then neither updated the room again nor re-created or
deleted the list, the list holds the room iff that update matched the list's
filter and did not mark the room as left (`Filters.C10_exact` says what matching
means; other rooms are looked up as of that update).  Missing: lists created with
an unsupported sort order, see `C08_violated`. -/
theorem C09_last_update_partial (before after : List Op) (req : String → Req) (r : Room) (key : String)
    (hgood : ∀ o ∈ before ++ [.update req r] ++ after, Good o)
    (s1 s2 s : State) (h1 : run S {} before = some s1) (h2 : update S s1 req r = some s2)
    (h3 : run S s2 after = some s)
    (l : FList) (hexists : getList s1 key = some l) (hafter : ∀ o ∈ after, Leaves key r.id o) :
    ∃ l', getList s key = some l' ∧ l'.filter = l.filter ∧
      (r.id ∈ l'.sr.ids ↔
        Filters.incl S.lower (fun id => if id = r.id then some r.f else (s1.all id).map (·.f)) l.filter r.f = true ∧
        r.f.hasLeft = false) := by
  have g1 : GInv s1 := run_inv S init_inv (fun o ho => hgood o (by simp [ho])) h1
  obtain ⟨g2, hall, _, hupd⟩ := update_spec S g1 h2
  obtain ⟨l2, a, b, c⟩ := hupd key l hexists
  obtain ⟨l3, a', b', c'⟩ := leaves_run S g2 (fun o ho => hgood o (by simp [ho])) h3 hafter a
  refine ⟨l3, a', b'.trans b, c'.trans ?_⟩
  rw [c, if_pos rfl]
  have hf : (mergeRoom s1 r).f = r.f := by unfold mergeRoom; split <;> rfl
  have : findF s2.all = fun id => if id = r.id then some r.f else (s1.all id).map (·.f) := by
    funext id
    unfold findF
    rw [hall]
    by_cases e : id = r.id
    · simp [e, hf]
    · simp [e]
  unfold incl
  rw [this, hf]

/-- C09, second half: a list holds a room that was not updated since the list was
created (or re-created) iff the room was known then and matched the filter. -/
theorem C09_created (before after : List Op) (key : String) (f : Filters.Filter) (so : Option (List String)) (ow : Bool)
    (perm : List String → List String) (hgood : ∀ o ∈ before ++ [.assign key f so ow perm] ++ after, Good o)
    (s1 s2 s : State) (h1 : run S {} before = some s1) (h2 : assign S s1 key f so ow perm = some s2)
    (h3 : run S s2 after = some s) (hcreates : ow = true ∨ getList s1 key = none)
    (id : String) (hafter : ∀ o ∈ after, Leaves key id o) :
    ∃ l, getList s key = some l ∧ l.filter = f ∧
      (id ∈ l.sr.ids ↔ ∃ r, s1.all id = some r ∧
        Filters.incl S.lower (fun i => (s1.all i).map (·.f)) f r.f = true) := by
  have g1 : GInv s1 := run_inv S init_inv (fun o ho => hgood o (by simp [ho])) h1
  have hgo : Good (.assign key f so ow perm) := hgood _ (by simp)
  obtain ⟨g2, hall, _, h4⟩ := assign_spec S g1 hgo h2
  rcases h4 with ⟨h5, h6, _⟩ | ⟨_, l, a, b, c⟩
  · rcases hcreates with h | h
    · rw [h] at h5; cases h5
    · rw [h] at h6; cases h6
  · obtain ⟨l3, a', b', c'⟩ := leaves_run S g2 (fun o ho => hgood o (by simp [ho])) h3 hafter a
    refine ⟨l3, a', b'.trans b, c'.trans ?_⟩
    rw [c]
    rfl

/-- A list never holds a room twice, never holds a room the connection does not
know, and looks rooms up at their position. -/
theorem C09_wellformed (os : List Op) (hgood : ∀ o ∈ os, Good o) (s : State) (h : run S {} os = some s)
    (key : String) (l : FList) (hl : getList s key = some l) :
    l.sr.ids.Nodup ∧ (∀ id ∈ l.sr.ids, ∃ r, s.all id = some r ∧ r.id = id) ∧
    (∀ id i, SortableRooms.indexOf l.sr id = some i ↔ l.sr.ids[i]? = some id) := by
  have g := run_inv S init_inv hgood h
  obtain ⟨a, b⟩ := g.list key l (lookup_mem hl)
  refine ⟨a.nodup, ?_, a.idx⟩
  intro id hid
  obtain ⟨r, hr⟩ := Option.isSome_iff_exists.1 (b id hid)
  exact ⟨r, hr, g.ids id r hr⟩

def plain : Filters.Room := ⟨none, false, false, false, false, "x", none, [], []⟩

def noReq : String → Req := fun _ => ⟨[(0, 9)], ["by_recency"], false⟩

/-- C09 is violated when a list is created (or its filters change) after a room was
left: the room was marked as left by its last update, but the new list holds it. -/
theorem C09_violated : ∃ (r : Room) (s : State) (l : FList),
    run ⟨id, id⟩ {} [.update noReq r, .assign "a" {} (some ["by_recency"]) false id] = some s ∧
    r.f.hasLeft = true ∧ getList s "a" = some l ∧ r.id ∈ l.sr.ids := by
  refine ⟨⟨"!a", { plain with hasLeft := true }, 0, 0, 1, fun _ => none⟩, _, _, rfl, rfl, rfl, ?_⟩
  decide

/-- The hypotheses of the C09 theorems are met by a history that creates a list
and adds, moves and removes rooms. -/
example :
    let a : Room := ⟨"!a", plain, 0, 0, 5, fun _ => none⟩
    let b : Room := ⟨"!b", plain, 0, 0, 7, fun _ => none⟩
    let a' : Room := ⟨"!a", plain, 0, 0, 9, fun _ => some 9⟩
    let b' : Room := ⟨"!b", { plain with hasLeft := true }, 0, 0, 10, fun _ => some 10⟩
    let h : List Op := [.assign "l" {} (some ["by_recency"]) false id, .update noReq a, .update noReq b,
      .update noReq a', .touch "l" "!a", .sort "l" ["by_name"]]
    ((run ⟨id, id⟩ {} h).bind fun s => getList s "l").map (·.sr.ids) = some ["!a", "!b"] ∧
    ((run ⟨id, id⟩ {} (h ++ [.update noReq b'])).bind fun s => getList s "l").map (·.sr.ids) = some ["!a"] := by
  decide +kernel

/-! ## C61: recency of a room in a list -/

/-- The timestamp by which the list `key` orders the room by recency. -/
def recency (s : State) (key id : String) : Option Nat := (s.all id).map fun r => effTs r key

/-- The last timestamp with which an update bumped the room in the list. -/
def lastBump (key id : String) : List Op → Option Nat
  | [] => none
  | .update _ r :: os =>
    match lastBump key id os with
    | some t => some t
    | none => if r.id = id then r.interested key else none
  | _ :: os => lastBump key id os

theorem step_recency {s s' : State} (hg : GInv s) {o : Op} (ho : Good o) (h : step S s o = some s') {key id : String}
    (hdel : o ≠ .delete key) (hlist : (getList s key).isSome = true) (hknown : (s.all id).isSome = true) :
    (getList s' key).isSome = true ∧ (s'.all id).isSome = true ∧
    recency s' key id = (match o with
      | .update _ r => if r.id = id then (match r.interested key with | some t => some t | none => recency s key id)
          else recency s key id
      | _ => recency s key id) := by
  obtain ⟨l, hl⟩ := Option.isSome_iff_exists.1 hlist
  cases o with
  | update req r =>
    obtain ⟨_, hall, _, hu⟩ := update_spec S hg h
    obtain ⟨l', hl', _⟩ := hu key l hl
    refine ⟨by rw [hl']; rfl, ?_, ?_⟩
    · rw [hall]; simp only; split
      · rfl
      · exact hknown
    · simp only [recency, hall]
      by_cases e : r.id = id
      · subst e
        obtain ⟨x, hx⟩ := Option.isSome_iff_exists.1 hknown
        simp only [if_true, Option.map_some, hx, mergeRoom, effTs, hlist]
        cases hb : r.interested key with
        | some t => simp
        | none =>
          cases hb' : x.interested key <;> simp
      · rw [if_neg (fun x => e x.symm), if_neg e]
  | assign k f so ow perm =>
    obtain ⟨_, hall, h3, h4⟩ := assign_spec S hg ho h
    refine ⟨?_, by rw [hall]; exact hknown, by simp [recency, hall]⟩
    by_cases e : key = k
    · subst e
      rcases h4 with ⟨_, _, h5⟩ | ⟨_, l', h5, _⟩
      · rw [h5]; exact hlist
      · rw [h5]; rfl
    · rw [h3 key e]; exact hlist
  | sort k by_ =>
    obtain ⟨_, hall, _, h4⟩ := sort_mem S hg h
    obtain ⟨l', hl', _⟩ := h4 key l hl
    exact ⟨by rw [hl']; rfl, by rw [hall]; exact hknown, by simp [recency, hall]⟩
  | delete k =>
    simp only [step, Option.some.injEq] at h; subst h
    have hk : key ≠ k := fun e => hdel (by rw [e])
    refine ⟨by rw [delete_get _ _ _ hk]; exact hlist, by simp [delete, hknown], ?_⟩
    simp only [recency, delete, Option.map_map]
    congr 1
    funext r
    simp [effTs, hk]
  | touch k i =>
    simp only [step, Option.some.injEq] at h; subst h
    refine ⟨hlist, by rw [touch_all]; simpa using hknown, ?_⟩
    simp only [recency, touch_all, Option.map_map]
    congr 1
    funext r
    simp only [Function.comp]
    by_cases e : id = i
    · by_cases ek : key = k
      · simp [e, ek, effTs]
      · simp [e, ek, effTs]
    · simp [e]

/-- C61. While a list exists, the timestamp by which it orders a known room by
recency is that of the last update that bumped the room in that list; updates
without a bump (whatever the room's last message) leave it where it was. -/
theorem C61_recency (os before : List Op) (hgood : ∀ o ∈ before ++ os, Good o) (s0 s : State)
    (h0 : run S {} before = some s0) (h : run S s0 os = some s) (key id : String)
    (hlist : (getList s0 key).isSome = true) (hknown : (s0.all id).isSome = true) (hdel : Op.delete key ∉ os) :
    recency s key id = match lastBump key id os with
      | some t => some t
      | none => recency s0 key id := by
  have hg : GInv s0 := run_inv S init_inv (fun o ho => hgood o (by simp [ho])) h0
  replace hgood : ∀ o ∈ os, Good o := fun o ho => hgood o (by simp [ho])
  clear h0
  induction os generalizing s0 with
  | nil => simp only [run, Option.some.injEq] at h; subst h; rfl
  | cons o os ih =>
    simp only [run, Option.bind_eq_some_iff] at h
    obtain ⟨s1, h1, h2⟩ := h
    obtain ⟨a, b, c⟩ := step_recency S hg (hgood o (by simp)) h1 (key := key) (id := id)
      (fun e => hdel (by simp [e])) hlist hknown
    rw [ih s1 h2 a b (fun hm => hdel (by simp [hm])) (step_inv S hg (hgood o (by simp)) h1)
      (fun x hx => hgood x (by simp [hx]))]
    rw [c]
    cases o with
    | update req r =>
      simp only [lastBump]
      cases lastBump key id os with
      | some t => rfl
      | none =>
        by_cases e : r.id = id
        · simp only [e, if_true]

        · simp [e]
    | _ => rfl

example :
    let a : Room := ⟨"!a", plain, 0, 0, 5, fun _ => none⟩
    let a' : Room := ⟨"!a", plain, 0, 0, 9, fun k => if k = "m" then some 9 else none⟩
    let before : List Op := [.assign "l" {} (some ["by_recency"]) false id, .assign "m" {} (some ["by_recency"]) false id, .update noReq a]
    ((run ⟨id, id⟩ {} (before ++ [.update noReq a'])).map fun s => (recency s "l" "!a", recency s "m" "!a"))
      = some (some 5, some 9) := by
  decide +kernel

end Verif.Lists
