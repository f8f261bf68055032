import Verif.RoomName
/-! C56: room names; C70: a name says something about the members. -/
namespace Verif.RoomName
open Verif

/-! ### Specification -/

/-- The display name shown for a hero among others: their name (or id, if they have no name), followed by the id if another
hero shows the same. -/
def shown (heroes : List Hero) (h : Hero) : String :=
  let dn := fun x : Hero => if x.name = "" then x.id else x.name
  if (heroes.filter fun x => decide (dn x = dn h)).length = 1 then dn h else dn h ++ " (" ++ h.id ++ ")"

/-- The name, from its parts: explicit name, alias, or heroes. -/
def nameSpec (m : Meta) (maxNames : Nat) : String × Bool :=
  let names := m.heroes.map (shown m.heroes)
  let others := m.joinCount + m.inviteCount - 1
  if m.nameEvent ≠ "" then (m.nameEvent, false)
  else if m.alias ≠ "" then (m.alias, false)
  else match names.reverse with
    | [] => if others ≤ 0 then ("Empty Room", false) else (" and " ++ toString others ++ " others", true)
    | [n] => if others ≤ 1 then (n, true) else
        (String.intercalate ", " (names.take maxNames) ++ " and " ++ toString (others - (min 1 maxNames : Nat)) ++ " others", true)
    | last :: front =>
      if others ≤ 0 then ("Empty Room (was " ++ String.intercalate ", " front.reverse ++ " and " ++ last ++ ")", true)
      else if others ≤ names.length then (String.intercalate ", " front.reverse ++ " and " ++ last, true)
      else (String.intercalate ", " (names.take maxNames) ++ " and " ++
        toString (others - (min names.length maxNames : Nat)) ++ " others", true)

/-! ### The map of display names -/

/-- Positions, from `n`, of the heroes with the display name. -/
def positions (name : String) : Nat → List Hero → List Nat
  | _, [] => []
  | n, h :: l => if displayName h = name then n :: positions name (n + 1) l else positions name (n + 1) l

theorem positions_append (name : String) (n : Nat) (l l' : List Hero) :
    positions name n (l ++ l') = positions name n l ++ positions name (n + l.length) l' := by
  induction l generalizing n with
  | nil => rfl
  | cons h l ih =>
    have : n + 1 + l.length = n + (l.length + 1) := by omega
    simp only [List.cons_append, positions, ih, List.length_cons, this]
    split <;> rfl

theorem displayNames_snoc (l : List Hero) (h : Hero) : displayNames (l ++ [h]) =
    match Assoc.get (displayNames l) (displayName h) with
    | none => Assoc.set (displayNames l) (displayName h) [l.length]
    | some x => Assoc.set (displayNames l) (displayName h) (x ++ [l.length]) := by
  unfold displayNames
  rw [List.zipIdx_append, List.foldl_append]
  simp only [List.zipIdx_cons, List.zipIdx_nil, List.foldl_cons, List.foldl_nil, Nat.zero_add]
  split <;> split <;> simp_all

theorem get_displayNames (l : List Hero) (name : String) :
    Assoc.get (displayNames l) name = if positions name 0 l = [] then none else some (positions name 0 l) := by
  induction l using Verif.Util.snocRec with
  | nil => rfl
  | append_singleton l h ih =>
    rw [displayNames_snoc, positions_append]
    by_cases hn : name = displayName h
    · subst hn
      rw [ih]
      simp only [positions, if_true, Nat.zero_add]
      by_cases hp : positions (displayName h) 0 l = []
      · simp [hp, Assoc.get_set]
      · simp [hp, Assoc.get_set]
    · have hp : positions name (0 + l.length) [h] = [] := by simp [positions, Ne.symm hn]
      rw [hp, List.append_nil, ← ih]
      split <;> rw [Assoc.get_set, if_neg hn]

theorem nodup_set {κ ν : Type _} [DecidableEq κ] {m : List (κ × ν)} (h : (m.map (·.1)).Nodup) (k : κ) (v : ν) :
    ((Assoc.set m k v).map (·.1)).Nodup := by
  simp only [Assoc.set, Assoc.del, List.map_append, List.map_cons, List.map_nil]
  rw [List.nodup_append]
  refine ⟨(List.filter_sublist.map _).nodup h, by simp, ?_⟩
  intro a ha b hb
  obtain ⟨e, he, rfl⟩ := List.mem_map.1 ha
  rw [List.mem_singleton.1 hb]
  simpa using (List.mem_filter.1 he).2

theorem nodup_displayNames (l : List Hero) : ((displayNames l).map (·.1)).Nodup := by
  induction l using Verif.Util.snocRec with
  | nil => simp [displayNames]
  | append_singleton l h ih =>
    rw [displayNames_snoc]
    split <;> exact nodup_set ih _ _

theorem get_of_mem {κ ν : Type _} [DecidableEq κ] {m : List (κ × ν)} (hn : (m.map (·.1)).Nodup) {k : κ} {v : ν} (hm : (k, v) ∈ m) :
    Assoc.get m k = some v := by
  induction m with
  | nil => cases hm
  | cons e m ih =>
    simp only [List.map_cons, List.nodup_cons] at hn
    rcases List.mem_cons.1 hm with hm | hm
    · subst hm; simp [Assoc.get]
    · have hne : ¬ e.1 = k := fun he => hn.1 (List.mem_map.2 ⟨_, hm, he.symm⟩)
      have := ih hn.2 hm
      simpa [Assoc.get, hne] using this

theorem mem_displayNames (l : List Hero) (e : String × List Nat) :
    e ∈ displayNames l ↔ e.2 = positions e.1 0 l ∧ e.2 ≠ [] := by
  constructor
  · intro h
    have := get_of_mem (nodup_displayNames l) h
    rw [get_displayNames] at this
    split at this
    · cases this
    · rename_i hne
      have := Option.some.inj this
      rw [← this]; exact ⟨rfl, hne⟩
  · rintro ⟨h1, h2⟩
    have hg : Assoc.get (displayNames l) e.1 = some e.2 := by
      rw [get_displayNames, if_neg (by rw [← h1]; exact h2), h1]
    exact Assoc.get_mem hg

theorem mem_positions (name : String) (n : Nat) (l : List Hero) (i : Nat) :
    i ∈ positions name n l ↔ ∃ h, n ≤ i ∧ l[i - n]? = some h ∧ displayName h = name := by
  induction l generalizing n with
  | nil => simp [positions]
  | cons h l ih =>
    have hrest : (i ∈ positions name (n + 1) l) ↔ ∃ x, n < i ∧ (h :: l)[i - n]? = some x ∧ displayName x = name := by
      rw [ih]
      constructor
      · rintro ⟨x, h1, h2, h3⟩
        refine ⟨x, by omega, ?_, h3⟩
        have : i - n = (i - (n + 1)) + 1 := by omega
        rw [this, List.getElem?_cons_succ]; exact h2
      · rintro ⟨x, h1, h2, h3⟩
        refine ⟨x, by omega, ?_, h3⟩
        have : i - n = (i - (n + 1)) + 1 := by omega
        rw [this, List.getElem?_cons_succ] at h2; exact h2
    simp only [positions]
    by_cases hd : displayName h = name
    · rw [if_pos hd, List.mem_cons, hrest]
      constructor
      · rintro (rfl | ⟨x, h1, h2⟩)
        · exact ⟨h, Nat.le_refl _, by simp, hd⟩
        · exact ⟨x, by omega, h2⟩
      · rintro ⟨x, h1, h2⟩
        by_cases hi : i = n
        · exact Or.inl hi
        · exact Or.inr ⟨x, by omega, h2⟩
    · rw [if_neg hd, hrest]
      constructor
      · rintro ⟨x, h1, h2⟩; exact ⟨x, by omega, h2⟩
      · rintro ⟨x, h1, h2, h3⟩
        refine ⟨x, ?_, h2, h3⟩
        rcases Nat.lt_or_ge n i with h4 | h4
        · exact h4
        · have : i - n = 0 := by omega
          rw [this] at h2
          simp only [List.getElem?_cons_zero, Option.some.injEq] at h2
          rw [h2] at hd; exact absurd h3 hd

theorem positions_length (name : String) (n : Nat) (l : List Hero) :
    (positions name n l).length = (l.filter fun x => decide (displayName x = name)).length := by
  induction l generalizing n with
  | nil => rfl
  | cons h l ih =>
    simp only [positions, List.filter_cons, decide_eq_true_eq]
    split <;> simp [ih]

/-! ### Filling -/

theorem write_some {out : List String} {i : Nat} (h : i < out.length) (v : String) : write out i v = some (out.set i v) := if_pos h

/-- The loop over positions writes exactly there. -/
theorem fillMany_spec (heroes : List Hero) (is : List Nat) (out : List String) (hlen : out.length = heroes.length)
    (his : ∀ i ∈ is, i < heroes.length) :
    ∃ out', fillMany heroes is out = some out' ∧ out'.length = heroes.length ∧
      ∀ i, out'[i]? = if i ∈ is then (heroes[i]?).map (fun h => displayName h ++ " (" ++ h.id ++ ")") else out[i]? := by
  induction is generalizing out with
  | nil => exact ⟨out, rfl, hlen, by simp⟩
  | cons j is ih =>
    have hj : j < heroes.length := his j (by simp)
    have hget : heroes[j]? = some heroes[j] := List.getElem?_eq_getElem hj
    simp only [fillMany, hget]
    rw [write_some (by rw [hlen]; exact hj), Option.bind_some]
    obtain ⟨out', h1, h2, h3⟩ := ih (out.set j (displayName heroes[j] ++ " (" ++ heroes[j].id ++ ")")) (by rw [List.length_set]; exact hlen) (fun i hi => his i (by simp [hi]))
    refine ⟨out', h1, h2, ?_⟩
    intro i
    rw [h3]
    by_cases hi : i ∈ is
    · simp [hi]
    · rw [if_neg hi]
      by_cases hij : j = i
      · subst hij
        rw [List.getElem?_set_self (by rw [hlen]; exact hj)]
        simp [hget]
      · rw [List.getElem?_set_ne hij]
        have : ¬ i ∈ j :: is := by simp [hi, Ne.symm hij]
        rw [if_neg this]

theorem shown_eq (heroes : List Hero) (h : Hero) : shown heroes h =
    if (positions (displayName h) 0 heroes).length = 1 then displayName h else displayName h ++ " (" ++ h.id ++ ")" := by
  rw [positions_length]; rfl

/-- One entry of the map writes what is to be shown, at its positions. -/
theorem fill_spec (heroes : List Hero) (es : List (String × List Nat)) (hes : ∀ e ∈ es, e.2 = positions e.1 0 heroes ∧ e.2 ≠ [])
    (out : List String) (hlen : out.length = heroes.length) :
    ∃ out', fill heroes es out = some out' ∧ out'.length = heroes.length ∧
      ∀ (i : Nat) (h : Hero), heroes[i]? = some h →
        out'[i]? = if displayName h ∈ es.map (·.1) then some (shown heroes h) else out[i]? := by
  induction es generalizing out with
  | nil => exact ⟨out, rfl, hlen, by simp⟩
  | cons e es ih =>
    obtain ⟨name, is⟩ := e
    obtain ⟨hpos, hne⟩ := hes (name, is) (by simp)
    simp only at hpos hne
    have his : ∀ i ∈ is, i < heroes.length := by
      intro i hi
      rw [hpos, mem_positions] at hi
      obtain ⟨h, _, h2, _⟩ := hi
      simp only [Nat.sub_zero] at h2
      exact (List.getElem?_eq_some_iff.1 h2).1
    -- one entry
    have hstep : ∃ out1, fill heroes ((name, is) :: es) out = fill heroes es out1 ∧ out1.length = heroes.length ∧
        ∀ (i : Nat) (h : Hero), heroes[i]? = some h → out1[i]? = if displayName h = name then some (shown heroes h) else out[i]? := by
      have hmem : ∀ (i : Nat) (h : Hero), heroes[i]? = some h → (i ∈ is ↔ displayName h = name) := by
        intro i h hh
        rw [hpos, mem_positions]
        simp only [Nat.sub_zero, Nat.zero_le, true_and, hh, Option.some.injEq]
        constructor
        · rintro ⟨x, rfl, hx⟩; exact hx
        · intro hx; exact ⟨h, rfl, hx⟩
      match is, hpos, hne, his, hmem with
      | [j], hpos, hne, his, hmem =>
        have hj : j < heroes.length := his j (by simp)
        refine ⟨out.set j name, ?_, by rw [List.length_set]; exact hlen, ?_⟩
        · simp only [fill]; rw [write_some (by rw [hlen]; exact hj), Option.bind_some]
        · intro i h hh
          by_cases hn : displayName h = name
          · have hij := (hmem i h hh).2 hn
            rw [List.mem_singleton] at hij
            subst hij
            rw [if_pos hn, List.getElem?_set_self (by rw [hlen]; exact hj), shown_eq, if_pos (by rw [hn, ← hpos]; rfl), hn]
          · have hij : j ≠ i := fun he => hn ((hmem i h hh).1 (by simp [he]))
            rw [if_neg hn, List.getElem?_set_ne hij]
      | j :: k :: is, hpos, hne, his, hmem =>
        obtain ⟨out1, h1, h2, h3⟩ := fillMany_spec heroes (j :: k :: is) out hlen his
        refine ⟨out1, ?_, h2, ?_⟩
        · simp only [fill]; rw [h1, Option.bind_some]
        · intro i h hh
          rw [h3]
          by_cases hn : displayName h = name
          · rw [if_pos ((hmem i h hh).2 hn), if_pos hn, hh, shown_eq, if_neg (by rw [hn, ← hpos]; simp)]
            rfl
          · rw [if_neg (fun hi => hn ((hmem i h hh).1 hi)), if_neg hn]
    obtain ⟨out1, h1, h2, h3⟩ := hstep
    obtain ⟨out', h4, h5, h6⟩ := ih (fun e he => hes e (by simp [he])) out1 h2
    refine ⟨out', h1.trans h4, h5, ?_⟩
    intro i h hh
    rw [h6 i h hh, h3 i h hh]
    simp only [List.map_cons, List.mem_cons]
    by_cases ha : displayName h ∈ es.map (·.1)
    · simp [ha]
    · simp [ha]

/-- `disambiguate`, whatever the order of the map. -/
theorem disambiguate_eq (heroes : List Hero) (res : Option (List String)) (h : Disambiguate heroes res) :
    res = some (heroes.map (shown heroes)) := by
  obtain ⟨es, hp, rfl⟩ := h
  obtain ⟨out, h1, h2, h3⟩ := fill_spec heroes es
    (fun e he => (mem_displayNames heroes e).1 (hp.mem_iff.1 he)) (List.replicate heroes.length "") (by simp)
  rw [h1]
  congr 1
  apply List.ext_getElem?
  intro i
  rw [List.getElem?_map]
  cases hh : heroes[i]? with
  | none =>
    have : heroes.length ≤ i := List.getElem?_eq_none_iff.1 hh
    rw [List.getElem?_eq_none (by rw [h2]; exact this)]; rfl
  | some x =>
    rw [h3 i x hh]
    have : displayName x ∈ es.map (·.1) := by
      have hm : (displayName x, positions (displayName x) 0 heroes) ∈ displayNames heroes := by
        refine (mem_displayNames _ _).2 ⟨rfl, ?_⟩
        intro hnil
        simp only at hnil
        have : i ∈ positions (displayName x) 0 heroes := (mem_positions _ _ _ _).2 ⟨x, Nat.zero_le _, by simpa using hh, rfl⟩
        rw [hnil] at this; cases this
      exact List.mem_map.2 ⟨_, hp.mem_iff.2 hm, rfl⟩
    rw [if_pos this]; rfl

/-! ### C56 -/

/-- `CalculateRoomName` never panics and gives the specified name, for any metadata and any limit. -/
theorem C56_name (m : Meta) (maxNames : Nat) (res : Option (String × Bool)) (h : Calculate m maxNames res) :
    res = some (nameSpec m maxNames) := by
  unfold Calculate at h
  unfold nameSpec
  by_cases hn : m.nameEvent ≠ ""
  · rw [if_pos hn] at h; simp only [if_pos hn]; exact h
  rw [if_neg hn] at h
  simp only [if_neg hn]
  by_cases ha : m.alias ≠ ""
  · rw [if_pos ha] at h; simp only [if_pos ha]; exact h
  rw [if_neg ha] at h
  simp only [if_neg ha]
  obtain ⟨names, h1, rfl⟩ := h
  rw [disambiguate_eq _ _ h1, Option.bind_some]
  have hlen : (m.heroes.map (shown m.heroes)).length = m.heroes.length := List.length_map ..
  generalize hN : m.heroes.map (shown m.heroes) = N at hlen
  unfold calculated
  simp only [← hlen]
  generalize hT : m.joinCount + m.inviteCount - 1 = T
  have hgt : m.joinCount + m.inviteCount > 1 ↔ 0 < T := by omega
  have hrev : N = N.reverse.reverse := (List.reverse_reverse N).symm
  rcases hR : N.reverse with _ | ⟨last, _ | ⟨b, front⟩⟩
  · -- no heroes
    have hNil : N = [] := by rw [hrev, hR]; rfl
    subst hNil
    simp only
    by_cases hT0 : T ≤ 0
    · simp [hT0]
    · simp only [List.length_nil, hT0, decide_false, Bool.false_eq_true, and_false, if_false]
      have h1 : ¬ ((0 : Nat) : Int) ≥ T := by omega
      rw [if_neg h1]
      have h2 : ¬ ((0 : Nat) : Int) > (maxNames : Int) := by omega
      simp only [if_neg h2, slice]
      have h3 : (0 : Int) ≤ ((0 : Nat) : Int) ∧ ((0 : Nat) : Int) ≤ (([] : List String).length : Int) := by simp
      rw [if_pos h3]
      have h4 : m.joinCount + m.inviteCount > 1 := hgt.2 (by omega)
      simp [h4, join]
  · -- one hero
    have hOne : N = [last] := by rw [hrev, hR]; rfl
    subst hOne
    simp only [List.length_cons, List.length_nil]
    have h0 : ¬ (0 + 1 = 0 ∧ decide (T ≤ 0) = true) := by simp
    rw [if_neg h0]
    by_cases hT1 : T ≤ 1
    · have h1 : ((0 + 1 : Nat) : Int) ≥ T := by omega
      rw [if_pos h1, if_pos hT1]
      simp [index]
    · have h1 : ¬ ((0 + 1 : Nat) : Int) ≥ T := by omega
      rw [if_neg h1, if_neg hT1]
      have h4 : m.joinCount + m.inviteCount > 1 := hgt.2 (by omega)
      rcases Nat.eq_zero_or_pos maxNames with hz | hz
      · subst hz
        have : ((0 + 1 : Nat) : Int) > ((0 : Nat) : Int) := by omega
        simp only [if_pos this, slice]
        simp [h4, join]
      · have h2 : ¬ ((0 + 1 : Nat) : Int) > (maxNames : Int) := by omega
        simp only [if_neg h2, slice]
        have hmin : min 1 maxNames = 1 := by omega
        have htake : ([last] : List String).take maxNames = [last] := by
          rw [List.take_of_length_le]; simp only [List.length_cons, List.length_nil]; omega
        simp [h4, join, hmin, htake]
  · -- more
    have hMore : N = (b :: front).reverse ++ [last] := by rw [hrev, hR]; simp
    have hL : N.length = front.length + 2 := by rw [hMore]; simp
    have h0 : ¬ (N.length = 0 ∧ decide (T ≤ 0) = true) := by omega
    rw [if_neg h0]
    have h1' : ¬ N.length = 1 := by omega
    have hslice : slice N ((N.length : Int) - 1) = some (b :: front).reverse := by
      unfold slice
      rw [if_pos ⟨by omega, by omega⟩]
      have : ((N.length : Int) - 1).toNat = (b :: front).reverse.length := by simp; omega
      rw [this, hMore, List.take_left']
      rfl
    have hidx : index N ((N.length : Int) - 1) = some last := by
      unfold index
      rw [if_pos (by omega)]
      have : ((N.length : Int) - 1).toNat = (b :: front).reverse.length := by simp; omega
      rw [this, hMore, List.getElem?_append_right (Nat.le_refl _)]
      simp
    by_cases hge : (N.length : Int) ≥ T
    · rw [if_pos hge, if_neg h1', hslice, hidx]
      by_cases hT0 : T ≤ 0
      · simp [hT0, join, String.append_assoc]
      · simp [hT0, join, hge]
    · rw [if_neg hge]
      have hT0 : ¬ T ≤ 0 := by omega
      have hTL : ¬ T ≤ N.length := by omega
      simp only [if_neg hT0, if_neg hTL]
      have h4 : m.joinCount + m.inviteCount > 1 := hgt.2 (by omega)
      by_cases hm : (N.length : Int) > (maxNames : Int)
      · have hmin : min N.length maxNames = maxNames := by omega
        have hs : slice N (maxNames : Int) = some (N.take maxNames) := by
          unfold slice
          rw [if_pos ⟨by omega, by omega⟩]; rfl
        simp only [if_pos hm, hs, hmin]
        simp [h4, join]
      · have hmin : min N.length maxNames = N.length := by omega
        have htake : N.take maxNames = N := List.take_of_length_le (by omega)
        have hs : slice N (N.length : Int) = some N := by
          unfold slice
          rw [if_pos ⟨by omega, by omega⟩]; simp
        simp only [if_neg hm, hs, hmin, htake]
        simp [h4, join]

/-- Some result exists (the map has some order). -/
theorem C56_exists (m : Meta) (maxNames : Nat) : Calculate m maxNames (some (nameSpec m maxNames)) := by
  have : ∃ res, Calculate m maxNames res := by
    unfold Calculate
    by_cases hn : m.nameEvent ≠ ""
    · exact ⟨_, by rw [if_pos hn]⟩
    · by_cases ha : m.alias ≠ ""
      · exact ⟨_, by rw [if_neg hn, if_pos ha]⟩
      · exact ⟨_, by rw [if_neg hn, if_neg ha]; exact ⟨_, ⟨_, List.Perm.refl _, rfl⟩, rfl⟩⟩
  obtain ⟨res, h⟩ := this
  rw [← C56_name m maxNames res h]; exact h

/-- Two heroes with the same display name and different ids are shown differently, each with their id. -/
theorem C56_disambiguated (heroes : List Hero) (i j : Nat) (g h : Hero) (hij : i ≠ j) (hg : heroes[i]? = some g)
    (hh : heroes[j]? = some h) (hsame : displayName g = displayName h) :
    shown heroes g = displayName g ++ " (" ++ g.id ++ ")" ∧ shown heroes h = displayName h ++ " (" ++ h.id ++ ")" ∧
    (g.id ≠ h.id → shown heroes g ≠ shown heroes h) := by
  have hi : i ∈ positions (displayName g) 0 heroes := (mem_positions _ _ _ _).2 ⟨g, Nat.zero_le _, by simpa using hg, rfl⟩
  have hj : j ∈ positions (displayName g) 0 heroes :=
    (mem_positions _ _ _ _).2 ⟨h, Nat.zero_le _, by simpa using hh, hsame.symm⟩
  have hne : ¬ (positions (displayName g) 0 heroes).length = 1 := by
    intro h1
    obtain ⟨x, hx⟩ := List.length_eq_one_iff.1 h1
    rw [hx] at hi hj
    exact hij ((List.mem_singleton.1 hi).trans (List.mem_singleton.1 hj).symm)
  have e1 : shown heroes g = displayName g ++ " (" ++ g.id ++ ")" := by rw [shown_eq, if_neg hne]
  have e2 : shown heroes h = displayName h ++ " (" ++ h.id ++ ")" := by rw [shown_eq, ← hsame, if_neg hne]
  refine ⟨e1, e2, ?_⟩
  intro hid heq
  rw [e1, e2, hsame] at heq
  apply hid
  have := congrArg String.toList heq
  simp only [String.toList_append, List.append_assoc] at this
  have := List.append_cancel_left (List.append_cancel_left this)
  exact String.toList_inj.1 (List.append_cancel_right this)

/-- But a hero can choose a display name that is what is shown for another one. -/
theorem C56_impersonation :
    let heroes : List Hero := [⟨"@a", "Bob", ""⟩, ⟨"@b", "Bob", ""⟩, ⟨"@c", "Bob (@a)", ""⟩]
    shown heroes ⟨"@a", "Bob", ""⟩ = shown heroes ⟨"@c", "Bob (@a)", ""⟩ := by decide +kernel

theorem sameHeroNames_shown {a b : List Hero} (h : sameHeroNames a b = true) :
    a.map (fun h => (h.id, h.name)) = b.map (fun h => (h.id, h.name)) := by
  induction a generalizing b with
  | nil => cases b with
    | nil => rfl
    | cons x l => cases h
  | cons x l ih => cases b with
    | nil => cases h
    | cons y l' =>
      simp only [sameHeroNames, Bool.and_eq_true, decide_eq_true_eq] at h
      simp only [List.map_cons, ih h.2, h.1.1, h.1.2]

theorem shown_map (heroes : List Hero) : heroes.map (shown heroes) =
    (heroes.map fun h => (h.id, h.name)).map fun p =>
      let dn := fun x : String × String => if x.2 = "" then x.1 else x.2
      if ((heroes.map fun h => (h.id, h.name)).filter fun x => decide (dn x = dn p)).length = 1 then dn p
      else dn p ++ " (" ++ p.1 ++ ")" := by
  rw [List.map_map]
  apply List.map_congr_left
  intro h _
  simp only [Function.comp, shown, List.filter_map, List.length_map]
  rfl

/-- If `SameRoomName` holds of two metadatas, the names calculated are the same. -/
theorem C56_same_name (a b : Meta) (maxNames : Nat) (h : sameRoomName a b = true) (ra rb : Option (String × Bool))
    (ha : Calculate a maxNames ra) (hb : Calculate b maxNames rb) : ra = rb := by
  rw [C56_name a maxNames ra ha, C56_name b maxNames rb hb]
  simp only [sameRoomName, Bool.and_eq_true, decide_eq_true_eq] at h
  obtain ⟨⟨⟨⟨⟨_, h2⟩, h3⟩, h4⟩, h5⟩, h6⟩ := h
  have h7 : a.heroes.map (shown a.heroes) = b.heroes.map (shown b.heroes) := by
    rw [shown_map, shown_map, sameHeroNames_shown h6]
  unfold nameSpec
  rw [h2, h3, h4, h5, h7]

/-- Removing the syncing user from heroes with different ids leaves the others, in order. -/
theorem C56_remove_hero (heroes : List Hero) (u : String) (hn : (heroes.map (·.id)).Nodup) :
    removeHero heroes u = heroes.filter fun h => decide (h.id ≠ u) := by
  induction heroes with
  | nil => rfl
  | cons h l ih =>
    simp only [List.map_cons, List.nodup_cons] at hn
    simp only [removeHero, List.filter_cons]
    by_cases hu : h.id = u
    · rw [if_pos hu]
      have : l.filter (fun h => decide (h.id ≠ u)) = l := by
        rw [List.filter_eq_self]
        intro x hx
        simp only [decide_eq_true_eq]
        intro hxu
        exact hn.1 (List.mem_map.2 ⟨x, hx, hxu.trans hu.symm⟩)
      rw [this]; simp [hu]
    · rw [if_neg hu, ih hn.2]; simp [hu]

/-- Five members, the same display name twice, a limit of two names. -/
example : nameSpec { roomID := "!r", heroes := [⟨"@a", "Al", ""⟩, ⟨"@b", "", ""⟩, ⟨"@c", "Al", ""⟩], joinCount := 5, inviteCount := 1 } 2 =
    ("Al (@a), @b and 3 others", true) := by decide +kernel

/-! ### C70 -/

/-- C70 as stated: with no explicit name and alias, a user alone sees a name that begins with "Empty Room", and a user not alone sees one
that begins with the name of a member. -/
def SaysSomething : Prop := ∀ (m : Meta) (maxNames : Nat), 0 < maxNames → m.nameEvent = "" → m.alias = "" →
  if m.joinCount + m.inviteCount ≤ 1 then "Empty Room".toList <+: (nameSpec m maxNames).1.toList
  else ∃ h ∈ m.heroes, (shown m.heroes h).toList <+: (nameSpec m maxNames).1.toList

/-- Alone, with one hero: the name is that of the hero, as if they were there. -/
theorem C70_violated_alone : nameSpec { roomID := "!r", heroes := [⟨"@a", "Alice", ""⟩], joinCount := 1, inviteCount := 0 } 5 = ("Alice", true) := by
  decide +kernel

/-- Others are there but there are no heroes: nobody is named. -/
theorem C70_violated_nobody : nameSpec { roomID := "!r", heroes := [], joinCount := 3, inviteCount := 0 } 5 = (" and 2 others", true) := by
  decide +kernel

/-- C70 is violated when the counts and the heroes disagree: a room with one member, and one hero, is named after the hero. -/
theorem C70_violated : ¬ SaysSomething := by
  intro h
  have := h { roomID := "!r", heroes := [⟨"@a", "Alice", ""⟩], joinCount := 1, inviteCount := 0 } 5 (by decide) rfl rfl
  rw [C70_violated_alone] at this
  simp at this

theorem intercalate_prefix (s : String) (x : String) (l : List String) : x.toList <+: (String.intercalate s (x :: l)).toList := by
  cases l with
  | nil => simp
  | cons y l =>
    rw [String.intercalate_cons_cons]
    simp only [String.toList_append]
    exact (List.prefix_append _ _).trans (List.prefix_append _ _)

/-- It holds unless the user is alone with exactly one hero, or not alone with no heroes. -/
theorem C70_partial (m : Meta) (maxNames : Nat) (hmax : 0 < maxNames) (hn : m.nameEvent = "") (ha : m.alias = "")
    (h1 : m.joinCount + m.inviteCount ≤ 1 → m.heroes.length ≠ 1) (h2 : ¬ m.joinCount + m.inviteCount ≤ 1 → m.heroes ≠ []) :
    if m.joinCount + m.inviteCount ≤ 1 then "Empty Room".toList <+: (nameSpec m maxNames).1.toList
    else ∃ h ∈ m.heroes, (shown m.heroes h).toList <+: (nameSpec m maxNames).1.toList := by
  have hT : ∀ x, m.joinCount + m.inviteCount - 1 ≤ x ↔ m.joinCount + m.inviteCount ≤ x + 1 := fun x => by omega
  by_cases hal : m.joinCount + m.inviteCount ≤ 1
  · rw [if_pos hal]
    have hT0 : m.joinCount + m.inviteCount - 1 ≤ 0 := by omega
    have h1' := h1 hal
    unfold nameSpec
    simp only [hn, ha, ne_eq, not_true_eq_false, if_false]
    have hlen : (m.heroes.map (shown m.heroes)).reverse.length = m.heroes.length := by simp
    generalize (m.heroes.map (shown m.heroes)).reverse = R at hlen ⊢
    rcases R with _ | ⟨last, _ | ⟨b, front⟩⟩
    · simp [hT0]
    · exact absurd hlen.symm h1'
    · simp only [if_pos hT0, String.toList_append, List.append_assoc]
      exact ⟨" (was ".toList ++ _, by rw [← List.append_assoc]; rfl⟩
  · rw [if_neg hal]
    have h2' := h2 hal
    have hT0 : ¬ m.joinCount + m.inviteCount - 1 ≤ 0 := by omega
    cases hh : m.heroes with
    | nil => exact absurd hh h2'
    | cons g gs =>
      refine ⟨g, by simp, ?_⟩
      rw [← hh]
      unfold nameSpec
      simp only [hn, ha, ne_eq, not_true_eq_false, if_false]
      have hN : m.heroes.map (shown m.heroes) = shown m.heroes g :: gs.map (shown m.heroes) := by
        conv => lhs; rw [hh]
        rw [List.map_cons, ← hh]
      obtain ⟨k, rfl⟩ : ∃ k, maxNames = k + 1 := ⟨maxNames - 1, by omega⟩
      have htake : (m.heroes.map (shown m.heroes)).take (k + 1) = shown m.heroes g :: (gs.map (shown m.heroes)).take k := by
        rw [hN]; rfl
      generalize hR : (m.heroes.map (shown m.heroes)).reverse = R
      have hRN : m.heroes.map (shown m.heroes) = R.reverse := by rw [← hR, List.reverse_reverse]
      rcases R with _ | ⟨last, _ | ⟨b, front⟩⟩
      · rw [hN] at hRN; cases hRN
      · simp only
        split
        · rw [hN] at hRN
          simp only [List.reverse_cons, List.reverse_nil, List.nil_append, List.cons.injEq] at hRN
          rw [hRN.1]; exact List.prefix_refl _
        · rw [htake]
          simp only [String.toList_append, List.append_assoc]
          exact (intercalate_prefix _ _ _).trans (List.prefix_append _ _)
      · simp only [if_neg hT0]
        split
        · rw [hN] at hRN
          obtain ⟨x, rest, hx⟩ : ∃ x rest, (b :: front).reverse = x :: rest := by
            cases hc : (b :: front).reverse with
            | nil => simp at hc
            | cons x rest => exact ⟨x, rest, rfl⟩
          rw [List.reverse_cons, hx] at hRN
          simp only [List.cons_append, List.cons.injEq] at hRN
          rw [hx, hRN.1]
          simp only [String.toList_append, List.append_assoc]
          exact (intercalate_prefix _ _ _).trans (List.prefix_append _ _)
        · rw [htake]
          simp only [String.toList_append, List.append_assoc]
          exact (intercalate_prefix _ _ _).trans (List.prefix_append _ _)

end Verif.RoomName
