import Verif.MemberColumn
import Verif.InvitesProps
/-!
# C131: who is joined is decided by the membership of the event

The specification reads `content.membership` of the events; it knows nothing of the column or of its marks.
-/
namespace Verif.MemberColumn

open Verif Invites

/-- The users whose member event has this membership, in order. -/
def whose (p : String → Bool) (evs : List Raw) : List String :=
  evs.filterMap fun r => if r.type = "m.room.member" ∧ r.membership ≠ "" ∧ p r.membership then r.stateKey else none

/-- Member events name a user, and no membership begins like the mark of the column. -/
def Proper (r : Raw) : Prop :=
  r.type = "m.room.member" → (∃ u, r.stateKey = some u ∧ u ≠ "") ∧ r.membership ≠ "_join" ∧ r.membership ≠ "_invite"

/-- The events of a room. -/
def inRoom (room : String) (l : List (String × Raw)) : List Raw := (l.filter fun p => decide (p.1 = room)).map (·.2)

theorem marked (c : Bool) (m k : String) (hk : k.toList.head? ≠ some '_') (h : m ≠ "_" ++ k) :
    ((if c then m else "_" ++ m) = k ∨ (if c then m else "_" ++ m) = "_" ++ k) ↔ m = k := by
  cases c with
  | true => simp [h]
  | false =>
    simp only [Bool.false_eq_true, if_false]
    constructor
    · rintro (he | he)
      · exfalso
        apply hk
        rw [← he, String.toList_append]
        rfl
      · have := congrArg String.toList he
        rw [String.toList_append, String.toList_append] at this
        exact String.toList_inj.1 (List.append_cancel_left this)
    · rintro rfl; exact .inr rfl

/-- What the column of a stored member event tells. -/
theorem column {r : Raw} (hp : Proper r) (ht : r.type = "m.room.member") :
    (r.membership = "" ∧ ensure r = none) ∨
    ∃ e u, r.membership ≠ "" ∧ ensure r = some e ∧ e.type = "m.room.member" ∧ r.stateKey = some u ∧ e.stateKey = u ∧
      ((e.membership = "join" ∨ e.membership = "_join") ↔ r.membership = "join") ∧
      ((e.membership = "invite" ∨ e.membership = "_invite") ↔ r.membership = "invite") := by
  obtain ⟨⟨u, hu, hne⟩, hj, hi⟩ := hp ht
  by_cases hm : r.membership = ""
  · exact .inl ⟨hm, by simp [ensure, hu, hne, ht, hm]⟩
  · refine .inr ⟨⟨r.type, u, if isChange r then r.membership else "_" ++ r.membership⟩, u, hm, ?_, ht, hu, rfl, ?_, ?_⟩
    · simp [ensure, hu, hne, ht, hm]
    · exact marked (isChange r) r.membership "join" (by decide) hj
    · exact marked (isChange r) r.membership "invite" (by decide) hi

/-- Events that are not member events have no member row. -/
theorem other {r : Raw} (ht : r.type ≠ "m.room.member") : ∃ e, ensure r = some e ∧ e.type ≠ "m.room.member" :=
  ⟨⟨r.type, r.stateKey.getD "", ""⟩, by simp [ensure, ht], ht⟩

theorem table_snoc (l : List (String × Raw)) (p : String × Raw) :
    table (l ++ [p]) = table l ++ ((ensure p.2).map (Row.mk p.1)).toList := by
  simp only [table, List.filterMap_append, List.filterMap_cons, List.filterMap_nil]
  cases (ensure p.2).map (Row.mk p.1) <;> rfl

theorem inRoom_snoc (room : String) (l : List (String × Raw)) (p : String × Raw) :
    inRoom room (l ++ [p]) = inRoom room l ++ if p.1 = room then [p.2] else [] := by
  by_cases h : p.1 = room <;> simp [inRoom, h]

theorem whose_snoc (p : String → Bool) (l : List Raw) (r : Raw) : whose p (l ++ [r]) = whose p l ++
    (if r.type = "m.room.member" ∧ r.membership ≠ "" ∧ p r.membership then r.stateKey else none).toList := by
  simp only [whose, List.filterMap_append, List.filterMap_cons, List.filterMap_nil]
  cases (if r.type = "m.room.member" ∧ r.membership ≠ "" ∧ p r.membership then r.stateKey else none) <;> rfl

theorem mem_prefix {P : String × Raw → Prop} {l : List (String × Raw)} {p : String × Raw} (h : ∀ q ∈ l ++ [p], P q) :
    (∀ q ∈ l, P q) ∧ P p :=
  ⟨fun q hq => h q (List.mem_append_left _ hq), h p (by simp)⟩

/-- `FetchMemberships` gives the users whose member event says join, those whose event says invite, and the others. -/
theorem C131_fetch (l : List (String × Raw)) (hl : ∀ p ∈ l, Proper p.2) (room : String) :
    fetch room (table l) = (whose (fun m => decide (m = "join")) (inRoom room l),
      whose (fun m => decide (m = "invite")) (inRoom room l),
      whose (fun m => decide (m ≠ "join" ∧ m ≠ "invite")) (inRoom room l)) := by
  induction l using Util.snocRec with
  | nil => rfl
  | append_singleton l p ih =>
    obtain ⟨h1, hp⟩ := mem_prefix hl
    have ih := ih h1
    rw [table_snoc, inRoom_snoc]
    by_cases hr : p.1 = room
    · rw [if_pos hr, whose_snoc, whose_snoc, whose_snoc]
      by_cases ht : p.2.type = "m.room.member"
      · rcases column hp ht with ⟨hm, he⟩ | ⟨e, u, hm, he, het, hu, hsk, hj, hi⟩
        · simp [he, hm, ih]
        · simp only [fetch, List.filter_append, List.foldl_append] at ih ⊢
          rw [ih, he]
          simp only [Option.map_some, Option.toList_some, List.filter_cons, hr, decide_true, if_true, het,
            List.filter_nil, List.foldl_cons, List.foldl_nil, ht, true_and, hu, hsk]
          by_cases h1 : p.2.membership = "join"
          · rw [if_pos (hj.2 h1).symm]; simp [h1]
          · rw [if_neg (fun h => h1 (hj.1 h.symm))]
            by_cases h2 : p.2.membership = "invite"
            · rw [if_pos (hi.2 h2).symm]; simp [h2]
            · rw [if_neg (fun h => h2 (hi.1 h.symm))]; simp [h1, h2, hm]
      · obtain ⟨e, he, het⟩ := other ht
        simp only [fetch, List.filter_append, List.foldl_append] at ih ⊢
        rw [ih, he]
        simp [ht, het, hr]
    · rw [if_neg hr, List.append_nil, ← ih]
      simp only [fetch, List.filter_append, List.foldl_append]
      cases ensure p.2 <;> simp [hr]

/-- `ResetMetadataState` counts the users whose member event says join, and those whose event says invite. -/
theorem C131_reset (l : List (String × Raw)) (hl : ∀ p ∈ l, Proper p.2) (room : String) :
    resetCounts room (table l) = ((whose (fun m => decide (m = "join")) (inRoom room l)).length,
      (whose (fun m => decide (m = "invite")) (inRoom room l)).length) := by
  induction l using Util.snocRec with
  | nil => rfl
  | append_singleton l p ih =>
    obtain ⟨h1, hp⟩ := mem_prefix hl
    have ih := ih h1
    rw [table_snoc, inRoom_snoc]
    by_cases hr : p.1 = room
    · rw [if_pos hr, whose_snoc, whose_snoc]
      by_cases ht : p.2.type = "m.room.member"
      · rcases column hp ht with ⟨hm, he⟩ | ⟨e, u, hm, he, het, hu, hsk, hj, hi⟩
        · simp [he, hm, ih]
        · simp only [resetCounts, List.filter_append, List.foldl_append] at ih ⊢
          rw [ih, he]
          simp only [Option.map_some, Option.toList_some, List.filter_cons, hr, decide_true, if_true, het,
            List.filter_nil, ht, true_and, hu, selected, Bool.true_and]
          by_cases h1 : p.2.membership = "join"
          · have := hj.2 h1
            rcases this with h | h <;> simp [h, h1]
          · have hnj := fun h => h1 (hj.1 h)
            by_cases h2 : p.2.membership = "invite"
            · rcases hi.2 h2 with h | h <;> simp [h, h2]
            · have hni := fun h => h2 (hi.1 h)
              have e1 : ¬ e.membership = "join" := fun h => hnj (.inl h)
              have e2 : ¬ e.membership = "_join" := fun h => hnj (.inr h)
              have e3 : ¬ e.membership = "invite" := fun h => hni (.inl h)
              have e4 : ¬ e.membership = "_invite" := fun h => hni (.inr h)
              simp [e1, e2, e3, e4, h1, h2]
      · obtain ⟨e, he, het⟩ := other ht
        simp only [resetCounts, List.filter_append, List.foldl_append] at ih ⊢
        rw [ih, he]
        simp [ht, het, hr]
    · rw [if_neg hr, List.append_nil, ← ih]
      simp only [resetCounts, List.filter_append, List.foldl_append]
      cases ensure p.2 <;> simp [hr]

theorem load_get (l : List (String × Raw)) (hl : ∀ p ∈ l, Proper p.2) (room : String) :
    (Assoc.get (allJoined (table l)).joined room =
      if whose (fun m => decide (m = "join")) (inRoom room l) = [] then none
      else some (whose (fun m => decide (m = "join")) (inRoom room l))) ∧
    (Assoc.get (allJoined (table l)).invites room).getD 0 = (whose (fun m => decide (m = "invite")) (inRoom room l)).length := by
  induction l using Util.snocRec with
  | nil => exact ⟨rfl, rfl⟩
  | append_singleton l p ih =>
    obtain ⟨h1, hp⟩ := mem_prefix hl
    obtain ⟨ih1, ih2⟩ := ih h1
    by_cases ht : p.2.type = "m.room.member"
    · rcases column hp ht with ⟨hm, he⟩ | ⟨e, u, hm, he, het, hu, hsk, hj, hi⟩
      · have hw : ∀ q : String → Bool, whose q (inRoom room (l ++ [p])) = whose q (inRoom room l) := by
          intro q
          rw [inRoom_snoc]
          by_cases hr : p.1 = room
          · rw [if_pos hr, whose_snoc]; simp [hm]
          · rw [if_neg hr, List.append_nil]
        rw [table_snoc, he, hw, hw]
        simpa using ⟨ih1, ih2⟩
      · have hw : ∀ q : String → Bool, whose q (inRoom room (l ++ [p])) =
            whose q (inRoom room l) ++ if p.1 = room ∧ q p.2.membership then [u] else [] := by
          intro q
          rw [inRoom_snoc]
          by_cases hr : p.1 = room
          · rw [if_pos hr, whose_snoc]
            by_cases hq : q p.2.membership <;> simp [ht, hm, hr, hq, hu]
          · simp [hr]
        rw [table_snoc, he, hw, hw]
        simp only [allJoined, List.filter_append, List.foldl_append] at ih1 ih2 ⊢
        generalize hL : List.foldl load {} _ = L at ih1 ih2 ⊢
        simp only [Option.map_some, Option.toList_some, List.filter_cons, List.filter_nil, het, decide_true, if_true, selected]
        by_cases h1 : p.2.membership = "join"
        · have hje := hj.2 h1
          have hsel : (decide (e.membership = "join") || decide (e.membership = "_join") || decide (e.membership = "invite") ||
              decide (e.membership = "_invite")) = true := by rcases hje with h | h <;> simp [h]
          rw [if_pos hsel]
          simp only [List.foldl_cons, List.foldl_nil, load]
          rw [if_pos hje]
          constructor
          · rw [Assoc.get_set, h1]
            by_cases hr : p.1 = room
            · subst hr
              rw [ih1]
              by_cases h0 : whose (fun m => decide (m = "join")) (inRoom p.1 l) = []
              · simp [h0, hsk]
              · simp [h0, hsk]
            · simp [hr, Ne.symm hr, ih1]
          · simp [h1, ih2]
        · have hnj := fun h => h1 (hj.1 h)
          by_cases h2 : p.2.membership = "invite"
          · have hie := hi.2 h2
            have hsel : (decide (e.membership = "join") || decide (e.membership = "_join") || decide (e.membership = "invite") ||
                decide (e.membership = "_invite")) = true := by rcases hie with h | h <;> simp [h]
            rw [if_pos hsel]
            simp only [List.foldl_cons, List.foldl_nil, load]
            rw [if_neg hnj, if_pos hie]
            constructor
            · simp [h2, ih1]
            · rw [Assoc.get_set, h2]
              by_cases hr : p.1 = room
              · subst hr; simp [ih2]
              · simp [hr, Ne.symm hr, ih2]
          · have hni := fun h => h2 (hi.1 h)
            have hsel : (decide (e.membership = "join") || decide (e.membership = "_join") || decide (e.membership = "invite") ||
                decide (e.membership = "_invite")) = false := by
              have e1 : ¬ e.membership = "join" := fun h => hnj (.inl h)
              have e2 : ¬ e.membership = "_join" := fun h => hnj (.inr h)
              have e3 : ¬ e.membership = "invite" := fun h => hni (.inl h)
              have e4 : ¬ e.membership = "_invite" := fun h => hni (.inr h)
              simp [e1, e2, e3, e4]
            rw [hsel]
            simpa [h1, h2] using ⟨ih1, ih2⟩
    · obtain ⟨e, he, het⟩ := other ht
      have hw : ∀ q : String → Bool, whose q (inRoom room (l ++ [p])) = whose q (inRoom room l) := by
        intro q
        rw [inRoom_snoc]
        by_cases hr : p.1 = room
        · rw [if_pos hr, whose_snoc]; simp [ht]
        · rw [if_neg hr, List.append_nil]
      rw [table_snoc, he, hw, hw]
      simp only [allJoined, List.filter_append, List.foldl_append] at ih1 ih2 ⊢
      have hn : [Row.mk p.1 e].filter (fun r => decide (r.ev.type = "m.room.member")) = [] := by simp [het]
      rw [show ((some e).map (Row.mk p.1)).toList = [Row.mk p.1 e] from rfl, hn]
      exact ⟨ih1, ih2⟩

/-- At start-up the joined members of a room are the users whose member event says join, in order, and the counts of a
room with joined members are those of a reset. -/
theorem C131_startup (l : List (String × Raw)) (hl : ∀ p ∈ l, Proper p.2) (room : String) :
    (Assoc.get (allJoined (table l)).joined room).getD [] = whose (fun m => decide (m = "join")) (inRoom room l) ∧
    startCounts (allJoined (table l)) room =
      if whose (fun m => decide (m = "join")) (inRoom room l) = [] then none else some (resetCounts room (table l)) := by
  obtain ⟨h1, h2⟩ := load_get l hl room
  rw [C131_reset l hl, startCounts, h1, h2]
  by_cases h0 : whose (fun m => decide (m = "join")) (inRoom room l) = [] <;> simp [h0]

/-- Profile changes make no difference: events that differ in `unsigned.prev_content` only give the same members. -/
theorem C131_profile_change (l l' : List (String × Raw)) (hl : ∀ p ∈ l, Proper p.2)
    (h : l.map (fun p => (p.1, { p.2 with prev := "" })) = l'.map (fun p => (p.1, { p.2 with prev := "" }))) (room : String) :
    fetch room (table l) = fetch room (table l') ∧ resetCounts room (table l) = resetCounts room (table l') ∧
    (Assoc.get (allJoined (table l)).joined room) = (Assoc.get (allJoined (table l')).joined room) := by
  have key : ∀ q : String → Bool, ∀ l l' : List (String × Raw),
      l.map (fun p => (p.1, { p.2 with prev := "" })) = l'.map (fun p => (p.1, { p.2 with prev := "" })) →
      whose q (inRoom room l) = whose q (inRoom room l') := by
    intro q l l' h
    have e : ∀ l : List (String × Raw), whose q (inRoom room (l.map (fun p => (p.1, { p.2 with prev := "" })))) = whose q (inRoom room l) := by
      intro l
      induction l with
      | nil => rfl
      | cons p l ih =>
        by_cases hr : p.1 = room
        · simp only [inRoom, whose, List.map_cons, List.filter_cons, hr, decide_true, if_true, List.filterMap_cons] at ih ⊢
          rw [ih]
        · simpa [inRoom, hr] using ih
    rw [← e l, ← e l', h]
  have hl' : ∀ p ∈ l', Proper p.2 := by
    intro p hp
    have : (p.1, { p.2 with prev := "" }) ∈ l.map (fun p => (p.1, { p.2 with prev := "" })) := by
      rw [h]; exact List.mem_map_of_mem hp
    obtain ⟨q, hq, he⟩ := List.mem_map.1 this
    have := hl q hq
    simp only [Prod.mk.injEq, Raw.mk.injEq] at he
    obtain ⟨-, h1, h2, h3, -⟩ := he
    unfold Proper at this ⊢
    rw [← h1, ← h2, ← h3]; exact this
  refine ⟨?_, ?_, ?_⟩
  · rw [C131_fetch l hl, C131_fetch l' hl', key _ l l' h, key _ l l' h, key _ l l' h]
  · rw [C131_reset l hl, C131_reset l' hl', key _ l l' h, key _ l l' h]
  · rw [(load_get l hl room).1, (load_get l' hl' room).1, key _ l l' h]

/-- The mark is not kept apart from what it marks: a membership `_join`, which no room version knows, is stored like a
changed profile of a joined user, and the user is counted as joined. -/
theorem C131_violated_mark : ∃ l : List (String × Raw),
    whose (fun m => decide (m = "join")) (inRoom "r" l) = [] ∧ (fetch "r" (table l)).1 = ["@u"] ∧
    resetCounts "r" (table l) = (1, 0) :=
  ⟨[("r", { type := "m.room.member", stateKey := some "@u", membership := "_join" })], by decide, by decide, by decide⟩

/-- Two joined users, one of whom has changed their name, one invited, one who left, and a topic. -/
def exRoom : List (String × Raw) :=
  [("r", { type := "m.room.member", stateKey := some "@a", membership := "join" }),
   ("r", { type := "m.room.topic", stateKey := some "" }),
   ("s", { type := "m.room.member", stateKey := some "@a", membership := "invite" }),
   ("r", { type := "m.room.member", stateKey := some "@b", membership := "join", prev := "join" }),
   ("r", { type := "m.room.member", stateKey := some "@c", membership := "invite" }),
   ("r", { type := "m.room.member", stateKey := some "@d", membership := "leave", prev := "join" })]

example : (∀ p ∈ exRoom, Proper p.2) ∧
    (table exRoom).map (·.ev.membership) = ["join", "", "invite", "_join", "invite", "leave"] ∧
    fetch "r" (table exRoom) = (["@a", "@b"], ["@c"], ["@d"]) ∧
    startCounts (allJoined (table exRoom)) "r" = some (2, 1) ∧ startCounts (allJoined (table exRoom)) "s" = none := by
  refine ⟨?_, by decide, by decide, by decide, by decide⟩
  intro p hp
  simp only [exRoom, List.mem_cons, List.not_mem_nil, or_false] at hp
  rcases hp with rfl | rfl | rfl | rfl | rfl | rfl <;> simp [Proper]

end Verif.MemberColumn
