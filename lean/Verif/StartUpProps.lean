import Verif.StartUp
import Verif.CircularProps
import Verif.Heroes
/-!
# C136: at start-up every room gets its own data
-/
namespace Verif.StartUp

open Verif

/-! ## Specification -/

def isJoin (r : Row) : Bool := r.col = "join" || r.col = "_join"
def isInvite (r : Row) : Bool := r.col = "invite" || r.col = "_invite"

/-- The events with these numbers, oldest first. -/
def withNids (db : DB) (nids : List Nat) : List Row := db.rows.filter fun r => decide (r.nid ∈ nids)

/-- The members of a room that are joined, invited, or either, oldest first. -/
def joinedOf (db : DB) (x : Room) : List Row := (withNids db x.members).filter isJoin
def invitedOf (db : DB) (x : Room) : List Row := (withNids db x.members).filter isInvite
def membersOf (db : DB) (x : Room) : List Row := (withNids db x.members).filter fun r => isJoin r || isInvite r

/-- The value a text has by the current state of the room: that of the event of this type with an empty state key, if there is one. -/
def Text (db : DB) (x : Room) (type : String) (f : Row → String) (v : String) : Prop :=
  (∃ e ∈ withNids db x.evs, e.type = type ∧ e.key = "" ∧ v = f e) ∨ ((∀ e ∈ withNids db x.evs, e.type = type → e.key ≠ "") ∧ v = "")

/-- The event is the last of its type in its room. -/
def Last (db : DB) (e : Row) : Prop := e ∈ db.rows ∧ ∀ x ∈ db.rows, x.room = e.room → x.type = e.type → x.nid ≤ e.nid

/-- What is known of the room, by its own rows. -/
structure Describes (db : DB) (r : String) (x : Room) (m : Meta) : Prop where
  joinCount : m.joinCount = (joinedOf db x).length
  inviteCount : m.inviteCount = if joinedOf db x = [] then 0 else (invitedOf db x).length
  heroes : m.heroes = if joinedOf db x = [] then [] else
    ((membersOf db x).drop ((membersOf db x).length - 6)).reverse.map fun e => ⟨e.key, e.dn, e.av⟩
  byType : ∀ t n s, Assoc.get m.byType t = some (n, s) ↔ ∃ e, Last db e ∧ e.room = r ∧ e.type = t ∧ n = e.nid ∧ s = e.ts
  lastTs : (∀ e, Last db e → e.room = r → e.ts ≤ m.lastTs) ∧ (m.lastTs = 0 ∨ ∃ e, Last db e ∧ e.room = r ∧ m.lastTs = e.ts)
  name : Text db x "m.room.name" (·.name) m.name
  alias : Text db x "m.room.canonical_alias" (·.alias) m.alias
  avatar : Text db x "m.room.avatar" (·.url) m.avatar
  info : m.enc = x.info.enc ∧ m.upgraded = x.info.upgraded ∧ m.pred = x.info.pred ∧ m.type = x.info.type
  children : ∀ c, c ∈ m.children ↔ x.info.type = some "m.space" ∧ ∃ k ∈ db.kids, k.parent = r ∧ k.child = c ∧ k.isChild = true

/-- The tables as the store leaves them: numbers are unique (C38), a snapshot has only events of its room, and one of each type and state key
(C40). -/
structure Ok (db : DB) : Prop where
  asc : db.rows.Pairwise fun a b => a.nid < b.nid
  keys : (db.rooms.map (·.1)).Nodup
  own : ∀ r x, (r, x) ∈ db.rooms → ∀ n, n ∈ x.evs ∨ n ∈ x.members → ∀ e ∈ db.rows, e.nid = n → e.room = r
  single : ∀ r x, (r, x) ∈ db.rooms → ∀ a ∈ db.rows, ∀ b ∈ db.rows, a.nid ∈ x.evs → b.nid ∈ x.evs → a.type = b.type → a.key = b.key → a = b

/-- The orders are orders of what is there. -/
structure Orders.Ok (db : DB) (o : Orders) : Prop where
  heroes : ∀ l, loop (memberRows db) = some l → o.heroes.Perm l.heroes
  latest : o.latest.Perm (latestRows db)
  state : o.state.Perm (stateRows db)
  infos : o.infos.Perm db.rooms
  kids : o.kids.Perm db.kids

/-! ## Grouping -/

def nonEmpty {α} (l : List α) : Option (List α) := if l = [] then none else some l

theorem nonEmpty_snoc {α} (l : List α) (a : α) : nonEmpty (l ++ [a]) = some ((nonEmpty l).getD [] ++ [a]) := by
  unfold nonEmpty
  rw [if_neg (by simp)]
  split
  · next h => rw [h]; rfl
  · rfl

theorem nonEmpty_getD {α} (l : List α) : (nonEmpty l).getD [] = l := by
  unfold nonEmpty
  split
  · next h => rw [h]; rfl
  · rfl

theorem group_get {α β} (k : α → String) (v : α → β) (l : List α) (r : String) :
    Assoc.get (l.foldl (fun m x => Assoc.set m (k x) ((Assoc.get m (k x)).getD [] ++ [v x])) ([] : List (String × List β))) r =
      nonEmpty ((l.filter fun x => decide (k x = r)).map v) := by
  induction l using Util.snocRec generalizing r with
  | nil => rfl
  | append_singleton l a ih =>
    rw [List.foldl_append, List.foldl_cons, List.foldl_nil, Assoc.get_set, List.filter_append, List.map_append]
    by_cases h : r = k a
    · subst h
      rw [if_pos rfl, ih]
      simp [nonEmpty_snoc]
    · have h' : ¬ k a = r := fun e => h e.symm
      rw [if_neg h, ih]
      simp [h']

theorem upd_fold {α} (k : α → String) (f : Meta → α → Meta) (turn : (String → Option Meta) → α → String → Option Meta)
    (ht : ∀ res a, turn res a = upd res (k a) (f ((res (k a)).getD {}) a)) (l : List α) (res : String → Option Meta) (r : String) :
    l.foldl turn res r = if l.filter (fun a => decide (k a = r)) = [] then res r
      else some ((l.filter fun a => decide (k a = r)).foldl f ((res r).getD {})) := by
  induction l generalizing res with
  | nil => rfl
  | cons a l ih =>
    rw [List.foldl_cons, ih, ht]
    by_cases h : k a = r
    · subst h
      simp only [upd, if_true]
      rw [List.filter_cons_of_pos (by simp)]
      rw [if_neg (List.cons_ne_nil _ _), List.foldl_cons, Option.getD_some]
      split
      · next hn => rw [hn]; rfl
      · rfl
    · have h' : ¬ r = k a := fun e => h e.symm
      rw [List.filter_cons_of_neg (by simp [h])]
      simp only [upd, if_neg h']

/-! ## Members and heroes -/

theorem selected_iff (r : Row) : MemberColumn.selected r.col = (isJoin r || isInvite r) := by
  simp [MemberColumn.selected, isJoin, isInvite, Bool.or_assoc]

theorem run_some (xs : List Nat) : ∃ b, Circular.run 6 xs = some b := by
  obtain ⟨b, h, -⟩ := Circular.C44_last (max := 6) (by decide) xs
  exact ⟨b, h⟩

theorem loop_spec (rows : List Row) (hs : ∀ r ∈ rows, MemberColumn.selected r.col = true) :
    ∃ l, loop rows = some l ∧ (l.heroes.map (·.1)).Nodup ∧ ∀ r,
      Assoc.get l.joined r = nonEmpty (((rows.filter fun e => decide (e.room = r)).filter isJoin).map (·.key)) ∧
      (Assoc.get l.invites r).getD 0 = ((rows.filter fun e => decide (e.room = r)).filter isInvite).length ∧
      Assoc.get l.heroes r = if (rows.filter fun e => decide (e.room = r)) = [] then none
        else Circular.run 6 ((rows.filter fun e => decide (e.room = r)).map (·.nid)) := by
  induction rows using Util.snocRec with
  | nil => exact ⟨{}, rfl, by simp, fun r => ⟨rfl, rfl, rfl⟩⟩
  | append_singleton rows e ih =>
    obtain ⟨l, hl, hn, ih⟩ := ih fun r hr => hs r (by simp [hr])
    have hse := hs e (by simp)
    have hh : some ((Assoc.get l.heroes e.room).getD { max := 6 }) = Circular.run 6 ((rows.filter fun x => decide (x.room = e.room)).map (·.nid)) := by
      rw [(ih e.room).2.2]
      split
      · next h => rw [h]; rfl
      · obtain ⟨b, hb⟩ := run_some ((rows.filter fun x => decide (x.room = e.room)).map (·.nid))
        rw [hb]; rfl
    obtain ⟨b, hb⟩ := run_some (((rows ++ [e]).filter fun x => decide (x.room = e.room)).map (·.nid))
    have hb' : ((Assoc.get l.heroes e.room).getD { max := 6 }).append e.nid = some b := by
      rw [List.filter_append, List.filter_cons_of_pos (by simp), List.map_append] at hb
      rw [← hb]
      show _ = Circular.run 6 (_ ++ [e.nid])
      rw [Circular.run_snoc, ← hh]
      rfl
    have ebase : loop (rows ++ [e]) = turn l e := by
      show ((rows ++ [e]).foldl (fun l r => l.bind (turn · r)) (some {})) = _
      rw [List.foldl_append]
      show (loop rows).bind (turn · e) = _
      rw [hl]; rfl
    rw [ebase]
    have heroes : ∀ r, Assoc.get (Assoc.set l.heroes e.room b) r = if ((rows ++ [e]).filter fun e => decide (e.room = r)) = [] then none
        else Circular.run 6 (((rows ++ [e]).filter fun e => decide (e.room = r)).map (·.nid)) := by
      intro r
      rw [Assoc.get_set]
      by_cases h : r = e.room
      · subst h
        rw [if_pos rfl, if_neg (by simp), hb]
      · have h' : ¬ e.room = r := fun x => h x.symm
        rw [if_neg h, (ih r).2.2, List.filter_append, List.filter_cons_of_neg (by simp [h'])]
        simp
    unfold turn
    simp only
    by_cases hj : isJoin e = true
    · have hj' : e.col = "join" ∨ e.col = "_join" := by simpa [isJoin] using hj
      have hi : isInvite e = false := by rcases hj' with h | h <;> simp [isInvite, h]
      rw [if_pos hj', hb']
      refine ⟨_, rfl, Assoc.nodup_set hn _ _, fun r => ⟨?_, ?_, heroes r⟩⟩
      · simp only [Assoc.get_set]
        by_cases h : r = e.room
        · subst h
          rw [if_pos rfl, (ih e.room).1]
          simp [hj, nonEmpty_snoc]
        · have h' : ¬ e.room = r := fun x => h x.symm
          rw [if_neg h, (ih r).1]
          simp [h']
      · simp only
        rw [(ih r).2.1]
        by_cases h' : e.room = r <;> simp [h', hi]
    · have hi : isInvite e = true := by
        rw [selected_iff] at hse
        simpa [hj] using hse
      have hi' : e.col = "invite" ∨ e.col = "_invite" := by simpa [isInvite] using hi
      have hj' : ¬ (e.col = "join" ∨ e.col = "_join") := by simpa [isJoin] using hj
      have hj2 : isJoin e = false := by simpa using hj
      rw [if_neg hj', if_pos hi', hb']
      refine ⟨_, rfl, Assoc.nodup_set hn _ _, fun r => ⟨?_, ?_, heroes r⟩⟩
      · simp only
        rw [(ih r).1]
        by_cases h' : e.room = r <;> simp [h', hj2]
      · simp only [Assoc.get_set]
        by_cases h : r = e.room
        · subst h
          rw [if_pos rfl, (ih e.room).2.1]
          simp [hi]
        · have h' : ¬ e.room = r := fun x => h x.symm
          rw [if_neg h, (ih r).2.1]
          simp [h']

theorem filter_sub {rows s : List Row} (hs : s.Sublist rows) (hn : (rows.map (·.nid)).Nodup) :
    rows.filter (fun r => decide (r.nid ∈ s.map (·.nid))) = s := by
  induction hs with
  | slnil => rfl
  | @cons s rows a h ih =>
    rw [List.map_cons, List.nodup_cons] at hn
    rw [List.filter_cons_of_neg, ih hn.2]
    simp only [decide_eq_true_eq]
    exact fun hm => hn.1 ((h.map _).subset hm)
  | @cons_cons s rows a h ih =>
    rw [List.map_cons, List.nodup_cons] at hn
    rw [List.filter_cons_of_pos (by simp)]
    congr 1
    rw [← ih hn.2]
    apply List.filter_congr
    intro r hr
    have : r.nid ≠ a.nid := fun e => hn.1 (e ▸ List.mem_map_of_mem hr)
    rw [ih hn.2]
    simp [this]

theorem Ok.nodup {db : DB} (h : Ok db) : (db.rows.map (·.nid)).Nodup := by
  rw [List.nodup_iff_pairwise_ne, List.pairwise_map]
  exact h.asc.imp fun h => Nat.ne_of_lt h

theorem Ok.inj {db : DB} (h : Ok db) {a b : Row} (ha : a ∈ db.rows) (hb : b ∈ db.rows) (e : a.nid = b.nid) : a = b := by
  obtain ⟨i, hi, rfl⟩ := List.mem_iff_getElem.1 ha
  obtain ⟨j, hj, rfl⟩ := List.mem_iff_getElem.1 hb
  rcases Nat.lt_trichotomy i j with hl | rfl | hl
  · exact absurd e (Nat.ne_of_lt (List.pairwise_iff_getElem.1 h.asc i j hi hj hl))
  · rfl
  · exact absurd e.symm (Nat.ne_of_lt (List.pairwise_iff_getElem.1 h.asc j i hj hi hl))

theorem in_room {db : DB} (h : Ok db) (f : Room → List Nat) (hf : ∀ x n, n ∈ f x → n ∈ x.evs ∨ n ∈ x.members) (r : String) {e : Row}
    (he : e ∈ db.rows) : (e.nid ∈ db.rooms.flatMap (fun p => f p.2) ∧ e.room = r) ↔ ∃ x, Assoc.get db.rooms r = some x ∧ e.nid ∈ f x := by
  simp only [List.mem_flatMap]
  constructor
  · rintro ⟨⟨⟨q, x⟩, hq, hn⟩, rfl⟩
    have := h.own q x hq e.nid (hf x _ hn) e he rfl
    exact ⟨x, this ▸ Assoc.get_of_mem h.keys hq, hn⟩
  · rintro ⟨x, hx, hn⟩
    have hx' := Assoc.get_mem hx
    exact ⟨⟨(r, x), hx', hn⟩, h.own r x hx' e.nid (hf x _ hn) e he rfl⟩

/-- The rows of a room among those of all current members are those of its own members. -/
theorem memberRows_room {db : DB} (h : Ok db) (r : String) :
    (memberRows db).filter (fun e => decide (e.room = r)) = match Assoc.get db.rooms r with | some x => membersOf db x | none => [] := by
  unfold memberRows
  rw [List.filter_filter]
  have key := fun e (he : e ∈ db.rows) => in_room h (·.members) (fun x n hn => .inr hn) r he
  cases hr : Assoc.get db.rooms r with
  | some x =>
    dsimp only
    unfold membersOf withNids
    rw [List.filter_filter]
    apply List.filter_congr
    intro e he
    have := key e he
    rw [hr] at this
    simp only [Option.some.injEq, exists_eq_left'] at this
    rw [selected_iff, Bool.eq_iff_iff]
    simp only [Bool.and_eq_true, decide_eq_true_eq]
    rw [← this]
    constructor
    · rintro ⟨a, b, c⟩; exact ⟨c, b, a⟩
    · rintro ⟨a, b, c⟩; exact ⟨c, b, a⟩
  | none =>
    rw [List.filter_eq_nil_iff]
    intro e he
    simp only [Bool.and_eq_true, decide_eq_true_eq]
    rintro ⟨a, b, c⟩
    obtain ⟨x, hx, -⟩ := (key e he).1 ⟨b, a⟩
    rw [hr] at hx
    cases hx

/-- The last six. -/
def last6 (l : List Row) : List Row := l.drop (l.length - 6)

/-- The members of a room, if it is known. -/
def ofRoom (db : DB) (r : String) : List Row := match Assoc.get db.rooms r with | some x => membersOf db x | none => []

theorem ofRoom_room {db : DB} (h : Ok db) {r : String} {e : Row} (he : e ∈ ofRoom db r) : e ∈ db.rows ∧ e.room = r := by
  unfold ofRoom at he
  rw [← memberRows_room h, List.mem_filter] at he
  exact ⟨(List.mem_filter.1 he.1).1, by simpa using he.2⟩

theorem last6_sub (l : List Row) : (last6 l).Sublist l := List.drop_sublist ..

theorem heroNids {db : DB} (h : Ok db) {l : Loaded} (hn : (l.heroes.map (·.1)).Nodup)
    (hl : ∀ r, Assoc.get l.heroes r = if ofRoom db r = [] then none else Circular.run 6 ((ofRoom db r).map (·.nid)))
    {o : List (String × Circular.Buf Nat)} (ho : o.Perm l.heroes) :
    (o.flatMap (·.2.vals)).Nodup ∧ ∀ n, n ∈ o.flatMap (·.2.vals) ↔ ∃ r, n ∈ (last6 (ofRoom db r)).map (·.nid) := by
  have entry : ∀ p ∈ l.heroes, p.2.vals.Perm ((last6 (ofRoom db p.1)).map (·.nid)) := by
    rintro ⟨r, b⟩ hp
    have := hl r
    rw [Assoc.get_of_mem hn hp] at this
    split at this
    · cases this
    · have hp := Circular.C44_contents (by decide) _ this.symm
      simpa [last6, List.map_drop] using hp
  have nd : ∀ r, ((last6 (ofRoom db r)).map (·.nid)).Nodup := by
    intro r
    refine h.nodup.sublist (List.Sublist.map _ ((last6_sub _).trans ?_))
    unfold ofRoom
    rw [← memberRows_room h]
    exact List.filter_sublist.trans List.filter_sublist
  have hperm : (o.flatMap (·.2.vals)).Perm (l.heroes.flatMap (·.2.vals)) := ho.flatMap_right _
  constructor
  · rw [hperm.nodup_iff, List.nodup_iff_pairwise_ne, List.pairwise_flatMap]
    constructor
    · intro p hp
      exact (entry p hp).nodup_iff.2 (nd p.1)
    · have : l.heroes.Pairwise fun a b => a.1 ≠ b.1 := by
        rw [List.nodup_iff_pairwise_ne, List.pairwise_map] at hn
        exact hn
      refine this.imp_of_mem fun {a b} ha hb hab x hx y hy hxy => ?_
      obtain ⟨e1, h1, rfl⟩ := List.mem_map.1 ((entry a ha).mem_iff.1 hx)
      obtain ⟨e2, h2, h3⟩ := List.mem_map.1 ((entry b hb).mem_iff.1 hy)
      obtain ⟨k1, k2⟩ := ofRoom_room h ((last6_sub _).subset h1)
      obtain ⟨k3, k4⟩ := ofRoom_room h ((last6_sub _).subset h2)
      have := h.inj k1 k3 (hxy.trans h3.symm)
      rw [this, k4] at k2
      exact hab k2.symm
  · intro n
    rw [hperm.mem_iff, List.mem_flatMap]
    constructor
    · rintro ⟨p, hp, hm⟩
      exact ⟨p.1, (entry p hp).mem_iff.1 hm⟩
    · rintro ⟨r, hm⟩
      have hne : ofRoom db r ≠ [] := by
        intro e
        rw [e] at hm
        cases hm
      have h1 := hl r
      rw [if_neg hne] at h1
      obtain ⟨b, hb⟩ := run_some ((ofRoom db r).map (·.nid))
      rw [hb] at h1
      exact ⟨(r, b), Assoc.get_mem h1, (entry (r, b) (Assoc.get_mem h1)).mem_iff.2 hm⟩

theorem select_ok {db : DB} (h : Ok db) {N : List Nat} (hN : N.Nodup) (hm : ∀ n, n ∈ N ↔ ∃ r, n ∈ (last6 (ofRoom db r)).map (·.nid)) :
    ∃ hs, select db N = some hs ∧ ∀ r, hs.filter (fun e => decide (e.room = r)) = last6 (ofRoom db r) := by
  refine ⟨db.rows.filter fun r => decide (r.nid ∈ N), ?_, ?_⟩
  · unfold select
    rw [if_neg]
    rintro ⟨-, hne⟩
    apply hne
    have : N.Perm ((db.rows.filter fun r => decide (r.nid ∈ N)).map (·.nid)) := by
      refine (List.perm_ext_iff_of_nodup hN (h.nodup.sublist (List.filter_sublist.map _))).2 fun n => ?_
      constructor
      · intro hn
        obtain ⟨r, hr⟩ := (hm n).1 hn
        obtain ⟨e, he, rfl⟩ := List.mem_map.1 hr
        refine List.mem_map.2 ⟨e, List.mem_filter.2 ⟨(ofRoom_room h ((last6_sub _).subset he)).1, by simpa using hn⟩, rfl⟩
      · intro hn
        obtain ⟨e, he, rfl⟩ := List.mem_map.1 hn
        simpa using (List.mem_filter.1 he).2
    simpa using this.length_eq
  · intro r
    rw [List.filter_filter]
    have hsub : (last6 (ofRoom db r)).Sublist db.rows := by
      refine (last6_sub _).trans ?_
      unfold ofRoom
      rw [← memberRows_room h]
      exact List.filter_sublist.trans List.filter_sublist
    rw [← filter_sub hsub h.nodup]
    apply List.filter_congr
    intro e he
    rw [Bool.eq_iff_iff]
    simp only [Bool.and_eq_true, decide_eq_true_eq]
    rw [hm]
    constructor
    · rintro ⟨rfl, q, hq⟩
      obtain ⟨e', he', h2⟩ := List.mem_map.1 hq
      obtain ⟨k1, k2⟩ := ofRoom_room h ((last6_sub _).subset he')
      have := h.inj k1 he h2
      subst this
      rw [← k2] at hq
      exact hq
    · intro hq
      obtain ⟨e', he', h2⟩ := List.mem_map.1 hq
      obtain ⟨k1, k2⟩ := ofRoom_room h ((last6_sub _).subset he')
      have := h.inj k1 he h2
      subst this
      exact ⟨k2, r, hq⟩

/-- `AllJoinedMembers` for each room. -/
theorem members_ok {db : DB} (h : Ok db) {o : Orders} (ho : Orders.Ok db o) :
    ∃ l hs, loop (memberRows db) = some l ∧ select db (o.heroes.flatMap (·.2.vals)) = some hs ∧ ∀ r,
      Assoc.get l.joined r = nonEmpty (((ofRoom db r).filter isJoin).map (·.key)) ∧
      counted l (heroMap hs) r = if (ofRoom db r).filter isJoin = [] then none else some
        { joinCount := ((ofRoom db r).filter isJoin).length, inviteCount := ((ofRoom db r).filter isInvite).length,
          heroes := (last6 (ofRoom db r)).reverse.map fun e => ⟨e.key, e.dn, e.av⟩ } := by
  obtain ⟨l, hl, hn, hg⟩ := loop_spec (memberRows db) (fun r hr => by
    have := (List.mem_filter.1 hr).2
    simp only [Bool.and_eq_true] at this
    exact this.2)
  have hg' : ∀ r, Assoc.get l.joined r = nonEmpty (((ofRoom db r).filter isJoin).map (·.key)) ∧
      (Assoc.get l.invites r).getD 0 = ((ofRoom db r).filter isInvite).length ∧
      Assoc.get l.heroes r = if ofRoom db r = [] then none else Circular.run 6 ((ofRoom db r).map (·.nid)) := by
    intro r
    have := hg r
    rw [memberRows_room h] at this
    exact this
  obtain ⟨k1, k2⟩ := heroNids h hn (fun r => (hg' r).2.2) (ho.heroes l hl)
  obtain ⟨hs, k3, k4⟩ := select_ok h k1 k2
  refine ⟨l, hs, hl, k3, fun r => ⟨(hg' r).1, ?_⟩⟩
  have hm : Assoc.get (heroMap hs) r = nonEmpty ((last6 (ofRoom db r)).reverse.map fun e => ⟨e.key, e.dn, e.av⟩) := by
    unfold heroMap
    rw [group_get, List.filter_reverse, k4]
  unfold counted
  rw [hm, nonEmpty_getD, (hg' r).1, (hg' r).2.1]
  by_cases hj : (ofRoom db r).filter isJoin = []
  · rw [if_pos hj, hj]; rfl
  · rw [if_neg hj]
    unfold nonEmpty
    rw [if_neg (by simpa using hj)]
    simp

/-! ## The rest -/

/-- Lists with the same elements and at most one of them. -/
theorem perm_le_one {α} {a b : List α} (h : a.Perm b) (hb : ∀ x ∈ b, ∀ y ∈ b, x = y) (hn : b.Nodup) : a = b := by
  match b, h, hb, hn with
  | [], h, _, _ => exact h.eq_nil
  | [x], h, _, _ => exact List.perm_singleton.1 h
  | x :: y :: l, _, hb, hn =>
    have := hb x (by simp) y (by simp)
    simp [this] at hn

theorem Ok.rows_nodup {db : DB} (h : Ok db) : db.rows.Nodup := by
  rw [List.nodup_iff_pairwise_ne]
  exact h.asc.imp fun h e => absurd h (by rw [e]; exact Nat.lt_irrefl _)

def latestOne (m : Meta) (e : Row) : Meta :=
  { m with lastTs := if m.lastTs < e.ts then e.ts else m.lastTs, byType := Assoc.set m.byType e.type (e.nid, e.ts) }

/-- The other fields stay. -/
theorem latest_frame (g : List Row) (m : Meta) : ∃ a b, g.foldl latestOne m = { m with lastTs := a, byType := b } := by
  induction g generalizing m with
  | nil => exact ⟨_, _, rfl⟩
  | cons e g ih =>
    obtain ⟨a, b, h⟩ := ih (latestOne m e)
    exact ⟨a, b, h⟩

theorem latest_types (g : List Row) (hu : ∀ a ∈ g, ∀ b ∈ g, a.type = b.type → a = b) (m : Meta) (t : String) (v : Nat × Nat) :
    Assoc.get (g.foldl latestOne m).byType t = some v ↔
      (∃ e ∈ g, e.type = t ∧ v = (e.nid, e.ts)) ∨ ((∀ e ∈ g, e.type ≠ t) ∧ Assoc.get m.byType t = some v) := by
  induction g using Util.snocRec with
  | nil => simp
  | append_singleton g e ih =>
    have ih := ih fun a ha b hb => hu a (by simp [ha]) b (by simp [hb])
    rw [List.foldl_append, List.foldl_cons, List.foldl_nil]
    simp only [latestOne, Assoc.get_set]
    by_cases h : t = e.type
    · subst h
      rw [if_pos rfl]
      constructor
      · intro hv
        exact .inl ⟨e, by simp, rfl, by cases hv; rfl⟩
      · rintro (⟨e', he', h1, rfl⟩ | ⟨h1, -⟩)
        · rw [hu e' he' e (by simp) h1]
        · exact absurd rfl (h1 e (by simp))
    · rw [if_neg h, ih]
      have h' : ¬ e.type = t := fun x => h x.symm
      constructor
      · rintro (⟨e', he', h1⟩ | ⟨h1, h2⟩)
        · exact .inl ⟨e', by simp [he'], h1⟩
        · refine .inr ⟨fun e' he' => ?_, h2⟩
          rcases List.mem_append.1 he' with he' | he'
          · exact h1 e' he'
          · rw [List.mem_singleton.1 he']; exact h'
      · rintro (⟨e', he', h1⟩ | ⟨h1, h2⟩)
        · rcases List.mem_append.1 he' with he' | he'
          · exact .inl ⟨e', he', h1⟩
          · rw [List.mem_singleton.1 he'] at h1
            exact absurd h1.1 h'
        · exact .inr ⟨fun e' he' => h1 e' (by simp [he']), h2⟩

theorem latest_ts (g : List Row) (m : Meta) : m.lastTs ≤ (g.foldl latestOne m).lastTs ∧ (∀ e ∈ g, e.ts ≤ (g.foldl latestOne m).lastTs) ∧
    ((g.foldl latestOne m).lastTs = m.lastTs ∨ ∃ e ∈ g, (g.foldl latestOne m).lastTs = e.ts) := by
  induction g generalizing m with
  | nil => exact ⟨Nat.le_refl _, (fun e he => nomatch he), .inl rfl⟩
  | cons e g ih =>
    obtain ⟨h1, h2, h3⟩ := ih (latestOne m e)
    have k : m.lastTs ≤ (latestOne m e).lastTs ∧ e.ts ≤ (latestOne m e).lastTs ∧
        ((latestOne m e).lastTs = m.lastTs ∨ (latestOne m e).lastTs = e.ts) := by
      simp only [latestOne]
      split <;> omega
    rw [List.foldl_cons]
    refine ⟨Nat.le_trans k.1 h1, fun x hx => ?_, ?_⟩
    · rcases List.mem_cons.1 hx with rfl | hx
      · exact Nat.le_trans k.2.1 h1
      · exact h2 x hx
    · rcases h3 with h3 | ⟨x, hx, h3⟩
      · rcases k.2.2 with k | k
        · exact .inl (h3.trans k)
        · exact .inr ⟨e, by simp, h3.trans k⟩
      · exact .inr ⟨x, by simp [hx], h3⟩

theorem latestRows_iff {db : DB} (e : Row) : e ∈ latestRows db ↔ Last db e ∧ (Assoc.get db.rooms e.room).isSome = true := by
  unfold latestRows Last
  simp only [List.mem_filter, Bool.and_eq_true, List.all_eq_true, Bool.or_eq_true, Bool.not_eq_true', Bool.and_eq_false_iff,
    decide_eq_false_iff_not, decide_eq_true_eq]
  constructor
  · rintro ⟨h1, h2, h3⟩
    refine ⟨⟨h1, fun x hx a b => ?_⟩, h2⟩
    rcases h3 x hx with (h | h) | h
    · exact absurd a h
    · exact absurd b h
    · exact h
  · rintro ⟨⟨h1, h3⟩, h2⟩
    refine ⟨h1, h2, fun x hx => ?_⟩
    by_cases a : x.room = e.room
    · by_cases b : x.type = e.type
      · exact .inr (h3 x hx a b)
      · exact .inl (.inr b)
    · exact .inl (.inl a)

theorem last_unique {db : DB} (h : Ok db) {a b : Row} (ha : Last db a) (hb : Last db b) (hr : a.room = b.room) (ht : a.type = b.type) : a = b :=
  h.inj ha.1 hb.1 (Nat.le_antisymm (hb.2 a ha.1 hr ht) (ha.2 b hb.1 hr.symm ht.symm))

/-- The other fields stay. -/
theorem state_frame (g : List Row) (m : Meta) : ∃ a b c, g.foldl stateTurn m = { m with name := a, alias := b, avatar := c } := by
  induction g generalizing m with
  | nil => exact ⟨_, _, _, rfl⟩
  | cons e g ih =>
    obtain ⟨a, b, c, h⟩ := ih (stateTurn m e)
    refine ⟨a, b, c, ?_⟩
    rw [List.foldl_cons, h]
    unfold stateTurn
    split
    · rfl
    · split
      · rfl
      · split <;> rfl

theorem state_text (type : String) (f : Row → String) (get : Meta → String)
    (hg : ∀ m e, get (stateTurn m e) = if e.type = type ∧ e.key = "" then f e else get m)
    (g : List Row) (hu : ∀ a ∈ g, ∀ b ∈ g, a.type = b.type → a.key = b.key → a = b) (m : Meta) :
    (∃ e ∈ g, e.type = type ∧ e.key = "" ∧ get (g.foldl stateTurn m) = f e) ∨
    ((∀ e ∈ g, e.type = type → e.key ≠ "") ∧ get (g.foldl stateTurn m) = get m) := by
  induction g using Util.snocRec with
  | nil => exact .inr ⟨(fun e he => nomatch he), rfl⟩
  | append_singleton g e ih =>
    have ih := ih fun a ha b hb => hu a (by simp [ha]) b (by simp [hb])
    rw [List.foldl_append, List.foldl_cons, List.foldl_nil, hg]
    by_cases h : e.type = type ∧ e.key = ""
    · rw [if_pos h]
      exact .inl ⟨e, by simp, h.1, h.2, rfl⟩
    · rw [if_neg h]
      rcases ih with ⟨e', he', h1⟩ | ⟨h1, h2⟩
      · exact .inl ⟨e', by simp [he'], h1⟩
      · refine .inr ⟨fun e' he' ht => ?_, h2⟩
        rcases List.mem_append.1 he' with he' | he'
        · exact h1 e' he' ht
        · rw [List.mem_singleton.1 he'] at ht ⊢
          exact fun hk => h ⟨ht, hk⟩

/-- The rows of a room among the state of all rooms are those of its own. -/
theorem stateRows_iff {db : DB} (h : Ok db) (r : String) (e : Row) : (e ∈ stateRows db ∧ e.room = r) ↔
    ∃ x, Assoc.get db.rooms r = some x ∧ e ∈ withNids db x.evs ∧ e.type ∈ ["m.room.name", "m.room.canonical_alias", "m.room.avatar"] := by
  unfold stateRows withNids
  simp only [List.mem_filter, Bool.and_eq_true, decide_eq_true_eq]
  constructor
  · rintro ⟨⟨h1, h2, h3⟩, h4⟩
    obtain ⟨x, hx, hn⟩ := (in_room h (·.evs) (fun x n hn => .inl hn) r h1).1 ⟨h3, h4⟩
    exact ⟨x, hx, ⟨h1, hn⟩, h2⟩
  · rintro ⟨x, hx, ⟨h1, hn⟩, h2⟩
    obtain ⟨h3, h4⟩ := (in_room h (·.evs) (fun x n hn => .inl hn) r h1).2 ⟨x, hx, hn⟩
    exact ⟨⟨h1, h2, h3⟩, h4⟩

theorem infos_room {db : DB} (h : Ok db) {infos : List (String × Room)} (hp : infos.Perm db.rooms) (r : String) :
    infos.filter (fun p => decide (p.1 = r)) = match Assoc.get db.rooms r with | some x => [(r, x)] | none => [] := by
  have hn : db.rooms.Nodup := by
    have := h.keys
    rw [List.nodup_iff_pairwise_ne, List.pairwise_map] at this
    rw [List.nodup_iff_pairwise_ne]
    exact this.imp fun h e => h (by rw [e])
  have e1 : db.rooms.filter (fun p => decide (p.1 = r)) = match Assoc.get db.rooms r with | some x => [(r, x)] | none => [] := by
    cases hr : Assoc.get db.rooms r with
    | some x =>
      symm
      refine perm_le_one ((List.perm_ext_iff_of_nodup (by simp) (hn.sublist List.filter_sublist)).2 fun p => ?_) ?_ (hn.sublist List.filter_sublist)
      · simp only [List.mem_singleton, List.mem_filter, decide_eq_true_eq]
        constructor
        · rintro rfl; exact ⟨Assoc.get_mem hr, rfl⟩
        · rintro ⟨hm, rfl⟩
          have := Assoc.get_of_mem h.keys hm
          rw [hr] at this
          cases this
          rfl
      · intro a ha b hb
        simp only [List.mem_filter, decide_eq_true_eq] at ha hb
        have h1 := Assoc.get_of_mem h.keys ha.1
        have h2 := Assoc.get_of_mem h.keys hb.1
        rw [ha.2] at h1
        rw [hb.2, h1] at h2
        exact Prod.ext (ha.2.trans hb.2.symm) (Option.some.inj h2)
    | none =>
      rw [List.filter_eq_nil_iff]
      rintro ⟨q, x⟩ hp hq
      simp only [decide_eq_true_eq] at hq
      subst hq
      rw [Assoc.get_of_mem h.keys hp] at hr
      cases hr
  have e2 := hp.filter fun p => decide (p.1 = r)
  rw [e1] at e2
  cases hr : Assoc.get db.rooms r with
  | some x => rw [hr] at e2; exact List.perm_singleton.1 e2
  | none => rw [hr] at e2; exact e2.eq_nil

def infoOne (m : Meta) (a : String × Room) : Meta :=
  { m with enc := a.2.info.enc, upgraded := a.2.info.upgraded, pred := a.2.info.pred, type := a.2.info.type }

theorem upd_getD {α} {k : α → String} {f : Meta → α → Meta} {turn : (String → Option Meta) → α → String → Option Meta}
    (ht : ∀ res a, turn res a = upd res (k a) (f ((res (k a)).getD {}) a)) (l : List α) (res : String → Option Meta) (r : String) :
    (l.foldl turn res r).getD {} = (l.filter fun a => decide (k a = r)).foldl f ((res r).getD {}) := by
  rw [upd_fold k f turn ht]
  split
  · next h => rw [h]; rfl
  · rfl

theorem text_of {db : DB} (h : Ok db) {r : String} {x : Room} (hr : Assoc.get db.rooms r = some x) {state : List Row} (hs : state.Perm (stateRows db))
    {type : String} (hty : type ∈ ["m.room.name", "m.room.canonical_alias", "m.room.avatar"]) {f : Row → String} {get : Meta → String}
    (hg : ∀ m e, get (stateTurn m e) = if e.type = type ∧ e.key = "" then f e else get m) {m : Meta} (hm : get m = "") :
    Text db x type f (get ((state.filter fun e => decide (e.room = r)).foldl stateTurn m)) := by
  have hmem : ∀ e, e ∈ state.filter (fun e => decide (e.room = r)) ↔
      e ∈ withNids db x.evs ∧ e.type ∈ ["m.room.name", "m.room.canonical_alias", "m.room.avatar"] := by
    intro e
    rw [List.mem_filter, hs.mem_iff, decide_eq_true_eq, stateRows_iff h, hr]
    simp only [Option.some.injEq, exists_eq_left']
  have hu : ∀ a ∈ state.filter (fun e => decide (e.room = r)), ∀ b ∈ state.filter (fun e => decide (e.room = r)),
      a.type = b.type → a.key = b.key → a = b := by
    intro a ha b hb
    have h1 := List.mem_filter.1 ((hmem a).1 ha).1
    have h2 := List.mem_filter.1 ((hmem b).1 hb).1
    exact h.single r x (Assoc.get_mem hr) a h1.1 b h2.1 (by simpa using h1.2) (by simpa using h2.2)
  rcases state_text type f get hg _ hu m with ⟨e, he, h1, h2, h3⟩ | ⟨h1, h2⟩
  · exact .inl ⟨e, ((hmem e).1 he).1, h1, h2, h3⟩
  · refine .inr ⟨fun e he ht => h1 e ((hmem e).2 ⟨he, ht ▸ hty⟩) ht, h2.trans hm⟩

/-- **C136.** From tables as the store leaves them, the snapshot at start-up succeeds, and whatever the order in which the rows of all rooms
come, every room of the rooms table, and no other, gets the members, counts, heroes, timestamps, names, settings and children of its own
rows. -/
theorem C136_rooms (db : DB) (h : Ok db) (o : Orders) (ho : Orders.Ok db o) : ∃ joined res, globalSnapshot db o = some (joined, res) ∧ ∀ r,
    (Assoc.get db.rooms r = none → Assoc.get joined r = none ∧ res r = none) ∧
    ∀ x, Assoc.get db.rooms r = some x →
      Assoc.get joined r = (if joinedOf db x = [] then none else some ((joinedOf db x).map (·.key))) ∧
      ∃ m, res r = some m ∧ Describes db r x m := by
  obtain ⟨l, hs, k1, k2, k3⟩ := members_ok h ho
  refine ⟨l.joined, metadataForAllRooms o (counted l (heroMap hs)), by simp [globalSnapshot, k1, k2], fun r => ?_⟩
  obtain ⟨hj, hc⟩ := k3 r
  generalize hR0 : counted l (heroMap hs) = R0 at hc
  have ht1 : ∀ res a, latestTurn res a = upd res a.room (latestOne ((res a.room).getD {}) a) := fun _ _ => rfl
  have ht3 : ∀ res a, infoTurn res a = upd res a.1 (infoOne ((res a.1).getD {}) a) := fun _ _ => rfl
  constructor
  · intro hr
    have e0 : ofRoom db r = [] := by unfold ofRoom; rw [hr]
    rw [e0] at hj hc
    refine ⟨hj, ?_⟩
    have hc : R0 r = none := hc
    have e1 : (o.latest.foldl latestTurn R0) r = none := by
      rw [upd_fold _ latestOne _ ht1, if_pos, hc]
      rw [List.filter_eq_nil_iff]
      intro e he hre
      simp only [decide_eq_true_eq] at hre
      have := ((latestRows_iff e).1 (ho.latest.mem_iff.1 he)).2
      rw [hre, hr] at this
      cases this
    have e2 : stateAll o.state (o.latest.foldl latestTurn R0) r = none := by
      unfold stateAll
      simp only
      rw [if_pos, e1]
      rw [List.filter_eq_nil_iff]
      intro e he hre
      simp only [decide_eq_true_eq] at hre
      obtain ⟨x, hx, -⟩ := (stateRows_iff h r e).1 ⟨ho.state.mem_iff.1 he, hre⟩
      rw [hr] at hx
      cases hx
    have e3 : (o.infos.foldl infoTurn (stateAll o.state (o.latest.foldl latestTurn R0))) r = none := by
      rw [upd_fold _ infoOne _ ht3, if_pos, e2]
      rw [infos_room h ho.infos, hr]
    unfold metadataForAllRooms kidsAll
    simp only
    rw [e3]
    split <;> rfl
  · intro x hr
    have e0 : ofRoom db r = membersOf db x := by unfold ofRoom; rw [hr]
    have eJ : (membersOf db x).filter isJoin = joinedOf db x := by
      unfold membersOf joinedOf
      rw [List.filter_filter]
      apply List.filter_congr
      intro e _
      cases isJoin e <;> simp
    have eI : (membersOf db x).filter isInvite = invitedOf db x := by
      unfold membersOf invitedOf
      rw [List.filter_filter]
      apply List.filter_congr
      intro e _
      cases isInvite e <;> simp
    rw [e0, eJ, ] at hj
    rw [e0, eJ, eI] at hc
    constructor
    · rw [hj]
      unfold nonEmpty
      simp
    have hM0 : (R0 r).getD {} =
        { joinCount := (joinedOf db x).length
          inviteCount := if joinedOf db x = [] then 0 else (invitedOf db x).length
          heroes := if joinedOf db x = [] then [] else (last6 (membersOf db x)).reverse.map fun e => ⟨e.key, e.dn, e.av⟩ } := by
      rw [hc]
      by_cases hz : joinedOf db x = []
      · simp [hz]
      · simp [hz]
    have hM1 := upd_getD ht1 o.latest R0 r
    have hM2 : (stateAll o.state (o.latest.foldl latestTurn R0) r).getD {} =
        (o.state.filter fun e => decide (e.room = r)).foldl stateTurn (((o.latest.foldl latestTurn R0) r).getD {}) := by
      unfold stateAll
      simp only
      split
      · next hn => rw [hn]; rfl
      · rfl
    rw [hM1] at hM2
    have hM3 : (o.infos.foldl infoTurn (stateAll o.state (o.latest.foldl latestTurn R0))) r = some
        { (stateAll o.state (o.latest.foldl latestTurn R0) r).getD {} with
          enc := x.info.enc, upgraded := x.info.upgraded, pred := x.info.pred, type := x.info.type } := by
      rw [upd_fold _ infoOne _ ht3]
      rw [infos_room h ho.infos, hr]
      rfl
    rw [hM2] at hM3
    -- the latest events
    have hg1 : ∀ e, e ∈ o.latest.filter (fun e => decide (e.room = r)) ↔ Last db e ∧ e.room = r := by
      intro e
      rw [List.mem_filter, ho.latest.mem_iff, latestRows_iff, decide_eq_true_eq]
      constructor
      · rintro ⟨⟨a, -⟩, b⟩; exact ⟨a, b⟩
      · rintro ⟨a, b⟩; exact ⟨⟨a, by rw [b, hr]; rfl⟩, b⟩
    have hty := latest_types (o.latest.filter fun e => decide (e.room = r)) (fun a ha b hb hab =>
      last_unique h ((hg1 a).1 ha).1 ((hg1 b).1 hb).1 (((hg1 a).1 ha).2.trans ((hg1 b).1 hb).2.symm) hab) ((R0 r).getD {})
    have hts := latest_ts (o.latest.filter fun e => decide (e.room = r)) ((R0 r).getD {})
    obtain ⟨ts, bt, hfr⟩ := latest_frame (o.latest.filter fun e => decide (e.room = r)) ((R0 r).getD {})
    rw [hM0] at hty hts hfr
    rw [hM0] at hM3
    rw [hfr] at hty hts
    -- the state
    have hn := text_of (type := "m.room.name") (f := (·.name)) (get := (·.name)) h hr ho.state (by decide)
      (fun m e => by unfold stateTurn; (repeat' split) <;> simp_all) (m := List.foldl latestOne _ _) (by rw [hfr])
    have ha := text_of (type := "m.room.canonical_alias") (f := (·.alias)) (get := (·.alias)) h hr ho.state (by decide)
      (fun m e => by unfold stateTurn; (repeat' split) <;> simp_all) (m := List.foldl latestOne _ _) (by rw [hfr])
    have hv := text_of (type := "m.room.avatar") (f := (·.url)) (get := (·.avatar)) h hr ho.state (by decide)
      (fun m e => by unfold stateTurn; (repeat' split) <;> simp_all) (m := List.foldl latestOne _ _) (by rw [hfr])
    obtain ⟨a, b, c, hfr2⟩ := state_frame (o.state.filter fun e => decide (e.room = r)) (List.foldl latestOne _ _)
    rw [hfr2] at hn ha hv hM3
    rw [hfr] at hM3
    -- the children
    have hsp : ∀ q y, Assoc.get db.rooms q = some y → (q ∈ spaces o.infos ↔ y.info.type = some "m.space") := by
      intro q y hq
      unfold spaces
      simp only [List.mem_map, List.mem_filter, decide_eq_true_eq]
      constructor
      · rintro ⟨⟨q', y'⟩, ⟨h1, h2⟩, rfl⟩
        have := Assoc.get_of_mem h.keys (ho.infos.mem_iff.1 h1)
        rw [hq] at this
        cases this
        exact h2
      · intro h2
        exact ⟨(q, y), ⟨ho.infos.mem_iff.2 (Assoc.get_mem hq), h2⟩, rfl⟩
    have hk : ∀ (m : Meta), m.children = [] → (o.infos.foldl infoTurn (stateAll o.state (o.latest.foldl latestTurn R0))) r = some m →
        ∃ ch, metadataForAllRooms o R0 r = some { m with children := ch } ∧
          ∀ c, c ∈ ch ↔ x.info.type = some "m.space" ∧ ∃ k ∈ db.kids, k.parent = r ∧ k.child = c ∧ k.isChild = true := by
      intro m hm0 hm
      unfold metadataForAllRooms kidsAll
      simp only
      rw [hm]
      refine ⟨((o.kids.filter fun k => decide (k.parent = r) && decide (r ∈ spaces o.infos)).filter (·.isChild)).map (·.child), ?_, ?_⟩
      · split
        · next hnil =>
          rw [hnil]
          cases m
          simp only at hm0
          rw [hm0]
          rfl
        · rfl
      · intro c
        simp only [List.mem_map, List.mem_filter, Bool.and_eq_true, decide_eq_true_eq]
        rw [hsp r x hr]
        constructor
        · rintro ⟨k, ⟨⟨h1, h2, h3⟩, h4⟩, h5⟩
          exact ⟨h3, k, ho.kids.mem_iff.1 h1, h2, h5, h4⟩
        · rintro ⟨h3, k, h1, h2, h5, h4⟩
          exact ⟨k, ⟨⟨ho.kids.mem_iff.2 h1, h2, h3⟩, h4⟩, h5⟩
    obtain ⟨ch, hm, hch⟩ := hk _ rfl hM3
    refine ⟨_, hm, rfl, rfl, rfl, ?_, ?_, hn, ha, hv, ⟨rfl, rfl, rfl, rfl⟩, hch⟩
    · intro t n s
      refine (hty t (n, s)).trans ?_
      constructor
      · rintro (⟨e, he, h1, h2⟩ | ⟨-, h2⟩)
        · obtain ⟨h3, h4⟩ := (hg1 e).1 he
          exact ⟨e, h3, h4, h1, congrArg (·.1) h2, congrArg (·.2) h2⟩
        · cases h2
      · rintro ⟨e, h3, h4, h1, h5, h6⟩
        exact .inl ⟨e, (hg1 e).2 ⟨h3, h4⟩, h1, by rw [h5, h6]⟩
    · obtain ⟨-, h2, h3⟩ := hts
      refine ⟨fun e he her => h2 e ((hg1 e).2 ⟨he, her⟩), ?_⟩
      rcases h3 with h3 | ⟨e, he, h3⟩
      · exact .inl h3
      · exact .inr ⟨e, ((hg1 e).1 he).1, ((hg1 e).1 he).2, h3⟩

theorem withNids_own {db : DB} (h : Ok db) {r : String} {x : Room} (hr : Assoc.get db.rooms r = some x) {nids : List Nat}
    (hn : ∀ n ∈ nids, n ∈ x.evs ∨ n ∈ x.members) :
    withNids db nids = (db.rows.filter fun e => decide (e.room = r)).filter fun e => decide (e.nid ∈ nids) := by
  unfold withNids
  rw [List.filter_filter]
  apply List.filter_congr
  intro e he
  rw [Bool.eq_iff_iff]
  simp only [Bool.and_eq_true, decide_eq_true_eq]
  exact ⟨fun hm => ⟨hm, h.own r x (Assoc.get_mem hr) e.nid (hn _ hm) e he rfl⟩, fun hm => hm.1⟩

theorem text_unique {db : DB} (h : Ok db) {r : String} {x : Room} (hr : Assoc.get db.rooms r = some x) {t : String} {f : Row → String} {v w : String}
    (h1 : Text db x t f v) (h2 : Text db x t f w) : v = w := by
  rcases h1 with ⟨e, he, a, b, rfl⟩ | ⟨a, rfl⟩ <;> rcases h2 with ⟨e', he', a', b', rfl⟩ | ⟨a', rfl⟩
  · have k1 := List.mem_filter.1 he
    have k2 := List.mem_filter.1 he'
    rw [h.single r x (Assoc.get_mem hr) e k1.1 e' k2.1 (by simpa using k1.2) (by simpa using k2.2) (a.trans a'.symm) (b.trans b'.symm)]
  · exact absurd b (a' e he a)
  · exact absurd b' (a e' he' a')
  · rfl

/-- What describes a room by its own rows is determined by them. -/
theorem describes_other {db db' : DB} (h : Ok db) (h' : Ok db') {r : String} {x : Room} (hr : Assoc.get db.rooms r = some x)
    (hr' : Assoc.get db'.rooms r = some x)
    (hrows : db.rows.filter (fun e => decide (e.room = r)) = db'.rows.filter fun e => decide (e.room = r))
    (hkids : db.kids.filter (fun k => decide (k.parent = r)) = db'.kids.filter fun k => decide (k.parent = r)) {m : Meta}
    (hd : Describes db' r x m) : Describes db r x m := by
  have e1 : withNids db x.members = withNids db' x.members := by
    rw [withNids_own h hr fun n hn => .inr hn, withNids_own h' hr' fun n hn => .inr hn, hrows]
  have e2 : withNids db x.evs = withNids db' x.evs := by
    rw [withNids_own h hr fun n hn => .inl hn, withNids_own h' hr' fun n hn => .inl hn, hrows]
  have hmem : ∀ e, e.room = r → (e ∈ db.rows ↔ e ∈ db'.rows) := by
    intro e her
    have : e ∈ db.rows.filter (fun e => decide (e.room = r)) ↔ e ∈ db'.rows.filter (fun e => decide (e.room = r)) := by rw [hrows]
    simpa [List.mem_filter, her] using this
  have hl : ∀ e, e.room = r → (Last db e ↔ Last db' e) := by
    intro e her
    unfold Last
    rw [hmem e her]
    refine and_congr_right fun _ => ?_
    constructor
    · intro k y hy hyr
      exact k y ((hmem y (hyr.trans her)).2 hy) hyr
    · intro k y hy hyr
      exact k y ((hmem y (hyr.trans her)).1 hy) hyr
  have hk : ∀ k : Kid, k.parent = r → (k ∈ db.kids ↔ k ∈ db'.kids) := by
    intro k hkr
    have : k ∈ db.kids.filter (fun k => decide (k.parent = r)) ↔ k ∈ db'.kids.filter (fun k => decide (k.parent = r)) := by rw [hkids]
    simpa [List.mem_filter, hkr] using this
  refine ⟨?_, ?_, ?_, ?_, ?_, ?_, ?_, ?_, hd.info, ?_⟩
  · unfold joinedOf; rw [e1]; exact hd.joinCount
  · unfold joinedOf invitedOf; rw [e1]; exact hd.inviteCount
  · unfold joinedOf membersOf; rw [e1]; exact hd.heroes
  · intro t n s
    rw [hd.byType]
    exact exists_congr fun e => ⟨fun ⟨a, b, c⟩ => ⟨(hl e b).2 a, b, c⟩, fun ⟨a, b, c⟩ => ⟨(hl e b).1 a, b, c⟩⟩
  · refine ⟨fun e he her => hd.lastTs.1 e ((hl e her).1 he) her, ?_⟩
    rcases hd.lastTs.2 with k | ⟨e, a, b, c⟩
    · exact .inl k
    · exact .inr ⟨e, (hl e b).2 a, b, c⟩
  · unfold Text; rw [e2]; exact hd.name
  · unfold Text; rw [e2]; exact hd.alias
  · unfold Text; rw [e2]; exact hd.avatar
  · intro c
    rw [hd.children]
    refine and_congr_right fun _ => exists_congr fun k => ?_
    exact ⟨fun ⟨a, b, c⟩ => ⟨(hk k b).2 a, b, c⟩, fun ⟨a, b, c⟩ => ⟨(hk k b).1 a, b, c⟩⟩

/-- **C136, between rooms.** What a room gets does not depend on the rest of the tables: with the same rows of its own, it gets the same. -/
theorem C136_isolated (db db' : DB) (h : Ok db) (h' : Ok db') (o o' : Orders) (ho : Orders.Ok db o) (ho' : Orders.Ok db' o') (r : String)
    (hrows : db.rows.filter (fun e => decide (e.room = r)) = db'.rows.filter fun e => decide (e.room = r))
    (hroom : Assoc.get db.rooms r = Assoc.get db'.rooms r)
    (hkids : db.kids.filter (fun k => decide (k.parent = r)) = db'.kids.filter fun k => decide (k.parent = r))
    (joined joined' : List (String × List String)) (res res' : String → Option Meta) (hg : globalSnapshot db o = some (joined, res))
    (hg' : globalSnapshot db' o' = some (joined', res')) :
    Assoc.get joined r = Assoc.get joined' r ∧ ((res r).isSome = (res' r).isSome) ∧ ∀ m m', res r = some m → res' r = some m' →
      m.joinCount = m'.joinCount ∧ m.inviteCount = m'.inviteCount ∧ m.heroes = m'.heroes ∧ m.lastTs = m'.lastTs ∧
      (∀ t, Assoc.get m.byType t = Assoc.get m'.byType t) ∧ m.name = m'.name ∧ m.alias = m'.alias ∧ m.avatar = m'.avatar ∧ m.enc = m'.enc ∧
      m.upgraded = m'.upgraded ∧ m.pred = m'.pred ∧ m.type = m'.type ∧ ∀ c, c ∈ m.children ↔ c ∈ m'.children := by
  obtain ⟨j1, r1, e1, k1⟩ := C136_rooms db h o ho
  obtain ⟨j2, r2, e2, k2⟩ := C136_rooms db' h' o' ho'
  rw [hg] at e1
  rw [hg'] at e2
  cases e1
  cases e2
  cases hr : Assoc.get db.rooms r with
  | none =>
    have hr' := hroom.symm.trans hr
    rw [((k1 r).1 hr).1, ((k1 r).1 hr).2, ((k2 r).1 hr').1, ((k2 r).1 hr').2]
    exact ⟨rfl, rfl, fun m m' hm => nomatch hm⟩
  | some x =>
    have hr' := hroom.symm.trans hr
    obtain ⟨a1, m1, b1, c1⟩ := (k1 r).2 x hr
    obtain ⟨a2, m2, b2, c2⟩ := (k2 r).2 x hr'
    have e1 : joinedOf db x = joinedOf db' x := by
      unfold joinedOf
      rw [withNids_own h hr fun n hn => .inr hn, withNids_own h' hr' fun n hn => .inr hn, hrows]
    refine ⟨by rw [a1, a2, e1], by rw [b1, b2]; rfl, fun m m' hm hm' => ?_⟩
    rw [b1] at hm
    rw [b2] at hm'
    cases hm
    cases hm'
    have c2 := describes_other h h' hr hr' hrows hkids c2
    refine ⟨c1.joinCount.trans c2.joinCount.symm, c1.inviteCount.trans c2.inviteCount.symm, c1.heroes.trans c2.heroes.symm, ?_, ?_,
      text_unique h hr c1.name c2.name, text_unique h hr c1.alias c2.alias, text_unique h hr c1.avatar c2.avatar,
      c1.info.1.trans c2.info.1.symm, c1.info.2.1.trans c2.info.2.1.symm, c1.info.2.2.1.trans c2.info.2.2.1.symm,
      c1.info.2.2.2.trans c2.info.2.2.2.symm, fun c => (c1.children c).trans (c2.children c).symm⟩
    · apply Nat.le_antisymm
      · rcases c1.lastTs.2 with k | ⟨e, a, b, c⟩
        · omega
        · rw [c]; exact c2.lastTs.1 e a b
      · rcases c2.lastTs.2 with k | ⟨e, a, b, c⟩
        · omega
        · rw [c]; exact c1.lastTs.1 e a b
    · intro t
      cases hv : Assoc.get m1.byType t with
      | some v =>
        obtain ⟨n, s⟩ := v
        exact ((c2.byType t n s).2 ((c1.byType t n s).1 hv)).symm
      | none =>
        cases hw : Assoc.get m2.byType t with
        | none => rfl
        | some v =>
          obtain ⟨n, s⟩ := v
          have := (c1.byType t n s).2 ((c2.byType t n s).1 hw)
          rw [hv] at this
          cases this

/-! ## The model of one room -/

/-- A member event as `Heroes` has it. -/
structure Same (e : Row) (h : Heroes.Ev) : Prop where
  user : h.user = e.key
  name : h.name = e.dn
  avatar : h.avatar = e.av
  join : h.membership = "join" ↔ isJoin e = true
  invite : h.membership = "invite" ↔ isInvite e = true

theorem filter_sub' {α} [DecidableEq α] {l s : List α} (hs : s.Sublist l) (hn : l.Nodup) : l.filter (fun a => decide (a ∈ s)) = s := by
  induction hs with
  | slnil => rfl
  | @cons s l a h ih =>
    rw [List.nodup_cons] at hn
    rw [List.filter_cons_of_neg (by simpa using fun hm => hn.1 (h.subset hm)), ih hn.2]
  | @cons_cons s l a h ih =>
    rw [List.nodup_cons] at hn
    rw [List.filter_cons_of_pos (by simp)]
    congr 1
    refine (List.filter_congr fun r hr => ?_).trans (ih hn.2)
    have : r ≠ a := fun e => hn.1 (e ▸ hr)
    simp [this]

/-- **C136 and C77.** The start of `Heroes`, which has one room only, makes of the room what the snapshot of all rooms makes of it. -/
theorem C136_heroes (db : DB) (r room : String) (x : Room) (m : Meta) (hd : Describes db r x m) (s : Heroes.S) (f : Row → Heroes.Ev)
    (hf : ∀ e ∈ withNids db x.members, Same e (f e)) (hs : s.mem.map (·.2) = (withNids db x.members).map f)
    (hn : ((withNids db x.members).map (·.key)).Nodup) :
    (Heroes.restart room s).cache = { joinCount := m.joinCount, inviteCount := m.inviteCount, heroes := m.heroes } := by
  generalize hL : withNids db x.members = L at hf hs hn
  have w : ∀ (ms : List String) (p : Row → Bool), (∀ e ∈ L, decide ((f e).membership ∈ ms) = p e) →
      Heroes.withMembership s.mem ms = (L.filter p).map f := by
    intro ms p hp
    unfold Heroes.withMembership
    rw [hs, List.filter_map]
    congr 1
    exact List.filter_congr hp
  have w1 := w ["join"] isJoin fun e he => by rw [Bool.eq_iff_iff]; simpa using (hf e he).join
  have w2 := w ["invite"] isInvite fun e he => by rw [Bool.eq_iff_iff]; simpa using (hf e he).invite
  have w3 := w ["join", "invite"] (fun e => isJoin e || isInvite e) fun e he => by
    rw [Bool.eq_iff_iff]
    simpa [(hf e he).join] using or_congr Iff.rfl (hf e he).invite
  have hnf : (L.map f).Nodup := by
    rw [List.nodup_iff_pairwise_ne, List.pairwise_map] at hn ⊢
    refine hn.imp_of_mem fun {a b} ha hb hab e => hab ?_
    rw [← (hf a ha).user, ← (hf b hb).user, e]
  have e1 : joinedOf db x = L.filter isJoin := by unfold joinedOf; rw [hL]
  have e2 : invitedOf db x = L.filter isInvite := by unfold invitedOf; rw [hL]
  have e3 : membersOf db x = L.filter fun e => isJoin e || isInvite e := by unfold membersOf; rw [hL]
  have hh : Heroes.newestFirst s.mem (Heroes.lastSix (Heroes.withMembership s.mem ["join", "invite"])) =
      ((last6 (membersOf db x)).map f).reverse := by
    unfold Heroes.newestFirst
    congr 1
    rw [hs]
    have hp : (Heroes.lastSix (Heroes.withMembership s.mem ["join", "invite"])).Perm ((last6 (membersOf db x)).map f) := by
      rw [w3, e3]
      unfold Heroes.lastSix last6
      obtain ⟨b, hb, -⟩ := Circular.C44_last (max := 6) (by decide) ((L.filter fun e => isJoin e || isInvite e).map f)
      rw [hb]
      have := Circular.C44_contents (by decide) _ hb
      simpa [List.map_drop] using this
    refine (List.filter_congr (q := fun a => decide (a ∈ (last6 (membersOf db x)).map f)) fun a _ => ?_).trans (filter_sub' ?_ hnf)
    · rw [decide_eq_decide]; exact hp.mem_iff
    · refine List.Sublist.map f ((last6_sub _).trans ?_)
      rw [e3]
      exact List.filter_sublist
  unfold Heroes.restart
  simp only
  rw [hd.joinCount, hd.inviteCount, hd.heroes, w1, w2, hh, e1, e2]
  by_cases hz : L.filter isJoin = []
  · simp [hz]
  · have hz' : ¬ ((L.filter isJoin).map f).length = 0 := by simpa using hz
    rw [if_neg hz', if_neg hz, if_neg hz]
    congr 1
    · simp
    · simp
    · rw [← List.map_reverse, List.map_map]
      apply List.map_congr_left
      intro e he
      have he' : e ∈ L := by
        have := (last6_sub _).subset (List.mem_reverse.1 he)
        rw [e3] at this
        exact (List.mem_filter.1 this).1
      have := hf e he'
      simp [Heroes.toHero, this.user, this.name, this.avatar]

/-! ## A case -/

/-- Two rooms, a space with a child and a room with an invited member, whose rows alternate. -/
def sample : DB where
  rows :=
    [{ nid := 1, room := "!s", type := "m.room.create", ts := 10 }, { nid := 2, room := "!r", type := "m.room.create", ts := 11 },
      { nid := 3, room := "!s", type := "m.room.member", key := "@a", col := "join", ts := 12, dn := "A" },
      { nid := 4, room := "!r", type := "m.room.member", key := "@a", col := "_join", ts := 13, dn := "A2" },
      { nid := 5, room := "!s", type := "m.room.name", ts := 14, name := "Space" },
      { nid := 6, room := "!r", type := "m.room.member", key := "@b", col := "invite", ts := 9, dn := "B" },
      { nid := 7, room := "!r", type := "m.room.name", key := "x", ts := 8, name := "no name" }]
  rooms :=
    [("!r", { info := { snapshot := 1, latest := 7 }, evs := [2, 7], members := [4, 6] }),
      ("!s", { info := { snapshot := 2, latest := 5, type := some "m.space" }, evs := [1, 5], members := [3] })]
  kids := [⟨"!s", "!r", true⟩, ⟨"!r", "!s", false⟩]

def sampleOrders : Orders where
  heroes := [("!s", ⟨1, [3], 6⟩), ("!r", ⟨2, [4, 6], 6⟩)]
  latest := (latestRows sample).reverse
  state := (stateRows sample).reverse
  infos := sample.rooms.reverse
  kids := sample.kids.reverse

/-- What comes out. -/
example : (globalSnapshot sample sampleOrders).map (fun p => (p.1, p.2 "!r", p.2 "!s", p.2 "!t")) = some
    ([("!s", ["@a"]), ("!r", ["@a"])],
      some { joinCount := 1, inviteCount := 1, heroes := [⟨"@b", "B", ""⟩, ⟨"@a", "A2", ""⟩], lastTs := 11,
             byType := [("m.room.name", (7, 8)), ("m.room.member", (6, 9)), ("m.room.create", (2, 11))] },
      some { joinCount := 1, heroes := [⟨"@a", "A", ""⟩], lastTs := 14, name := "Space", type := some "m.space", children := ["!r"],
             byType := [("m.room.name", (5, 14)), ("m.room.member", (3, 12)), ("m.room.create", (1, 10))] },
      none) := by decide +kernel

/-- The hypotheses are met. -/
example : Ok sample ∧ Orders.Ok sample sampleOrders := by
  refine ⟨⟨by decide, by decide, ?_, ?_⟩, ⟨?_, List.reverse_perm _, List.reverse_perm _, List.reverse_perm _, List.reverse_perm _⟩⟩
  · have : ∀ p ∈ sample.rooms, ∀ n ∈ p.2.evs ++ p.2.members, ∀ e ∈ sample.rows, e.nid = n → e.room = p.1 := by decide +kernel
    exact fun r x hx n hn => this (r, x) hx n (List.mem_append.2 hn)
  · have : ∀ p ∈ sample.rooms, ∀ a ∈ sample.rows, ∀ b ∈ sample.rows, a.nid ∈ p.2.evs → b.nid ∈ p.2.evs → a.type = b.type → a.key = b.key → a = b := by
      decide +kernel
    exact fun r x hx => this (r, x) hx
  · intro l hl
    have : (loop (memberRows sample)).map (·.heroes) = some [("!s", ⟨1, [3], 6⟩), ("!r", ⟨2, [4, 6], 6⟩)] := by decide +kernel
    rw [hl] at this
    have this : l.heroes = _ := Option.some.inj this
    rw [this]
    exact List.Perm.refl _

end Verif.StartUp
