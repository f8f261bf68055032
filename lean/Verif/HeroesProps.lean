import Verif.Heroes
import Verif.TrackerProps
import Verif.CircularProps
import Verif.RoomNameProps
/-!
# C77: the member counts and heroes of a room follow its members
-/
namespace Verif.Heroes

open Verif

/-! ## Specification -/

/-- The member events of a history. -/
def events : List Op → List Ev
  | [] => []
  | .event e :: l => e :: events l
  | .block es :: l => es ++ events l
  | .restart :: l => events l

/-- The last member event of a user. -/
def lastFor (h : List Ev) (u : String) : Option Ev := h.reverse.find? fun e => decide (e.user = u)

/-- Its membership; a user without one is not in the room. -/
def memb (h : List Ev) (u : String) : String :=
  match lastFor h u with
  | none => "leave"
  | some e => e.membership

/-- `n` users have the property. -/
def Number (n : Nat) (P : String → Prop) : Prop := ∃ l : List String, l.Nodup ∧ (∀ u, u ∈ l ↔ P u) ∧ l.length = n

/-- A member event a homeserver may send next: the transition is allowed by the rules of Matrix, and if it says that the
membership is as before then it was so. -/
def OkEvent (h : List Ev) (e : Ev) : Prop :=
  e.membership ∈ ["join", "invite", "leave", "ban", "knock"] ∧
  (e.membership = "invite" → memb h e.user ≠ "join") ∧
  (e.membership = "knock" → memb h e.user ≠ "join" ∧ memb h e.user ≠ "invite") ∧
  (change e = false → memb h e.user = e.membership)

/-- The first state block: one event for each user, and if there is a member at all then one of the events says that it
changes the membership. -/
def OkBlock (es : List Ev) : Prop :=
  (es.map (·.user)).Nodup ∧ (∀ e ∈ es, e.membership ∈ ["join", "invite", "leave", "ban", "knock"]) ∧
  ((∃ e ∈ es, change e = true) ∨ ∀ e ∈ es, e.membership ≠ "join" ∧ e.membership ≠ "invite")

def OkOp (before : List Op) : Op → Prop
  | .event e => OkEvent (events before) e
  | .block es => (∃ o ∈ before, o ≠ .restart) ∨ OkBlock es
  | .restart => True

def OkHist (ops : List Op) : Prop := ∀ a o b, ops = a ++ o :: b → OkOp a o

/-! ## Histories -/

theorem events_append (a b : List Op) : events (a ++ b) = events a ++ events b := by
  induction a with
  | nil => rfl
  | cons o l ih => cases o <;> simp [events, ih]

theorem run_snoc (room : String) (l : List Op) (o : Op) : run room (l ++ [o]) = step room (run room l) o := by
  unfold run; rw [List.foldl_append]; rfl

theorem lastFor_snoc (h : List Ev) (e : Ev) (u : String) : lastFor (h ++ [e]) u = if e.user = u then some e else lastFor h u := by
  unfold lastFor
  rw [List.reverse_append, List.reverse_singleton, List.singleton_append, List.find?_cons]
  by_cases he : e.user = u <;> simp [he]

theorem memb_snoc (h : List Ev) (e : Ev) (u : String) : memb (h ++ [e]) u = if e.user = u then e.membership else memb h u := by
  unfold memb
  rw [lastFor_snoc]
  by_cases he : e.user = u
  · rw [if_pos he, if_pos he]
  · rw [if_neg he, if_neg he]

theorem lastFor_user {h : List Ev} {u : String} {e : Ev} (he : lastFor h u = some e) : e.user = u := by
  simpa using List.find?_some he

theorem memb_iff {h : List Ev} {u m : String} (hm : m ≠ "leave") : memb h u = m ↔ ∃ e, lastFor h u = some e ∧ e.membership = m := by
  unfold memb
  cases lastFor h u with
  | none => simp [Ne.symm hm]
  | some e => simp

/-! ## The stored members -/

/-- The stored member events are the last ones of their users. -/
structure Stored (mem : List (String × Ev)) (h : List Ev) : Prop where
  nodup : (mem.map (·.1)).Nodup
  get : ∀ u, Assoc.get mem u = lastFor h u
  user : ∀ p ∈ mem, p.2.user = p.1

theorem Stored.empty : Stored [] [] := ⟨by simp, fun _ => rfl, by simp⟩

theorem Stored.set {mem : List (String × Ev)} {h : List Ev} (hs : Stored mem h) (e : Ev) : Stored (Assoc.set mem e.user e) (h ++ [e]) := by
  refine ⟨Assoc.nodup_set hs.nodup _ _, fun u => ?_, fun p hp => ?_⟩
  · rw [Assoc.get_set, lastFor_snoc, hs.get]
    by_cases he : e.user = u
    · rw [if_pos he, if_pos he.symm]
    · rw [if_neg he, if_neg (Ne.symm he)]
  · simp only [Assoc.set, Assoc.del, List.mem_append, List.mem_filter, List.mem_singleton] at hp
    rcases hp with hp | hp
    · exact hs.user p hp.1
    · rw [hp]

theorem Stored.setAll {mem : List (String × Ev)} {h : List Ev} (hs : Stored mem h) (es : List Ev) :
    Stored (es.foldl (fun m e => Assoc.set m e.user e) mem) (h ++ es) := by
  induction es generalizing mem h with
  | nil => simpa using hs
  | cons e es ih =>
    have := ih (hs.set e)
    simpa using this

theorem Stored.users {mem : List (String × Ev)} {h : List Ev} (hs : Stored mem h) : (mem.map (·.2)).map (·.user) = mem.map (·.1) := by
  rw [List.map_map]
  exact List.map_congr_left fun p hp => hs.user p hp

theorem Stored.wm_nodup {mem : List (String × Ev)} {h : List Ev} (hs : Stored mem h) (ms : List String) :
    ((withMembership mem ms).map (·.user)).Nodup := by
  unfold withMembership
  refine (List.filter_sublist.map _).nodup ?_
  rw [hs.users]; exact hs.nodup

theorem Stored.mem_wm {mem : List (String × Ev)} {h : List Ev} (hs : Stored mem h) (ms : List String) (e : Ev) :
    e ∈ withMembership mem ms ↔ lastFor h e.user = some e ∧ e.membership ∈ ms := by
  unfold withMembership
  simp only [List.mem_filter, decide_eq_true_eq, List.mem_map]
  refine and_congr_left fun _ => ⟨?_, fun hl => ?_⟩
  · rintro ⟨p, hp, rfl⟩
    rw [hs.user p hp, ← hs.get]
    exact Assoc.get_of_mem hs.nodup hp
  · rw [← hs.get] at hl
    exact ⟨_, Assoc.get_mem hl, rfl⟩

theorem Stored.mem_users {mem : List (String × Ev)} {h : List Ev} (hs : Stored mem h) (ms : List String) (hms : "leave" ∉ ms) (u : String) :
    u ∈ (withMembership mem ms).map (·.user) ↔ memb h u ∈ ms := by
  simp only [List.mem_map, hs.mem_wm]
  constructor
  · rintro ⟨e, ⟨h1, h2⟩, rfl⟩
    unfold memb; rw [h1]; exact h2
  · intro hm
    cases hl : lastFor h u with
    | none => unfold memb at hm; rw [hl] at hm; exact absurd hm hms
    | some e =>
      refine ⟨e, ⟨by rw [lastFor_user hl]; exact hl, ?_⟩, lastFor_user hl⟩
      unfold memb at hm; rw [hl] at hm; exact hm

theorem length_eq {a b : List String} (ha : a.Nodup) (hb : b.Nodup) (h : ∀ u, u ∈ a ↔ u ∈ b) : a.length = b.length :=
  ((List.perm_ext_iff_of_nodup ha hb).2 h).length_eq

/-! ## The tracker -/

theorem track_inv {t : Tracker.State} (h : Tracker.Inv t) (room : String) (e : Ev) : Tracker.Inv (track t room e) := by
  unfold track
  split
  · exact Tracker.inv_step h (.invite [e.user] room)
  split
  · exact Tracker.inv_step h (.join [e.user] room)
  split
  · exact Tracker.inv_step h (.leave e.user room)
  · exact h

theorem mem_invited (t : Tracker.State) (us : List String) (room u : String) :
    u ∈ (Tracker.usersInvitedToRoom t us room).invited room ↔ u ∈ t.invited room ∨ u ∈ us := by
  simp [Tracker.usersInvitedToRoom, Tracker.upd, Tracker.mem_foldl_sadd]

theorem track_joined {t : Tracker.State} {room : String} {h : List Ev} {e : Ev} (hj : ∀ u, u ∈ t.joinedUsers room ↔ memb h u = "join")
    (hok : OkEvent h e) (u : String) : u ∈ (track t room e).joinedUsers room ↔ memb (h ++ [e]) u = "join" := by
  obtain ⟨hm, h1, h2, _⟩ := hok
  rw [memb_snoc]
  simp only [List.mem_cons, List.not_mem_nil, or_false] at hm
  unfold track
  rcases hm with hm | hm | hm | hm | hm <;> simp only [hm, String.reduceEq, if_true, if_false, or_true, true_or, or_self]
  · rw [Tracker.userJoinedRoom, (Tracker.join_fields [e.user] room t).1, hj]
    by_cases he : e.user = u
    · simp [he]
    · simp [he, Ne.symm he]
  · have : u ∈ (Tracker.usersInvitedToRoom t [e.user] room).joinedUsers room ↔ u ∈ t.joinedUsers room := Iff.rfl
    rw [this, hj]
    by_cases he : e.user = u
    · subst he; simp [h1 hm]
    · simp [he]
  · rw [(Tracker.leave_fields e.user room t).1, hj]
    by_cases he : e.user = u
    · simp [he]
    · simp [he, Ne.symm he]
  · rw [(Tracker.leave_fields e.user room t).1, hj]
    by_cases he : e.user = u
    · simp [he]
    · simp [he, Ne.symm he]
  · rw [hj]
    by_cases he : e.user = u
    · subst he; simp [(h2 hm).1]
    · simp [he]

theorem track_invited {t : Tracker.State} {room : String} {h : List Ev} {e : Ev} (hj : ∀ u, u ∈ t.invited room ↔ memb h u = "invite")
    (hok : OkEvent h e) (u : String) : u ∈ (track t room e).invited room ↔ memb (h ++ [e]) u = "invite" := by
  obtain ⟨hm, h1, h2, _⟩ := hok
  rw [memb_snoc]
  simp only [List.mem_cons, List.not_mem_nil, or_false] at hm
  unfold track
  rcases hm with hm | hm | hm | hm | hm <;> simp only [hm, String.reduceEq, if_true, if_false, or_true, true_or, or_self]
  · rw [Tracker.userJoinedRoom, (Tracker.join_fields [e.user] room t).2.2, hj]
    by_cases he : e.user = u
    · simp [he]
    · simp [he, Ne.symm he]
  · rw [mem_invited, hj]
    by_cases he : e.user = u
    · simp [he]
    · simp [he, Ne.symm he]
  · rw [(Tracker.leave_fields e.user room t).2.2, hj]
    by_cases he : e.user = u
    · simp [he]
    · simp [he, Ne.symm he]
  · rw [(Tracker.leave_fields e.user room t).2.2, hj]
    by_cases he : e.user = u
    · simp [he]
    · simp [he, Ne.symm he]
  · rw [hj]
    by_cases he : e.user = u
    · subst he; simp [(h2 hm).2]
    · simp [he]

/-! ## The heroes -/

/-- Joined or invited. -/
def Member (h : List Ev) (u : String) : Prop := memb h u = "join" ∨ memb h u = "invite"

structure HeroesOk (heroes : List RoomName.Hero) (h : List Ev) : Prop where
  nodup : (heroes.map (·.id)).Nodup
  six : heroes.length ≤ 6
  member : ∀ x ∈ heroes, Member h x.id

theorem addHero_ids (e : Ev) (l : List RoomName.Hero) :
    (addHero e l).map (·.id) = if e.user ∈ l.map (·.id) then l.map (·.id) else l.map (·.id) ++ [e.user] := by
  induction l with
  | nil => simp [addHero, toHero]
  | cons x l ih =>
    unfold addHero
    by_cases hx : x.id = e.user
    · rw [if_pos hx]; simp [hx]
    · rw [if_neg hx, List.map_cons, ih]
      by_cases hm : e.user ∈ l.map (·.id)
      · rw [if_pos hm, if_pos (by simp only [List.map_cons, List.mem_cons]; exact Or.inr hm)]; rfl
      · rw [if_neg hm, if_neg (by simp only [List.map_cons, List.mem_cons, not_or]; exact ⟨Ne.symm hx, hm⟩)]; rfl

theorem addHero_length (e : Ev) (l : List RoomName.Hero) : (addHero e l).length ≤ l.length + 1 := by
  have := congrArg List.length (addHero_ids e l)
  simp only [List.length_map] at this
  rw [this]; split <;> simp

theorem addHero_mem {e : Ev} {l : List RoomName.Hero} (hn : (l.map (·.id)).Nodup) {x : RoomName.Hero} (hx : x ∈ addHero e l) :
    x = toHero e ∨ (x ∈ l ∧ x.id ≠ e.user) := by
  induction l with
  | nil => simp only [addHero, List.mem_singleton] at hx; exact Or.inl hx
  | cons y l ih =>
    simp only [List.map_cons, List.nodup_cons] at hn
    unfold addHero at hx
    by_cases hy : y.id = e.user
    · rw [if_pos hy, List.mem_cons] at hx
      rcases hx with hx | hx
      · left; rw [hx]; simp [toHero, hy]
      · right
        exact ⟨by simp [hx], fun h => hn.1 (by rw [hy, ← h]; exact List.mem_map_of_mem (f := fun y : RoomName.Hero => y.id) hx)⟩
    · rw [if_neg hy, List.mem_cons] at hx
      rcases hx with hx | hx
      · right; rw [hx]; exact ⟨by simp, hy⟩
      · rcases ih hn.2 hx with h | h
        · exact Or.inl h
        · exact Or.inr ⟨by simp [h.1], h.2⟩

/-- An event for one user does what it should to the heroes. -/
theorem HeroesOk.step {m : Meta} {h : List Ev} (hh : HeroesOk m.heroes h) (jc ic : Nat) (e : Ev)
    (hk : Member (h ++ [e]) e.user ∨ (change e = true ∧ (e.membership = "leave" ∨ e.membership = "ban")) ∨ ¬ Member h e.user) :
    HeroesOk (onMember jc ic m e).heroes (h ++ [e]) := by
  have hmu : ∀ u, u ≠ e.user → (Member (h ++ [e]) u ↔ Member h u) := by
    intro u hu
    unfold Member
    rw [memb_snoc, if_neg (Ne.symm hu)]
  unfold onMember
  generalize hm1 : (if change e then
      { joinCount := jc, inviteCount := ic
        heroes := if e.membership = "leave" ∨ e.membership = "ban" then RoomName.removeHero m.heroes e.user else m.heroes : Meta }
    else m) = m1
  have hsub : m1.heroes.Sublist m.heroes ∧ (change e = true ∧ (e.membership = "leave" ∨ e.membership = "ban") → ∀ x ∈ m1.heroes, x.id ≠ e.user) := by
    rw [← hm1]
    split
    · simp only
      split
      · rw [RoomName.C56_remove_hero _ _ hh.nodup]
        refine ⟨List.filter_sublist, fun _ x hx => ?_⟩
        have := (List.mem_filter.1 hx).2
        simpa using this
      · next hc => exact ⟨List.Sublist.refl _, fun hx => absurd hx.2 hc⟩
    · next hc => exact ⟨List.Sublist.refl _, fun hx => absurd hx.1 hc⟩
  have hn1 : (m1.heroes.map (·.id)).Nodup := (hsub.1.map _).nodup hh.nodup
  have hl1 : m1.heroes.length ≤ 6 := Nat.le_trans hsub.1.length_le hh.six
  simp only
  split
  · next hc =>
    have hme : Member (h ++ [e]) e.user := by unfold Member; rw [memb_snoc, if_pos rfl]; exact hc.2
    refine ⟨?_, ?_, ?_⟩
    · rw [addHero_ids]
      split
      · exact hn1
      · next hx =>
        rw [List.nodup_append]
        refine ⟨hn1, by simp, ?_⟩
        intro a ha b hb hab
        rw [List.mem_singleton.1 hb] at hab
        exact hx (hab ▸ ha)
    · have := addHero_length e m1.heroes; simp only; omega
    · intro x hx
      rcases addHero_mem hn1 hx with rfl | ⟨hx, hne⟩
      · exact hme
      · exact (hmu _ hne).2 (hh.member x (hsub.1.subset hx))
  · refine ⟨hn1, hl1, fun x hx => ?_⟩
    by_cases hxe : x.id = e.user
    · rcases hk with hk | hk | hk
      · rw [hxe]; exact hk
      · exact absurd hxe (hsub.2 hk x hx)
      · exact absurd (hxe ▸ hh.member x (hsub.1.subset hx)) hk
    · exact (hmu _ hxe).2 (hh.member x (hsub.1.subset hx))

theorem onMember_counts (jc ic : Nat) (m : Meta) (e : Ev) :
    (onMember jc ic m e).joinCount = (if change e then jc else m.joinCount) ∧
    (onMember jc ic m e).inviteCount = (if change e then ic else m.inviteCount) := by
  unfold onMember
  by_cases hc : change e = true
  · simp only [hc, if_true]; constructor <;> (repeat' split) <;> rfl
  · simp only [hc, Bool.false_eq_true, if_false]; constructor <;> (repeat' split) <;> rfl

theorem lastSix_perm (l : List Ev) : (lastSix l).Perm (l.drop (l.length - 6)) := by
  obtain ⟨b, hb, _⟩ := Circular.C44_last (max := 6) (by omega) l
  unfold lastSix
  rw [hb]
  exact Circular.C44_contents (by omega) l hb

theorem lastSix_length (l : List Ev) : (lastSix l).length ≤ 6 := by
  rw [(lastSix_perm l).length_eq, List.length_drop]; omega

theorem lastSix_mem {l : List Ev} {e : Ev} (h : e ∈ lastSix l) : e ∈ l :=
  List.mem_of_mem_drop ((lastSix_perm l).mem_iff.1 h)

theorem lastSix_nodup {l : List Ev} (h : (l.map (·.user)).Nodup) : ((lastSix l).map (·.user)).Nodup := by
  rw [((lastSix_perm l).map _).nodup_iff]
  exact ((List.drop_sublist _ _).map _).nodup h

theorem lastSix_all {l : List Ev} (h : l.length ≤ 6) {e : Ev} (he : e ∈ l) : e ∈ lastSix l := by
  rw [(lastSix_perm l).mem_iff]
  have : l.length - 6 = 0 := by omega
  rw [this]; exact he

theorem nodup_of_map {l : List Ev} (h : (l.map (·.user)).Nodup) : l.Nodup := by
  induction l with
  | nil => simp
  | cons e l ih =>
    rw [List.map_cons, List.nodup_cons] at h
    rw [List.nodup_cons]
    exact ⟨fun hm => h.1 (List.mem_map_of_mem hm), ih h.2⟩

theorem toHero_ids (l : List Ev) : (l.map toHero).map (·.id) = l.map (·.user) := by
  rw [List.map_map]; rfl

/-- The heroes of a restart are those of a reload. -/
theorem newestFirst_perm {mem : List (String × Ev)} {h : List Ev} (hs : Stored mem h) (ms : List String) :
    (newestFirst mem (lastSix (withMembership mem ms))).Perm (lastSix (withMembership mem ms)) := by
  unfold newestFirst
  refine (List.reverse_perm _).trans ?_
  have h1 : (mem.map (·.2)).Nodup := nodup_of_map (by rw [hs.users]; exact hs.nodup)
  rw [List.perm_ext_iff_of_nodup (List.filter_sublist.nodup h1) (nodup_of_map (lastSix_nodup (hs.wm_nodup ms)))]
  intro e
  simp only [List.mem_filter, decide_eq_true_eq]
  refine ⟨fun h => h.2, fun h => ⟨?_, h⟩⟩
  have := lastSix_mem h
  unfold withMembership at this
  exact (List.mem_filter.1 this).1

theorem heroes_of_perm {mem : List (String × Ev)} {h : List Ev} (hs : Stored mem h) {l : List Ev}
    (hp : l.Perm (lastSix (withMembership mem ["join", "invite"]))) : HeroesOk (l.map toHero) h := by
  refine ⟨?_, ?_, ?_⟩
  · rw [toHero_ids, (hp.map _).nodup_iff]
    exact lastSix_nodup (hs.wm_nodup _)
  · rw [List.length_map, hp.length_eq]; exact lastSix_length _
  · intro x hx
    obtain ⟨e, he, rfl⟩ := List.mem_map.1 hx
    have he' := (hs.mem_wm _ e).1 (lastSix_mem (hp.mem_iff.1 he))
    unfold Member memb
    show _ ∨ _
    simp only [toHero, he'.1]
    simpa using he'.2

/-! ## Invariants -/

structure Inv (room : String) (s : S) (h : List Ev) : Prop where
  stored : Stored s.mem h
  tinv : Tracker.Inv s.tracker
  joined : ∀ u, u ∈ s.tracker.joinedUsers room ↔ memb h u = "join"
  jc : s.cache.joinCount = (s.tracker.joinedUsers room).length
  heroes : HeroesOk s.cache.heroes h
  fresh : s.known = false → h = [] ∧ s.cache = {} ∧ s.tracker.invited room = []

/-- The invites, as long as no restart loses them. -/
structure Invited (room : String) (s : S) (h : List Ev) : Prop where
  invited : ∀ u, u ∈ s.tracker.invited room ↔ memb h u = "invite"
  ic : s.cache.inviteCount = (s.tracker.invited room).length

theorem joinedCount (t : Tracker.State) (room : String) :
    (Tracker.joinedUsersForRoom t room fun _ => true).2 = (t.joinedUsers room).length := rfl

theorem live_inv {room : String} {s : S} {h : List Ev} {e : Ev} (hi : Inv room s h) (hok : OkEvent h e) : Inv room (live room s e) (h ++ [e]) := by
  have hj := track_joined hi.joined hok
  refine ⟨hi.stored.set e, track_inv hi.tinv room e, hj, ?_, ?_, fun hk => by simp [live] at hk⟩
  · show (onMember _ _ s.cache e).joinCount = _
    rw [(onMember_counts _ _ _ _).1, joinedCount]
    split
    · rfl
    · next hc =>
      rw [hi.jc]
      refine length_eq (hi.tinv.nodupU room) ((track_inv hi.tinv room e).nodupU room) fun u => ?_
      show _ ↔ u ∈ (track s.tracker room e).joinedUsers room
      rw [hj, hi.joined, memb_snoc]
      by_cases he : e.user = u
      · subst he; rw [if_pos rfl, hok.2.2.2 (by simpa using hc)]
      · rw [if_neg he]
  · refine hi.heroes.step _ _ e ?_
    obtain ⟨hm, _, h2, h3⟩ := hok
    simp only [List.mem_cons, List.not_mem_nil, or_false] at hm
    have hx : ∀ x : String, e.membership = x → x ≠ "join" → x ≠ "invite" → change e = false → ¬ Member h e.user := by
      rintro x hx hj hv hc (hm | hm)
      · exact hj (by rw [← hx, ← h3 hc, hm])
      · exact hv (by rw [← hx, ← h3 hc, hm])
    rcases hm with hm | hm | hm | hm | hm
    · left; unfold Member; rw [memb_snoc, if_pos rfl]; exact Or.inl hm
    · left; unfold Member; rw [memb_snoc, if_pos rfl]; exact Or.inr hm
    · right
      cases hc : change e with
      | true => exact Or.inl ⟨rfl, Or.inl hm⟩
      | false => exact Or.inr (hx _ hm (by decide) (by decide) hc)
    · right
      cases hc : change e with
      | true => exact Or.inl ⟨rfl, Or.inr hm⟩
      | false => exact Or.inr (hx _ hm (by decide) (by decide) hc)
    · right; right
      rintro (h' | h')
      · exact (h2 hm).1 h'
      · exact (h2 hm).2 h'

theorem live_invited {room : String} {s : S} {h : List Ev} {e : Ev} (hi : Inv room s h) (hv : Invited room s h) (hok : OkEvent h e) :
    Invited room (live room s e) (h ++ [e]) := by
  have hj := track_invited hv.invited hok
  refine ⟨hj, ?_⟩
  show (onMember _ _ s.cache e).inviteCount = _
  rw [(onMember_counts _ _ _ _).2]
  split
  · rfl
  · next hc =>
    rw [hv.ic]
    refine length_eq (hi.tinv.nodupI room) ((track_inv hi.tinv room e).nodupI room) fun u => ?_
    show _ ↔ u ∈ (track s.tracker room e).invited room
    rw [hj, hv.invited, memb_snoc]
    by_cases he : e.user = u
    · subst he; rw [if_pos rfl, hok.2.2.2 (by simpa using hc)]
    · rw [if_neg he]

theorem fold_counts (jc ic : Nat) (es : List Ev) (m : Meta) :
    ((es.foldl (onMember jc ic) m).joinCount = if ∃ e ∈ es, change e = true then jc else m.joinCount) ∧
    ((es.foldl (onMember jc ic) m).inviteCount = if ∃ e ∈ es, change e = true then ic else m.inviteCount) := by
  induction es generalizing m with
  | nil => simp
  | cons e es ih =>
    rw [List.foldl_cons, (ih _).1, (ih _).2, (onMember_counts _ _ _ _).1, (onMember_counts _ _ _ _).2]
    by_cases hc : change e = true <;> by_cases hx : ∃ e ∈ es, change e = true <;> simp [hc]

theorem lastFor_block {h es : List Ev} (hn : (es.map (·.user)).Nodup) {e : Ev} (he : e ∈ es) : lastFor (h ++ es) e.user = some e := by
  induction es using Util.snocRec with
  | nil => simp at he
  | append_singleton es x ih =>
    rw [← List.append_assoc, lastFor_snoc]
    rw [List.map_append, List.nodup_append] at hn
    rcases List.mem_append.1 he with he | he
    · rw [if_neg (fun hc => hn.2.2 _ (List.mem_map_of_mem he) _ (by simp) hc.symm)]
      exact ih hn.1 he
    · rw [List.mem_singleton.1 he, if_pos rfl]

theorem lastFor_not {h es : List Ev} {u : String} (hu : u ∉ es.map (·.user)) : lastFor (h ++ es) u = lastFor h u := by
  induction es using Util.snocRec with
  | nil => simp
  | append_singleton es x ih =>
    simp only [List.map_append, List.mem_append, List.map_cons, List.map_nil, List.mem_singleton, not_or] at hu
    rw [← List.append_assoc, lastFor_snoc, if_neg (Ne.symm hu.2)]
    exact ih hu.1

theorem memb_block {es : List Ev} (hn : (es.map (·.user)).Nodup) {m : String} (hm : m ≠ "leave") (u : String) :
    memb es u = m ↔ u ∈ (es.filter fun e => e.membership = m).map (·.user) := by
  rw [memb_iff hm]
  simp only [List.mem_map, List.mem_filter, decide_eq_true_eq]
  constructor
  · rintro ⟨e, h1, h2⟩
    refine ⟨e, ⟨?_, h2⟩, lastFor_user h1⟩
    have := List.mem_of_find?_eq_some h1
    simpa using this
  · rintro ⟨e, ⟨h1, h2⟩, rfl⟩
    refine ⟨e, ?_, h2⟩
    have := lastFor_block (h := []) hn h1
    simpa using this

theorem fold_heroes {jc ic : Nat} {es : List Ev} (hn : (es.map (·.user)).Nodup) : HeroesOk (es.foldl (onMember jc ic) {}).heroes es := by
  induction es using Util.snocRec with
  | nil => exact ⟨by simp, by simp, by simp⟩
  | append_singleton es x ih =>
    rw [List.foldl_append]
    rw [List.map_append, List.nodup_append] at hn
    refine (ih hn.1).step _ _ x (Or.inr (Or.inr ?_))
    have hx : lastFor es x.user = none := by
      have := lastFor_not (h := []) (es := es) (u := x.user) (fun hc => hn.2.2 _ hc _ (by simp) rfl)
      rw [List.nil_append] at this
      rw [this]; rfl
    unfold Member memb
    rw [hx]; decide

theorem initial_inv {room : String} {s : S} {h : List Ev} {es : List Ev} (hi : Inv room s h) (hk : s.known = false) (hok : OkBlock es) :
    Inv room (initial room s es) (h ++ es) ∧ Invited room (initial room s es) (h ++ es) := by
  obtain ⟨rfl, hc, hinv⟩ := hi.fresh hk
  obtain ⟨hn, hv, hch⟩ := hok
  have hno : s.tracker.joinedUsers room = [] := by
    rw [List.eq_nil_iff_forall_not_mem]
    intro u hu
    have := (hi.joined u).1 hu
    revert this; unfold memb lastFor; simp
  unfold initial
  rw [joinedCount, hno, if_neg (by simp)]
  simp only
  rw [hc]
  generalize ht1 : (Tracker.usersJoinedRoom s.tracker ((es.filter fun e => e.membership = "join").map (·.user)) room).1 = t1
  have hj1 : Tracker.Inv t1 := by rw [← ht1]; exact Tracker.inv_step hi.tinv (.join _ room)
  generalize ht2 : Tracker.usersInvitedToRoom t1 ((es.filter fun e => e.membership = "invite").map (·.user)) room = t2
  have hj2 : Tracker.Inv t2 := by rw [← ht2]; exact Tracker.inv_step hj1 (.invite _ room)
  have hjoin : ∀ u, u ∈ t2.joinedUsers room ↔ memb es u = "join" := by
    intro u
    rw [memb_block hn (by decide), ← ht2]
    show u ∈ t1.joinedUsers room ↔ _
    rw [← ht1, (Tracker.join_fields _ room s.tracker).1, hno]
    simp
  have hinvt : ∀ u, u ∈ t2.invited room ↔ memb es u = "invite" := by
    intro u
    rw [memb_block hn (by decide), ← ht2, mem_invited, ← ht1, (Tracker.join_fields _ room s.tracker).2.2, hinv]
    simp
  have hjc : (es.foldl (onMember (Tracker.joinedUsersForRoom t2 room fun _ => true).2 (Tracker.numInvited t2 room)) ({} : Meta)).joinCount =
      (t2.joinedUsers room).length := by
    rw [(fold_counts _ _ es _).1]
    split
    · rfl
    · next hno' =>
      rcases hch with hch | hch
      · exact absurd hch hno'
      · symm; rw [List.length_eq_zero_iff, List.eq_nil_iff_forall_not_mem]
        intro u hu
        have h1 := (memb_block hn (by decide) u).1 ((hjoin u).1 hu)
        obtain ⟨e, he, _⟩ := List.mem_map.1 h1
        have := List.mem_filter.1 he
        exact (hch e this.1).1 (by simpa using this.2)
  have hic : (es.foldl (onMember (Tracker.joinedUsersForRoom t2 room fun _ => true).2 (Tracker.numInvited t2 room)) ({} : Meta)).inviteCount =
      (t2.invited room).length := by
    rw [(fold_counts _ _ es _).2]
    split
    · rfl
    · next hno' =>
      rcases hch with hch | hch
      · exact absurd hch hno'
      · symm; rw [List.length_eq_zero_iff, List.eq_nil_iff_forall_not_mem]
        intro u hu
        have h1 := (memb_block hn (by decide) u).1 ((hinvt u).1 hu)
        obtain ⟨e, he, _⟩ := List.mem_map.1 h1
        have := List.mem_filter.1 he
        exact (hch e this.1).2 (by simpa using this.2)
  rw [List.nil_append]
  exact ⟨⟨by simpa using hi.stored.setAll es, hj2, hjoin, hjc, fold_heroes hn, fun hk => by simp at hk⟩, hinvt, hic⟩

theorem reload_inv {room : String} {s : S} {h : List Ev} (hs : Stored s.mem h) (ht : Tracker.Inv s.tracker) (hk : s.known = true) :
    Inv room (reload room s) h ∧ Invited room (reload room s) h := by
  have hjn : ((reload room s).tracker.joinedUsers room) = ((withMembership s.mem ["join"]).map (·.user)).foldl Tracker.sadd [] := by
    simp [reload, Tracker.reload, Tracker.upd]
  have hin : ((reload room s).tracker.invited room) = ((withMembership s.mem ["invite"]).map (·.user)).foldl Tracker.sadd [] := by
    simp [reload, Tracker.reload, Tracker.upd]
  have hj : ∀ u, u ∈ (reload room s).tracker.joinedUsers room ↔ memb h u = "join" := by
    intro u
    rw [hjn, Tracker.mem_foldl_sadd, hs.mem_users _ (by decide)]
    simp
  have hv : ∀ u, u ∈ (reload room s).tracker.invited room ↔ memb h u = "invite" := by
    intro u
    rw [hin, Tracker.mem_foldl_sadd, hs.mem_users _ (by decide)]
    simp
  refine ⟨⟨hs, Tracker.inv_step ht (.reload room _ _), hj, ?_, ?_, ?_⟩, hv, ?_⟩
  · rw [hjn]
    show (withMembership s.mem ["join"]).length = _
    rw [← List.length_map (f := fun e : Ev => e.user)]
    exact length_eq (hs.wm_nodup _) (Tracker.nodup_foldl_sadd _ (by simp)) fun u => by rw [Tracker.mem_foldl_sadd]; simp
  · exact heroes_of_perm hs (List.Perm.refl _)
  · intro hk'
    have : (reload room s).known = s.known := rfl
    rw [this, hk] at hk'; simp at hk'
  · rw [hin]
    show (withMembership s.mem ["invite"]).length = _
    rw [← List.length_map (f := fun e : Ev => e.user)]
    exact length_eq (hs.wm_nodup _) (Tracker.nodup_foldl_sadd _ (by simp)) fun u => by rw [Tracker.mem_foldl_sadd]; simp

theorem restart_inv {room : String} {s : S} {h : List Ev} (hi : Inv room s h) : Inv room (restart room s) h := by
  have hs := hi.stored
  have hm : ([(room, (withMembership s.mem ["join"]).map (·.user))].map (·.1)).Nodup := by simp
  obtain ⟨h1, _, h3, h4, _⟩ := Tracker.startup_fields [(room, (withMembership s.mem ["join"]).map (·.user))] hm
  have hl : ∀ u, u ∈ (restart room s).tracker.joinedUsers room ↔ u ∈ (withMembership s.mem ["join"]).map (·.user) := by
    intro u
    show u ∈ (Tracker.startup _).joinedUsers room ↔ _
    rw [h1]
    simp only [Tracker.listed, List.mem_singleton, Prod.mk.injEq]
    constructor
    · rintro ⟨us, ⟨_, rfl⟩, hu⟩; exact hu
    · intro hu; exact ⟨_, ⟨trivial, rfl⟩, hu⟩
  have hlen : ((restart room s).tracker.joinedUsers room).length = (withMembership s.mem ["join"]).length := by
    rw [← List.length_map (f := fun e : Ev => e.user) (as := withMembership s.mem ["join"])]
    exact length_eq (h4 room) (hs.wm_nodup _) hl
  refine ⟨hs, Tracker.inv_startup _ hm, fun u => ?_, ?_, ?_, ?_⟩
  · rw [hl, hs.mem_users _ (by decide)]; simp
  · rw [hlen]
    unfold restart
    simp only
    split
    · next hz => rw [hz]
    · rfl
  · unfold restart
    simp only
    split
    · exact ⟨by simp, by simp, by simp⟩
    · exact heroes_of_perm hs (newestFirst_perm hs _)
  · intro hk
    obtain ⟨rfl, hc, _⟩ := hi.fresh hk
    refine ⟨rfl, ?_, h3 room⟩
    have : (withMembership s.mem ["join"]).length = 0 := by
      rw [List.length_eq_zero_iff, List.eq_nil_iff_forall_not_mem]
      intro e he
      have := ((hs.mem_wm _ e).1 he).1
      simp [lastFor] at this
    unfold restart
    simp only [this, if_true]

theorem restart_invited {room : String} {s : S} {h : List Ev} (hi : Inv room s h) (hno : ∀ u, memb h u ≠ "invite") : Invited room (restart room s) h := by
  have hm : ([(room, (withMembership s.mem ["join"]).map (·.user))].map (·.1)).Nodup := by simp
  obtain ⟨_, _, h3, _, _⟩ := Tracker.startup_fields [(room, (withMembership s.mem ["join"]).map (·.user))] hm
  have he : (restart room s).tracker.invited room = [] := h3 room
  refine ⟨fun u => by rw [he]; simp [hno u], ?_⟩
  rw [he]
  unfold restart
  simp only
  split
  · rfl
  · simp only [List.length_nil]
    rw [List.length_eq_zero_iff, List.eq_nil_iff_forall_not_mem]
    intro e he
    have := (hi.stored.mem_users ["invite"] (by decide) e.user).1 (List.mem_map_of_mem he)
    exact hno e.user (by simpa using this)

theorem step_known (room : String) (s : S) (o : Op) : (step room s o).known = (s.known || decide (o ≠ .restart)) := by
  cases o with
  | event e => simp [step, live]
  | block es =>
    simp only [step]
    split
    · next hk => simp [reload, hk]
    · simp only [initial]; split <;> simp
  | restart => simp [step, restart]

theorem run_known (room : String) (ops : List Op) : (run room ops).known = true ↔ ∃ o ∈ ops, o ≠ .restart := by
  induction ops using Util.snocRec with
  | nil => simp [run]
  | append_singleton l o ih =>
    rw [run_snoc, step_known, Bool.or_eq_true, ih]
    simp only [List.mem_append, List.mem_singleton, decide_eq_true_eq]
    constructor
    · rintro (⟨x, hx, h⟩ | h)
      · exact ⟨x, Or.inl hx, h⟩
      · exact ⟨o, Or.inr rfl, h⟩
    · rintro ⟨x, hx | hx, h⟩
      · exact Or.inl ⟨x, hx, h⟩
      · exact Or.inr (hx ▸ h)

theorem OkHist.init {l : List Op} {o : Op} (h : OkHist (l ++ [o])) : OkHist l :=
  fun a x b he => h a x (b ++ [o]) (by rw [he]; simp)

theorem OkHist.last {l : List Op} {o : Op} (h : OkHist (l ++ [o])) : OkOp l o := h l o [] rfl

theorem events_snoc (l : List Op) (o : Op) : events (l ++ [o]) = events l ++ events [o] := events_append l [o]

/-- The invariant holds after any history. -/
theorem run_inv (room : String) (ops : List Op) (hok : OkHist ops) : Inv room (run room ops) (events ops) := by
  induction ops using Util.snocRec with
  | nil =>
    refine ⟨Stored.empty, ⟨by simp [run, Tracker.empty], by simp [run, Tracker.empty], by simp [run, Tracker.empty], by simp [run, Tracker.empty]⟩,
      ?_, rfl, ⟨by simp [run], by simp [run], by simp [run]⟩, fun _ => ⟨rfl, rfl, rfl⟩⟩
    intro u; simp [run, Tracker.empty, events, memb, lastFor]
  | append_singleton l o ih =>
    have hi := ih hok.init
    have hl := hok.last
    rw [run_snoc, events_snoc]
    cases o with
    | event e => exact live_inv hi hl
    | block es =>
      simp only [step, events, List.append_nil]
      split
      · next hk => exact (reload_inv (room := room) (s := { run room l with mem := _ }) (hi.stored.setAll es) hi.tinv hk).1
      · next hk =>
        rcases hl with hl | hl
        · exact absurd ((run_known room l).2 hl) hk
        · exact (initial_inv hi (by simpa using hk) hl).1
    | restart => simpa [step, events] using restart_inv hi

theorem run_invited (room : String) (ops : List Op) (hok : OkHist ops)
    (hno : ∀ a b, ops = a ++ Op.restart :: b → ∀ u, memb (events a) u ≠ "invite") : Invited room (run room ops) (events ops) := by
  induction ops using Util.snocRec with
  | nil => exact ⟨by intro u; simp [run, Tracker.empty, events, memb, lastFor], rfl⟩
  | append_singleton l o ih =>
    have hi := run_inv room l hok.init
    have hv := ih hok.init (fun a b he => hno a (b ++ [o]) (by rw [he]; simp))
    have hl := hok.last
    rw [run_snoc, events_snoc]
    cases o with
    | event e => exact live_invited hi hv hl
    | block es =>
      simp only [step, events, List.append_nil]
      split
      · next hk => exact (reload_inv (room := room) (s := { run room l with mem := _ }) (hi.stored.setAll es) hi.tinv hk).2
      · next hk =>
        rcases hl with hl | hl
        · exact absurd ((run_known room l).2 hl) hk
        · exact (initial_inv hi (by simpa using hk) hl).2
    | restart => simpa [step, events] using restart_invited hi (hno l [] rfl)

/-! ## Small rooms -/

/-- The room has at most `n` members. -/
def AtMost (h : List Ev) (n : Nat) : Prop := ∀ l : List String, l.Nodup → (∀ u ∈ l, Member h u) → l.length ≤ n

/-- Every member is a hero. -/
def Full (heroes : List RoomName.Hero) (h : List Ev) : Prop := ∀ u, Member h u → u ∈ heroes.map (·.id)

/-- Every hero has the name and avatar of their last member event. -/
def Named (heroes : List RoomName.Hero) (h : List Ev) : Prop := ∀ x ∈ heroes, ∀ e, lastFor h x.id = some e → x = ⟨e.user, e.name, e.avatar⟩

theorem HeroesOk.le {heroes : List RoomName.Hero} {h : List Ev} {n : Nat} (hh : HeroesOk heroes h) (ha : AtMost h n) : heroes.length ≤ n := by
  have := ha (heroes.map (·.id)) hh.nodup (by
    intro u hu
    obtain ⟨x, hx, rfl⟩ := List.mem_map.1 hu
    exact hh.member x hx)
  simpa using this

/-- The heroes before the new one is added. -/
theorem first_part (jc ic : Nat) {m : Meta} (e : Ev) (hn : (m.heroes.map (·.id)).Nodup) :
    ∃ l : List RoomName.Hero, l.Sublist m.heroes ∧ (∀ x ∈ m.heroes, x.id ≠ e.user → x ∈ l) ∧
      (onMember jc ic m e).heroes = if l.length < 6 ∧ (e.membership = "join" ∨ e.membership = "invite") then addHero e l else l := by
  unfold onMember
  by_cases hc : change e = true
  · simp only [hc, if_true]
    by_cases hl : e.membership = "leave" ∨ e.membership = "ban"
    · rw [if_pos hl, RoomName.C56_remove_hero _ _ hn]
      refine ⟨m.heroes.filter fun h => decide (h.id ≠ e.user), List.filter_sublist,
        fun x hx hne => List.mem_filter.2 ⟨hx, by simpa using hne⟩, ?_⟩
      split <;> rfl
    · rw [if_neg hl]
      refine ⟨m.heroes, List.Sublist.refl _, fun x hx _ => hx, ?_⟩
      split <;> rfl
  · simp only [hc, Bool.false_eq_true, if_false]
    refine ⟨m.heroes, List.Sublist.refl _, fun x hx _ => hx, ?_⟩
    split <;> rfl

theorem full_step {m : Meta} {h : List Ev} (hf : Full m.heroes h) (hh : HeroesOk m.heroes h) (jc ic : Nat) (e : Ev)
    (hk : HeroesOk (onMember jc ic m e).heroes (h ++ [e])) (ha : AtMost (h ++ [e]) 6) : Full (onMember jc ic m e).heroes (h ++ [e]) := by
  obtain ⟨l, hsub, hkeep, heq⟩ := first_part jc ic e hh.nodup
  intro u hu
  by_cases hue : e.user = u
  · subst hue
    have hmem : e.membership = "join" ∨ e.membership = "invite" := by
      unfold Member at hu; rw [memb_snoc, if_pos rfl] at hu; exact hu
    by_cases hg : l.length < 6
    · rw [heq, if_pos ⟨hg, hmem⟩, addHero_ids]
      split
      · next hx => exact hx
      · simp
    · rw [if_neg (fun hc => hg hc.1)] at heq
      rw [heq] at hk ⊢
      refine Classical.byContradiction fun hno => ?_
      have := ha (e.user :: l.map (·.id)) (List.nodup_cons.2 ⟨hno, hk.nodup⟩) (by
        intro u' hu'
        rcases List.mem_cons.1 hu' with hu' | hu'
        · rw [hu']; exact hu
        · obtain ⟨x, hx, rfl⟩ := List.mem_map.1 hu'
          exact hk.member x hx)
      simp only [List.length_cons, List.length_map] at this
      omega
  · have hmu : Member h u := by
      unfold Member at hu ⊢
      rw [memb_snoc, if_neg hue] at hu; exact hu
    obtain ⟨x, hx, rfl⟩ := List.mem_map.1 (hf u hmu)
    have hxl := List.mem_map_of_mem (f := fun x : RoomName.Hero => x.id) (hkeep x hx (Ne.symm hue))
    rw [heq]
    split
    · rw [addHero_ids]
      split
      · exact hxl
      · exact List.mem_append_left _ hxl
    · exact hxl

theorem named_step {m : Meta} {h : List Ev} (hf : Named m.heroes h) (hh : HeroesOk m.heroes h) (jc ic : Nat) (e : Ev)
    (hk : HeroesOk (onMember jc ic m e).heroes (h ++ [e])) (ha : AtMost h 5) : Named (onMember jc ic m e).heroes (h ++ [e]) := by
  obtain ⟨l, hsub, hkeep, heq⟩ := first_part jc ic e hh.nodup
  have hlen : l.length < 6 := by
    have := hsub.length_le
    have := hh.le ha
    omega
  intro x hx e' he'
  rw [lastFor_snoc] at he'
  by_cases hmem : e.membership = "join" ∨ e.membership = "invite"
  · rw [heq, if_pos ⟨hlen, hmem⟩] at hx
    rcases addHero_mem ((hsub.map _).nodup hh.nodup) hx with rfl | ⟨hx, hne⟩
    · rw [if_pos (show e.user = (toHero e).id from rfl)] at he'
      cases he'; rfl
    · rw [if_neg (Ne.symm hne)] at he'
      exact hf x (hsub.subset hx) e' he'
  · have hxm := hk.member x hx
    unfold Member at hxm
    rw [memb_snoc] at hxm
    by_cases hxe : e.user = x.id
    · rw [if_pos hxe] at hxm; exact absurd hxm hmem
    · rw [if_neg hxe] at he'
      rw [heq, if_neg (fun hc => hmem hc.2)] at hx
      exact hf x (hsub.subset hx) e' he'

theorem member_prefix {a b : List Ev} (hn : ((a ++ b).map (·.user)).Nodup) {u : String} (hu : Member a u) : Member (a ++ b) u := by
  cases hl : lastFor a u with
  | none => unfold Member memb at hu; rw [hl] at hu; exact absurd hu (by decide)
  | some e =>
    have he : e ∈ a := by simpa using List.mem_of_find?_eq_some hl
    have h2 := lastFor_block (h := []) hn (List.mem_append_left b he)
    rw [List.nil_append, lastFor_user hl] at h2
    unfold Member memb at hu ⊢
    rw [hl] at hu
    rw [h2]; exact hu

theorem AtMost.prefix {a b : List Ev} {n : Nat} (hn : ((a ++ b).map (·.user)).Nodup) (h : AtMost (a ++ b) n) : AtMost a n :=
  fun l hl hm => h l hl fun u hu => member_prefix hn (hm u hu)

theorem fold_full {jc ic : Nat} {es : List Ev} (hn : (es.map (·.user)).Nodup) (ha : AtMost es 6) : Full (es.foldl (onMember jc ic) {}).heroes es := by
  induction es using Util.snocRec with
  | nil => intro u hu; unfold Member memb lastFor at hu; simp at hu
  | append_singleton es x ih =>
    have hn' : (es.map (·.user)).Nodup := by rw [List.map_append, List.nodup_append] at hn; exact hn.1
    have := fold_heroes (jc := jc) (ic := ic) hn
    rw [List.foldl_append] at this ⊢
    exact full_step (ih hn' (ha.prefix hn)) (fold_heroes hn') _ _ x this ha

theorem fold_named {jc ic : Nat} {es : List Ev} (hn : (es.map (·.user)).Nodup) (ha : AtMost es 5) : Named (es.foldl (onMember jc ic) {}).heroes es := by
  induction es using Util.snocRec with
  | nil => intro x hx; simp at hx
  | append_singleton es x ih =>
    have hn' : (es.map (·.user)).Nodup := by rw [List.map_append, List.nodup_append] at hn; exact hn.1
    have := fold_heroes (jc := jc) (ic := ic) hn
    rw [List.foldl_append] at this ⊢
    exact named_step (ih hn' (ha.prefix hn)) (fold_heroes hn') _ _ x this (ha.prefix hn)

theorem initial_heroes {room : String} {s : S} {h : List Ev} (es : List Ev) (hi : Inv room s h) (hk : s.known = false) :
    ∃ jc ic, (initial room s es).cache.heroes = (es.foldl (onMember jc ic) {}).heroes := by
  obtain ⟨rfl, hc, hinv⟩ := hi.fresh hk
  have hno : s.tracker.joinedUsers room = [] := by
    rw [List.eq_nil_iff_forall_not_mem]
    intro u hu
    have := (hi.joined u).1 hu
    revert this; unfold memb lastFor; simp
  unfold initial
  rw [joinedCount, hno, if_neg (by simp)]
  simp only
  rw [hc]
  exact ⟨_, _, rfl⟩

theorem full_of_perm {mem : List (String × Ev)} {h : List Ev} (hs : Stored mem h) {l : List Ev}
    (hp : l.Perm (lastSix (withMembership mem ["join", "invite"]))) (ha : AtMost h 6) : Full (l.map toHero) h := by
  intro u hu
  rw [toHero_ids, (hp.map _).mem_iff]
  have hmem : ∀ u, u ∈ (withMembership mem ["join", "invite"]).map (·.user) ↔ Member h u := by
    intro u
    rw [hs.mem_users _ (by decide)]
    unfold Member; simp
  have hlen := ha _ (hs.wm_nodup ["join", "invite"]) (fun u hu => (hmem u).1 hu)
  rw [List.length_map] at hlen
  obtain ⟨e, he, rfl⟩ := List.mem_map.1 ((hmem u).2 hu)
  exact List.mem_map_of_mem (lastSix_all hlen he)

theorem named_of_perm {mem : List (String × Ev)} {h : List Ev} (hs : Stored mem h) {l : List Ev}
    (hp : l.Perm (lastSix (withMembership mem ["join", "invite"]))) : Named (l.map toHero) h := by
  intro x hx e he
  obtain ⟨e', he', rfl⟩ := List.mem_map.1 hx
  have h1 := ((hs.mem_wm _ e').1 (lastSix_mem (hp.mem_iff.1 he'))).1
  have : lastFor h e'.user = some e := he
  rw [h1] at this
  cases this; rfl

/-- A start-up finds somebody joined, or nobody at all. -/
def RestartOk (ops : List Op) : Prop :=
  ∀ a b, ops = a ++ Op.restart :: b → (∃ u, memb (events a) u = "join") ∨ ∀ u, ¬ Member (events a) u

def SmallAlways (n : Nat) (ops : List Op) : Prop := ∀ a b, ops = a ++ b → AtMost (events a) n

theorem run_full (room : String) (ops : List Op) (hok : OkHist ops) (hsm : SmallAlways 6 ops) (hr : RestartOk ops) :
    Full (run room ops).cache.heroes (events ops) := by
  induction ops using Util.snocRec with
  | nil => intro u hu; unfold Member memb lastFor at hu; simp [events] at hu
  | append_singleton l o ih =>
    have hi := run_inv room l hok.init
    have hi' := run_inv room (l ++ [o]) hok
    have hf := ih hok.init (fun a b he => hsm a (b ++ [o]) (by rw [he]; simp)) (fun a b he => hr a (b ++ [o]) (by rw [he]; simp))
    have ha := hsm (l ++ [o]) [] (by simp)
    have hl := hok.last
    have hh := hi'.heroes
    rw [run_snoc, events_snoc] at hh ⊢
    rw [events_snoc] at ha
    cases o with
    | event e => exact full_step hf hi.heroes _ _ e hh ha
    | block es =>
      simp only [events, List.append_nil] at ha ⊢
      simp only [step]
      split
      · exact full_of_perm (hi.stored.setAll es) (List.Perm.refl _) ha
      · next hk =>
        rcases hl with hl | hl
        · exact absurd ((run_known room l).2 hl) hk
        · obtain ⟨jc, ic, he⟩ := initial_heroes es hi (by simpa using hk)
          rw [he]
          have h0 := (hi.fresh (by simpa using hk)).1
          rw [h0, List.nil_append] at ha ⊢
          exact fold_full hl.1 ha
    | restart =>
      simp only [events, List.append_nil] at ha ⊢
      simp only [step, restart]
      split
      · next hz =>
        rcases hr l [] rfl with ⟨u, hu⟩ | hno
        · rw [List.length_eq_zero_iff] at hz
          have := (hi.stored.mem_users ["join"] (by decide) u).2 (by simp [hu])
          rw [hz] at this; simp at this
        · intro u hu; exact absurd hu (hno u)
      · exact full_of_perm hi.stored (newestFirst_perm hi.stored _) ha

theorem run_named (room : String) (ops : List Op) (hok : OkHist ops) (hsm : SmallAlways 5 ops) :
    Named (run room ops).cache.heroes (events ops) := by
  induction ops using Util.snocRec with
  | nil => intro x hx; simp [run] at hx
  | append_singleton l o ih =>
    have hi := run_inv room l hok.init
    have hi' := run_inv room (l ++ [o]) hok
    have hf := ih hok.init (fun a b he => hsm a (b ++ [o]) (by rw [he]; simp))
    have ha' := hsm l [o] rfl
    have ha := hsm (l ++ [o]) [] (by simp)
    have hl := hok.last
    have hh := hi'.heroes
    rw [run_snoc, events_snoc] at hh ⊢
    rw [events_snoc] at ha
    cases o with
    | event e => exact named_step hf hi.heroes _ _ e hh ha'
    | block es =>
      simp only [events, List.append_nil] at ha ⊢
      simp only [step]
      split
      · exact named_of_perm (hi.stored.setAll es) (List.Perm.refl _)
      · next hk =>
        rcases hl with hl | hl
        · exact absurd ((run_known room l).2 hl) hk
        · obtain ⟨jc, ic, he⟩ := initial_heroes es hi (by simpa using hk)
          rw [he]
          have h0 := (hi.fresh (by simpa using hk)).1
          rw [h0, List.nil_append] at ha ⊢
          exact fold_named hl.1 ha
    | restart =>
      simp only [events, List.append_nil] at ha ⊢
      simp only [step, restart]
      split
      · intro x hx; simp at hx
      · exact named_of_perm hi.stored (newestFirst_perm hi.stored _)

/-! ## C77 -/

/-- The cached join count is the number of joined users, after any history of member events, state blocks and restarts. -/
theorem C77_joined (room : String) (ops : List Op) (hok : OkHist ops) :
    Number (run room ops).cache.joinCount (fun u => memb (events ops) u = "join") := by
  have hi := run_inv room ops hok
  exact ⟨_, hi.tinv.nodupU room, hi.joined, hi.jc.symm⟩

/-- The cached invite count is the number of invited users, if nobody is invited at the restarts.  Missing: restarts with
pending invites, where the count is wrong after the next event (`C77_violated_invites`). -/
theorem C77_invited_partial (room : String) (ops : List Op) (hok : OkHist ops)
    (hno : ∀ a b, ops = a ++ Op.restart :: b → ∀ u, memb (events a) u ≠ "invite") :
    Number (run room ops).cache.inviteCount (fun u => memb (events ops) u = "invite") := by
  have hi := run_inv room ops hok
  have hv := run_invited room ops hok hno
  exact ⟨_, hi.tinv.nodupI room, hv.invited, hv.ic.symm⟩

/-- The heroes are at most six different users who are joined or invited, after any history. -/
theorem C77_heroes (room : String) (ops : List Op) (hok : OkHist ops) :
    ((run room ops).cache.heroes.map (·.id)).Nodup ∧ (run room ops).cache.heroes.length ≤ 6 ∧
      ∀ x ∈ (run room ops).cache.heroes, memb (events ops) x.id = "join" ∨ memb (events ops) x.id = "invite" := by
  have hi := (run_inv room ops hok).heroes
  exact ⟨hi.nodup, hi.six, hi.member⟩

/-- In a room that never had more than six members the heroes are the members.  Missing: larger rooms, where freed places
are not filled again (`C77_violated_refill`), and restarts of a room with invited users only (`C77_violated_restart`). -/
theorem C77_members_partial (room : String) (ops : List Op) (hok : OkHist ops) (hsm : SmallAlways 6 ops) (hr : RestartOk ops) (u : String) :
    u ∈ (run room ops).cache.heroes.map (·.id) ↔ memb (events ops) u = "join" ∨ memb (events ops) u = "invite" := by
  constructor
  · intro hu
    obtain ⟨x, hx, rfl⟩ := List.mem_map.1 hu
    exact (run_inv room ops hok).heroes.member x hx
  · exact run_full room ops hok hsm hr u

/-- In a room that never had more than five members the heroes have the current names and avatars.  Missing: with six
heroes a changed name is not taken (`C77_violated_name`). -/
theorem C77_names_partial (room : String) (ops : List Op) (hok : OkHist ops) (hsm : SmallAlways 5 ops) (x : RoomName.Hero)
    (hx : x ∈ (run room ops).cache.heroes) : ∃ e, lastFor (events ops) x.id = some e ∧ x = ⟨e.user, e.name, e.avatar⟩ := by
  have hm := (run_inv room ops hok).heroes.member x hx
  cases hl : lastFor (events ops) x.id with
  | none => unfold Member memb at hm; rw [hl] at hm; exact absurd hm (by decide)
  | some e => exact ⟨e, rfl, run_named room ops hok hsm x hx e hl⟩

/-! ## Where the code disagrees -/

/-- A first state block in which every member event has a `prev_content` with the same membership (for example, each
member changed their name once) leaves the join count at zero. -/
theorem C77_violated_no_change : ∃ (es : List Ev), (es.map (·.user)).Nodup ∧
    memb (events [.block es]) "@a:x" = "join" ∧ (run "!r" [.block es]).cache.joinCount = 0 :=
  ⟨[⟨"@a:x", "join", "join", "A", ""⟩, ⟨"@b:x", "join", "join", "B", ""⟩], by decide +kernel⟩

/-- After a restart the tracker knows no invites, and the next change of a membership sets the invite count to zero. -/
theorem C77_violated_invites : ∃ ops, OkHist ops ∧
    memb (events ops) "@b:x" = "invite" ∧ (run "!r" ops).cache.inviteCount = 0 := by
  refine ⟨[.block [⟨"@a:x", "join", "", "A", ""⟩, ⟨"@b:x", "invite", "", "B", ""⟩], .restart,
    .event ⟨"@c:x", "join", "", "C", ""⟩], ?_, by decide +kernel⟩
  intro a o b h
  rcases a with _ | ⟨o1, _ | ⟨o2, _ | ⟨o3, a⟩⟩⟩ <;> simp at h
  · obtain ⟨rfl, _⟩ := h
    exact Or.inr ⟨by decide +kernel, by decide +kernel, Or.inl (by decide +kernel)⟩
  · obtain ⟨_, rfl, _⟩ := h; trivial
  · obtain ⟨rfl, rfl, rfl, _⟩ := h
    exact ⟨by decide +kernel, by decide +kernel, by decide +kernel, by decide +kernel⟩

/-- The first members of a room. -/
def six : List Ev := [⟨"@a:x", "join", "", "A", ""⟩, ⟨"@b:x", "join", "", "B", ""⟩, ⟨"@c:x", "join", "", "C", ""⟩,
  ⟨"@d:x", "join", "", "D", ""⟩, ⟨"@e:x", "join", "", "E", ""⟩, ⟨"@f:x", "join", "", "F", ""⟩]

/-- With six heroes a new display name is not taken. -/
theorem C77_violated_name : ∃ (e : Ev), OkEvent (events [.block six]) e ∧ lastFor (events [.block six, .event e]) "@a:x" = some e ∧ e.name = "A2" ∧
    (⟨"@a:x", "A", ""⟩ : RoomName.Hero) ∈ (run "!r" [.block six, .event e]).cache.heroes :=
  ⟨⟨"@a:x", "join", "join", "A2", ""⟩, by unfold OkEvent; decide +kernel, by decide +kernel⟩

/-- Places freed by heroes who leave are not filled with other members: a room with two members and one hero. -/
theorem C77_violated_refill : ∃ ops, memb (events ops) "@g:x" = "join" ∧ memb (events ops) "@f:x" = "join" ∧
    (run "!r" ops).cache.joinCount = 2 ∧ (run "!r" ops).cache.heroes.map (·.id) = ["@f:x"] :=
  ⟨[.block (six ++ [⟨"@g:x", "join", "", "G", ""⟩]), .event ⟨"@a:x", "leave", "join", "", ""⟩, .event ⟨"@b:x", "leave", "join", "", ""⟩,
    .event ⟨"@c:x", "leave", "join", "", ""⟩, .event ⟨"@d:x", "leave", "join", "", ""⟩, .event ⟨"@e:x", "leave", "join", "", ""⟩], by decide +kernel⟩

/-- After a restart a room with invited users only has neither heroes nor an invite count. -/
theorem C77_violated_restart : ∃ ops, memb (events ops) "@b:x" = "invite" ∧ (run "!r" ops).cache.inviteCount = 0 ∧
    (run "!r" ops).cache.heroes = [] :=
  ⟨[.block [⟨"@b:x", "invite", "", "B", ""⟩], .restart], by decide +kernel⟩

/-- When a leave was missed and the next event is an invite, the tracker keeps the user joined, and they go on to receive
the events of the room. -/
theorem C77_violated_missed_leave : ∃ ops, memb (events ops) "@b:x" = "invite" ∧
    Tracker.isUserJoined (run "!r" ops).tracker "@b:x" "!r" = true ∧ (run "!r" ops).cache.joinCount = 2 :=
  ⟨[.block [⟨"@a:x", "join", "", "A", ""⟩, ⟨"@b:x", "join", "", "B", ""⟩], .event ⟨"@b:x", "invite", "leave", "B", ""⟩], by decide +kernel⟩

/-! ## The hypotheses can be met -/

/-- A history with a state block, a rename, an invite that is accepted, a leave and a restart. -/
def sample : List Op :=
  [.block [⟨"@a:x", "join", "", "A", ""⟩, ⟨"@b:x", "join", "", "B", ""⟩], .event ⟨"@c:x", "invite", "", "C", ""⟩,
    .event ⟨"@c:x", "join", "invite", "C", ""⟩, .event ⟨"@a:x", "join", "join", "A2", "mxc"⟩, .event ⟨"@b:x", "leave", "join", "", ""⟩, .restart]

instance (h : List Ev) (e : Ev) : Decidable (OkEvent h e) := inferInstanceAs (Decidable (_ ∧ _))
instance (es : List Ev) : Decidable (OkBlock es) := inferInstanceAs (Decidable (_ ∧ _))
instance (l : List Op) (o : Op) : Decidable (OkOp l o) := by
  cases o
  · exact inferInstanceAs (Decidable (OkEvent _ _))
  · exact inferInstanceAs (Decidable (_ ∨ _))
  · exact inferInstanceAs (Decidable True)

/-- A condition on the prefixes, checked one by one. -/
theorem okHist_of {ops : List Op} (h : ∀ i, (hi : i < ops.length) → OkOp (ops.take i) ops[i]) : OkHist ops := by
  rintro a o b rfl
  have := h a.length (by simp)
  simpa using this

theorem sample_ok : OkHist sample := okHist_of (by decide +kernel)

theorem atMost_of {h : List Ev} {n : Nat} (l : List String) (hl : l.length ≤ n) (hm : ∀ e ∈ h, e.user ∈ l) : AtMost h n := by
  have key : ∀ (a b : List String), a.Nodup → (∀ u ∈ a, u ∈ b) → a.length ≤ b.length := by
    intro a
    induction a with
    | nil => intros; simp
    | cons x a ih =>
      intro b hn hs
      rw [List.nodup_cons] at hn
      have hx : x ∈ b := hs x (by simp)
      have := ih (b.erase x) hn.2 (fun u hu => (List.mem_erase_of_ne (fun hc : u = x => hn.1 (hc ▸ hu))).2 (hs u (by simp [hu])))
      rw [List.length_erase_of_mem hx] at this
      have := List.length_pos_of_mem hx
      simp only [List.length_cons]; omega
  intro l' hn hmem
  refine Nat.le_trans (key l' l hn fun u hu => ?_) hl
  have hu := hmem u hu
  cases hlf : lastFor h u with
  | none => unfold Member memb at hu; rw [hlf] at hu; exact absurd hu (by decide)
  | some e =>
    have he : e ∈ h := by simpa using List.mem_of_find?_eq_some hlf
    have := hm e he
    rwa [lastFor_user hlf] at this

theorem sample_small : SmallAlways 5 sample := by
  intro a b hab
  refine atMost_of ["@a:x", "@b:x", "@c:x"] (by decide) fun e he => ?_
  have h1 : e ∈ events sample := by rw [hab, events_append]; exact List.mem_append_left _ he
  exact (by decide +kernel : ∀ e ∈ events sample, e.user ∈ ["@a:x", "@b:x", "@c:x"]) e h1

example : (run "!r" sample).cache = ⟨2, 0, [⟨"@a:x", "A2", "mxc"⟩, ⟨"@c:x", "C", ""⟩]⟩ := by decide +kernel

example : Number (run "!r" sample).cache.joinCount (fun u => memb (events sample) u = "join") := C77_joined _ _ sample_ok

example (x : RoomName.Hero) (hx : x ∈ (run "!r" sample).cache.heroes) :
    ∃ e, lastFor (events sample) x.id = some e ∧ x = ⟨e.user, e.name, e.avatar⟩ := C77_names_partial _ _ sample_ok sample_small x hx

example : RestartOk sample := by
  intro a b h
  have hl : a.length = 5 := by
    rcases a with _ | ⟨o1, _ | ⟨o2, _ | ⟨o3, _ | ⟨o4, _ | ⟨o5, _ | ⟨o6, a⟩⟩⟩⟩⟩⟩ <;> simp [sample] at h ⊢
  refine Or.inl ⟨"@a:x", ?_⟩
  have : a = sample.take 5 := by rw [h, List.take_append_of_le_length (by omega), List.take_of_length_le (by omega)]
  rw [this]; decide +kernel

end Verif.Heroes
