import Verif.Invites
/-!
# C57: invites are retired by later memberships

The specification reads the membership from the JSON: the last membership event of the user.
-/
namespace Verif.Invites

open Verif

/-- The membership an event sets for a user, if it is a valid membership event of theirs. -/
def says (user : String) (r : Raw) : Option String :=
  if r.type = "m.room.member" ∧ r.stateKey = some user ∧ r.membership ≠ "" then some r.membership else none

/-- The last membership set in a list of events. -/
def lastSaid (user : String) : List Raw → Option String
  | [] => none
  | r :: rs => (lastSaid user rs).or (says user r)

theorem lastSaid_append (user : String) (a b : List Raw) : lastSaid user (a ++ b) = (lastSaid user b).or (lastSaid user a) := by
  induction a with
  | nil => simp [lastSaid]
  | cons r a ih => simp [lastSaid, ih, Option.or_assoc]

/-- `lastSaid` is the membership of the last membership event. -/
theorem lastSaid_iff (user : String) (l : List Raw) (m : String) :
    lastSaid user l = some m ↔ ∃ a r b, l = a ++ r :: b ∧ says user r = some m ∧ ∀ x ∈ b, says user x = none := by
  induction l with
  | nil => simp [lastSaid]
  | cons r rs ih =>
    have hn : lastSaid user rs = none ↔ ∀ x ∈ rs, says user x = none := by
      clear ih
      induction rs with
      | nil => simp [lastSaid]
      | cons y ys ih => simp [lastSaid, Option.or_eq_none_iff, ih, and_comm]
    simp only [lastSaid]
    constructor
    · intro h
      cases hl : lastSaid user rs with
      | none =>
        rw [hl] at h
        exact ⟨[], r, rs, rfl, by simpa using h, hn.1 hl⟩
      | some x =>
        rw [hl] at h
        simp only [Option.some_or, Option.some.injEq] at h
        subst h
        obtain ⟨a, q, b, rfl, h1, h2⟩ := ih.1 hl
        exact ⟨r :: a, q, b, rfl, h1, h2⟩
    · rintro ⟨a, q, b, he, h1, h2⟩
      cases a with
      | nil =>
        simp only [List.nil_append, List.cons.injEq] at he
        obtain ⟨rfl, rfl⟩ := he
        rw [hn.2 h2]; simpa using h1
      | cons y a =>
        simp only [List.cons_append, List.cons.injEq] at he
        obtain ⟨rfl, rfl⟩ := he
        rw [ih.2 ⟨a, q, b, rfl, h1, h2⟩]; rfl

/-- The stored form of a membership is as an invite exactly if the membership is one. -/
theorem stored_invite (r : Raw) (h : r.membership ≠ "_invite") :
    ((if isChange r then r.membership else "_" ++ r.membership) = "invite" ∨
      (if isChange r then r.membership else "_" ++ r.membership) = "_invite") ↔ r.membership = "invite" := by
  by_cases hc : isChange r = true
  · simp [hc, h]
  · simp only [hc, Bool.false_eq_true, if_false]
    constructor
    · rintro (he | he)
      · have := congrArg String.toList he
        simp at this
      · have := congrArg String.toList he
        rw [String.toList_append] at this
        have h2 : ("_" : String).toList ++ r.membership.toList = ("_" : String).toList ++ ("invite" : String).toList := this
        exact String.toList_inj.1 (List.append_cancel_left h2)
    · intro he; right; rw [he]; decide

theorem memberships_snoc (l : List Ev) (e : Ev) : memberships (l ++ [e]) =
    if e.type ≠ "m.room.member" then memberships l else Assoc.set (memberships l) e.stateKey e.membership := by
  unfold memberships; rw [List.foldl_append]; rfl

theorem memberships_nodup (l : List Ev) : ((memberships l).map (·.1)).Nodup := by
  induction l using Verif.Util.snocRec with
  | nil => exact List.nodup_nil
  | append_singleton l e ih =>
    rw [memberships_snoc]
    split
    · exact ih
    · exact Assoc.nodup_set ih _ _

/-- A stored membership is that of the last event. -/
theorem memberships_get (user : String) (hu : user ≠ "") (l : List Raw) (hm : ∀ r ∈ l, r.membership ≠ "_invite") :
    match Assoc.get (memberships (l.filterMap ensure)) user with
    | none => lastSaid user l = none
    | some m => ∃ x, lastSaid user l = some x ∧ ((m = "invite" ∨ m = "_invite") ↔ x = "invite") := by
  induction l using Verif.Util.snocRec with
  | nil => simp [memberships, Assoc.get_nil, lastSaid]
  | append_singleton l r ih =>
    have ih := ih fun x hx => hm x (by simp [hx])
    have hr := hm r (by simp)
    rw [List.filterMap_append, lastSaid_append]
    have hsing : lastSaid user [r] = says user r := by simp [lastSaid]
    rw [hsing]
    by_cases hk : r.stateKey.getD "" ≠ "" ∧ r.type = "m.room.member"
    · by_cases hm0 : r.membership = ""
      · have hs : says user r = none := by simp [says, hm0]
        have he : ensure r = none := by unfold ensure; simp only [if_pos hk, if_pos hm0]
        simp only [List.filterMap_cons, List.filterMap_nil, he, hs, Option.none_or, List.append_nil]
        exact ih
      · have hen : ensure r = some ⟨r.type, r.stateKey.getD "", if isChange r then r.membership else "_" ++ r.membership⟩ := by
          unfold ensure; simp only [if_pos hk, if_neg hm0]
        simp only [List.filterMap_cons, List.filterMap_nil, hen]
        rw [memberships_snoc, if_neg (by simp [hk.2]), Assoc.get_set]
        by_cases he : user = r.stateKey.getD ""
        · have hs : says user r = some r.membership := by
            cases hsk : r.stateKey with
            | none => rw [hsk] at he; exact absurd he hu
            | some q => rw [hsk] at he; simp only [Option.getD_some] at he; simp [says, hk.2, hm0, hsk, he]
          rw [if_pos he, hs]
          exact ⟨_, rfl, stored_invite r hr⟩
        · have hs : says user r = none := by
            simp only [says, ite_eq_right_iff]
            rintro ⟨_, h2, _⟩; exact absurd (by rw [h2]; rfl) he
          rw [if_neg he, hs, Option.none_or]; exact ih
    · have hs : says user r = none := by
        simp only [says, ite_eq_right_iff]
        rintro ⟨h1, h2, _⟩; exact absurd ⟨by rw [h2]; exact hu, h1⟩ hk
      have hen : ensure r = some ⟨r.type, r.stateKey.getD "", ""⟩ := by
        unfold ensure; simp only [if_neg hk]
      simp only [List.filterMap_cons, List.filterMap_nil, hen]
      rw [memberships_snoc, hs, Option.none_or]
      by_cases ht : r.type = "m.room.member"
      · have hk0 : r.stateKey.getD "" = "" := by
          by_cases h : r.stateKey.getD "" = ""
          · exact h
          · exact absurd ⟨h, ht⟩ hk
        rw [if_neg (by simp [ht]), Assoc.get_set, if_neg (by rw [hk0]; exact hu)]; exact ih
      · rw [if_pos (by simpa using ht)]; exact ih

theorem mem_toRemove (user : String) (hu : user ≠ "") (l : List Raw) (hm : ∀ r ∈ l, r.membership ≠ "_invite") :
    user ∈ toRemove (l.filterMap ensure) ↔ ∃ m, lastSaid user l = some m ∧ m ≠ "invite" := by
  have h := memberships_get user hu l hm
  simp only [toRemove, List.mem_map, List.mem_filter, Bool.and_eq_true, decide_eq_true_eq, ne_eq]
  constructor
  · rintro ⟨⟨k, v⟩, ⟨hmem, h1, h2⟩, rfl⟩
    rw [Assoc.get_of_mem (memberships_nodup _) hmem] at h
    obtain ⟨x, hx, hiff⟩ := h
    exact ⟨x, hx, fun he => by rcases hiff.2 he with h | h; exact h1 h; exact h2 h⟩
  · rintro ⟨m, hl, hne⟩
    cases hg : Assoc.get (memberships (l.filterMap ensure)) user with
    | none => rw [hg] at h; rw [h] at hl; cases hl
    | some v =>
      rw [hg] at h
      obtain ⟨x, hx, hiff⟩ := h
      rw [hl] at hx; cases hx
      refine ⟨(user, v), ⟨Assoc.get_mem hg, ?_, ?_⟩, rfl⟩
      · intro he; exact hne (hiff.1 (Or.inl he))
      · intro he; exact hne (hiff.1 (Or.inr he))

/-- The invite after a batch of events. -/
def afterEvents (user room' room : String) (evs : List Raw) (b : Option (List String)) : Option (List String) :=
  match lastSaid user evs with
  | some m => if room' = room ∧ m ≠ "invite" then none else b
  | none => b

/-- **C57.** After a batch of events of a room a stored invite of a user is still there, unchanged, exactly if
it is for another room, the user has no membership event in the batch, or the last one is an invite. -/
theorem C57_batch (t : Table) (room : String) (evs : List Raw) (hm : ∀ r ∈ evs, r.membership ≠ "_invite")
    (user room' : String) (hu : user ≠ "") :
    selectState (step t (.events room evs)) user room' = afterEvents user room' room evs (selectState t user room') := by
  have hiff := mem_toRemove user hu evs hm
  have key : selectState (step t (.events room evs)) user room' =
      if user ∈ toRemove (evs.filterMap ensure) ∧ room' = room then none else selectState t user room' := by
    show selectState (removeSuperseded t room _) user room' = _
    unfold removeSuperseded selectState
    split
    · rename_i h0
      have : toRemove (evs.filterMap ensure) = [] := List.length_eq_zero_iff.1 h0
      simp [this]
    · rw [Assoc.get_filter t (fun k => !(decide (k.1 ∈ toRemove (evs.filterMap ensure)) && decide (k.2 = room)))]
      by_cases h1 : user ∈ toRemove (evs.filterMap ensure) <;> by_cases h2 : room' = room <;> simp [h1, h2]
  rw [key]
  unfold afterEvents
  cases hl : lastSaid user evs with
  | none =>
    have : ¬ user ∈ toRemove (evs.filterMap ensure) := fun h => by
      obtain ⟨m, h1, _⟩ := hiff.1 h; rw [hl] at h1; cases h1
    simp [this]
  | some m =>
    have : user ∈ toRemove (evs.filterMap ensure) ↔ m ≠ "invite" := by
      rw [hiff, hl]; simp
    simp only [this, and_comm]

/-! ## Histories -/

/-- What an operation says about the invite of a user to a room: it is this, it is gone, or nothing. -/
inductive Says (user room : String) : Op → Option (List String) → Prop
  | invite (b) : Says user room (.invite user room b) (some b)
  | left : Says user room (.left user room) none
  | events (evs m) : lastSaid user evs = some m → m ≠ "invite" → Says user room (.events room evs) none

/-- The memberships are ones servers send. -/
def Ok : Op → Prop
  | .events _ evs => ∀ r ∈ evs, r.membership ≠ "_invite"
  | _ => True

theorem run_snoc (ops : List Op) (o : Op) : run (ops ++ [o]) = step (run ops) o := by
  unfold run; rw [List.foldl_append]; rfl

/-- One operation sets what it says and leaves the other invites. -/
theorem step_spec (t : Table) (o : Op) (ho : Ok o) (user room : String) (hu : user ≠ "") :
    (∃ v, Says user room o v ∧ selectState (step t o) user room = v) ∨
    ((∀ v, ¬ Says user room o v) ∧ selectState (step t o) user room = selectState t user room) := by
  cases o with
  | invite u r b =>
    by_cases h : (user, room) = (u, r)
    · cases h
      exact Or.inl ⟨some b, .invite b, by simp [step, insert, selectState, Assoc.get_set]⟩
    · refine Or.inr ⟨?_, by simp only [step, insert, selectState, Assoc.get_set, if_neg h]⟩
      intro v hv; cases hv; exact h rfl
  | left u r =>
    by_cases h : (user, room) = (u, r)
    · cases h
      exact Or.inl ⟨none, .left, by simp [step, remove, selectState, Assoc.get_del]⟩
    · refine Or.inr ⟨?_, by simp only [step, remove, selectState, Assoc.get_del, if_neg h]⟩
      intro v hv; cases hv; exact h rfl
  | events r evs =>
    rw [C57_batch t r evs ho user room hu]
    unfold afterEvents
    cases hl : lastSaid user evs with
    | none =>
      refine Or.inr ⟨?_, rfl⟩
      intro v hv
      cases hv with
      | events _ m h1 _ => rw [hl] at h1; cases h1
    | some m =>
      by_cases h : room = r ∧ m ≠ "invite"
      · refine Or.inl ⟨none, ?_, by simp only [if_pos h]⟩
        rw [← h.1]; exact .events evs m hl h.2
      · refine Or.inr ⟨?_, by simp only [if_neg h]⟩
        intro v hv
        cases hv with
        | events _ m' h1 h2 => rw [hl] at h1; cases h1; exact h ⟨rfl, h2⟩

/-- **C57.** At any time the invite of a user to a room is as the last operation that says something about it
says: stored by an invite, and gone after they left or their last membership in a batch was something else. -/
theorem C57_history (ops : List Op) (hok : ∀ o ∈ ops, Ok o) (user room : String) (hu : user ≠ "") (b : List String) :
    selectState (run ops) user room = some b ↔
      ∃ pre post, ops = pre ++ .invite user room b :: post ∧ ∀ o ∈ post, ∀ v, ¬ Says user room o v := by
  induction ops using Verif.Util.snocRec with
  | nil => simp [run, selectState, Assoc.get_nil]
  | append_singleton ops o ih =>
    have ih := ih fun x hx => hok x (by simp [hx])
    rw [run_snoc]
    rcases step_spec (run ops) o (hok o (by simp)) user room hu with ⟨v, hs, hv⟩ | ⟨hs, hv⟩
    · rw [hv]
      constructor
      · rintro rfl
        cases hs
        exact ⟨ops, [], rfl, by simp⟩
      · rintro ⟨pre, post, he, hp⟩
        rcases List.eq_nil_or_concat post with rfl | ⟨post', x, rfl⟩
        · have := List.append_inj' he rfl
          obtain ⟨_, h2⟩ := this
          cases h2
          cases hs; rfl
        · rw [List.concat_eq_append] at he hp
          have := List.append_inj' (s₁ := ops) (s₂ := pre ++ Op.invite user room b :: post') (t₁ := [o]) (t₂ := [x])
            (by simpa using he) rfl
          obtain ⟨_, h2⟩ := this
          cases h2
          exact absurd hs (hp _ (by simp) v)
    · rw [hv, ih]
      constructor
      · rintro ⟨pre, post, rfl, hp⟩
        refine ⟨pre, post ++ [o], by simp, ?_⟩
        intro x hx
        rcases List.mem_append.1 hx with hx | hx
        · exact hp x hx
        · rw [List.mem_singleton.1 hx]; exact hs
      · rintro ⟨pre, post, he, hp⟩
        rcases List.eq_nil_or_concat post with rfl | ⟨post', x, rfl⟩
        · obtain ⟨_, h2⟩ := List.append_inj' he rfl
          cases h2
          exact absurd (.invite b) (hs _)
        · rw [List.concat_eq_append] at he hp
          obtain ⟨h1, h2⟩ := List.append_inj' (s₁ := ops) (s₂ := pre ++ Op.invite user room b :: post') (t₁ := [o]) (t₂ := [x])
            (by simpa using he) rfl
          exact ⟨pre, post', h1, fun y hy => hp y (by simp [hy])⟩

/-- Reads list exactly the stored invites. -/
theorem C57_all (ops : List Op) (user room : String) (b : List String) :
    (room, b) ∈ selectAll (run ops) user ↔ selectState (run ops) user room = some b := by
  have hn : ((run ops).map (·.1)).Nodup := by
    induction ops using Verif.Util.snocRec with
    | nil => exact List.nodup_nil
    | append_singleton ops o ih =>
      rw [run_snoc]
      cases o with
      | invite u r b =>
        exact Assoc.nodup_set ih _ _
      | left u r => exact (List.filter_sublist.map _).nodup ih
      | events r evs =>
        show ((removeSuperseded _ _ _).map _).Nodup
        unfold removeSuperseded
        split
        · exact ih
        · exact (List.filter_sublist.map _).nodup ih
  generalize run ops = t at hn ⊢
  simp only [selectAll, selectState, List.mem_map, List.mem_filter, decide_eq_true_eq, Prod.mk.injEq]
  constructor
  · rintro ⟨⟨⟨u, r⟩, v⟩, ⟨hmem, rfl⟩, rfl, rfl⟩
    exact Assoc.get_of_mem hn hmem
  · intro h
    exact ⟨((user, room), b), ⟨Assoc.get_mem h, rfl⟩, rfl, rfl⟩

/-! A concrete case: invited, a profile change of the invite, then a join. -/

def exInvite : Op := .invite "@a" "!r" ["x"]
def exProfile : Raw := { type := "m.room.member", stateKey := some "@a", membership := "invite", prev := "invite" }
def exJoin : Raw := { type := "m.room.member", stateKey := some "@a", membership := "join", prev := "invite" }

example : selectState (run [exInvite, .events "!r" [exJoin, exProfile]]) "@a" "!r" = some ["x"] ∧
    selectState (run [exInvite, .events "!r" [exProfile, exJoin]]) "@a" "!r" = none ∧
    selectState (run [exInvite, .events "!s" [exProfile, exJoin]]) "@a" "!r" = some ["x"] ∧
    (∀ o ∈ [exInvite, Op.events "!r" [exProfile, exJoin]], Ok o) := by
  refine ⟨by decide, by decide, by decide, ?_⟩
  intro o ho
  simp only [List.mem_cons, List.not_mem_nil, or_false] at ho
  rcases ho with rfl | rfl
  · trivial
  · intro r hr
    simp only [List.mem_cons, List.not_mem_nil, or_false] at hr
    rcases hr with rfl | rfl <;> decide

end Verif.Invites
