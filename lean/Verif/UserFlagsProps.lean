import Verif.UserFlags
/-!
# C104: direct chats, tags and ignored users are those of the account data
-/
namespace Verif.UserFlags

/-! ## Specification -/

/-- The last account data of a room (`""`: global) and type that came. -/
def lastData (ops : List Op) (room type : String) : Option Content :=
  (ops.filterMap fun o => match o with
    | .data r t x => if r = room ∧ t = type then some x else none
    | _ => none).getLast?

/-- The user is invited to the room: whether directly, as the last invite says. -/
def invitedTo (ops : List Op) (room : String) : Option Bool :=
  ops.foldl (fun a o => match o with
    | .invite r d => if r = room then some d else a
    | .retire r => if r = room then none else a
    | _ => a) none

theorem lastData_snoc (ops : List Op) (o : Op) (room type : String) : lastData (ops ++ [o]) room type =
    match o with
    | .data r t x => if r = room ∧ t = type then some x else lastData ops room type
    | _ => lastData ops room type := by
  unfold lastData
  rw [List.filterMap_append]
  cases o with
  | data r t x =>
    by_cases h : r = room ∧ t = type
    · simp [h]
    · simp [h]
  | _ => simp

theorem invitedTo_snoc (ops : List Op) (o : Op) (room : String) : invitedTo (ops ++ [o]) room =
    match o with
    | .invite r d => if r = room then some d else invitedTo ops room
    | .retire r => if r = room then none else invitedTo ops room
    | _ => invitedTo ops room := by
  unfold invitedTo
  rw [List.foldl_append]
  rfl

theorem run_snoc (ops : List Op) (o : Op) : run (ops ++ [o]) = step (run ops) o := by
  unfold run; rw [List.foldl_append]; rfl

/-! ## The tables -/

theorem db_spec (ops : List Op) : ((run ops).db.map (·.1)).Nodup ∧ (∀ r t, Assoc.get (run ops).db (r, t) = lastData ops r t) ∧
    ((run ops).invites.map (·.1)).Nodup ∧ ∀ r, Assoc.get (run ops).invites r = invitedTo ops r := by
  induction ops using Verif.Util.snocRec with
  | nil => exact ⟨List.Pairwise.nil, fun _ _ => rfl, List.Pairwise.nil, fun _ => rfl⟩
  | append_singleton ops o ih =>
    obtain ⟨h1, h2, h3, h4⟩ := ih
    rw [run_snoc]
    cases o with
    | data r t x =>
      refine ⟨Assoc.nodup_set h1 _ _, fun r' t' => ?_, h3, fun r' => ?_⟩
      · rw [lastData_snoc]
        show Assoc.get (Assoc.set _ _ _) _ = _
        rw [Assoc.get_set, h2]
        simp only
        by_cases h : r = r' ∧ t = t'
        · rw [if_pos h, if_pos (by rw [h.1, h.2])]
        · rw [if_neg h, if_neg (fun he => h ⟨(Prod.mk.inj he).1.symm, (Prod.mk.inj he).2.symm⟩)]
      · rw [invitedTo_snoc]; exact h4 r'
    | invite r d =>
      refine ⟨h1, fun r' t' => ?_, Assoc.nodup_set h3 _ _, fun r' => ?_⟩
      · rw [lastData_snoc]; exact h2 r' t'
      · rw [invitedTo_snoc]
        show Assoc.get (Assoc.set _ _ _) _ = _
        rw [Assoc.get_set, h4]
        by_cases h : r = r'
        · simp [h]
        · simp [h, Ne.symm h]
    | retire r =>
      refine ⟨h1, fun r' t' => ?_, (List.filter_sublist.map _).nodup h3, fun r' => ?_⟩
      · rw [lastData_snoc]; exact h2 r' t'
      · rw [invitedTo_snoc]
        show Assoc.get (Assoc.del _ _) _ = _
        rw [Assoc.get_del, h4]
        by_cases h : r = r'
        · simp [h]
        · simp [h, Ne.symm h]
    | restart =>
      exact ⟨h1, fun r' t' => by rw [lastData_snoc]; exact h2 r' t', h3, fun r' => by rw [invitedTo_snoc]; exact h4 r'⟩

/-! ## Making the cache -/

theorem tagFold (l : List ((String × String) × Content)) (ht : ∀ e ∈ l, e.1.2 = "m.tag") (hn : (l.map (·.1)).Nodup) (c : Cache) (r : String) :
    (l.foldl (fun c e => onAccountData c e.1.1 e.1.2 e.2) c).tags r = ((Assoc.get l (r, "m.tag")).map (·.tags)).getD (c.tags r) ∧
    (l.foldl (fun c e => onAccountData c e.1.1 e.1.2 e.2) c).dm = c.dm ∧
    (l.foldl (fun c e => onAccountData c e.1.1 e.1.2 e.2) c).ignored = c.ignored := by
  induction l generalizing c with
  | nil => exact ⟨rfl, rfl, rfl⟩
  | cons e l ih =>
    obtain ⟨⟨r', t'⟩, x⟩ := e
    have ht' : t' = "m.tag" := ht _ List.mem_cons_self
    subst ht'
    simp only [List.map_cons, List.nodup_cons] at hn
    rw [List.foldl_cons]
    have hc : onAccountData c r' "m.tag" x = { c with tags := fun r => if r = r' then x.tags else c.tags r } := by
      unfold onAccountData
      rw [if_neg (by decide), if_pos rfl]
    obtain ⟨h1, h2, h3⟩ := ih (fun e he => ht e (List.mem_cons_of_mem _ he)) hn.2 (onAccountData c r' "m.tag" x)
    refine ⟨?_, h2.trans (by rw [hc]), h3.trans (by rw [hc])⟩
    rw [h1, hc]
    by_cases hr : r = r'
    · subst hr
      have hno : Assoc.get l (r, "m.tag") = none := by
        cases hg : Assoc.get l (r, "m.tag") with
        | none => rfl
        | some y => exact absurd (List.mem_map.2 ⟨_, Assoc.get_mem hg, rfl⟩) hn.1
      rw [hno]
      simp [Assoc.get]
    · have : Assoc.get (((r', "m.tag"), x) :: l) (r, "m.tag") = Assoc.get l (r, "m.tag") := by
        unfold Assoc.get
        rw [List.find?_cons_of_neg]
        simp [Ne.symm hr]
      rw [this]
      simp [hr]

theorem inviteFold (l : List (String × Bool)) (hn : (l.map (·.1)).Nodup) (c : Cache) (r : String) :
    (l.foldl (fun c e => onInvite c e.1 e.2) c).dm r = (Assoc.get l r).getD (c.dm r) ∧
    (l.foldl (fun c e => onInvite c e.1 e.2) c).tags = c.tags ∧ (l.foldl (fun c e => onInvite c e.1 e.2) c).ignored = c.ignored := by
  induction l generalizing c with
  | nil => exact ⟨rfl, rfl, rfl⟩
  | cons e l ih =>
    obtain ⟨r', d⟩ := e
    simp only [List.map_cons, List.nodup_cons] at hn
    rw [List.foldl_cons]
    obtain ⟨h1, h2, h3⟩ := ih hn.2 (onInvite c r' d)
    refine ⟨?_, h2, h3⟩
    rw [h1]
    by_cases hr : r = r'
    · subst hr
      have hno : Assoc.get l r = none := by
        cases hg : Assoc.get l r with
        | none => rfl
        | some y => exact absurd (List.mem_map.2 ⟨_, Assoc.get_mem hg, rfl⟩) hn.1
      rw [hno]
      simp [Assoc.get, onInvite]
    · have : Assoc.get ((r', d) :: l) r = Assoc.get l r := by
        unfold Assoc.get
        rw [List.find?_cons_of_neg]
        simp [Ne.symm hr]
      rw [this]
      simp [hr, onInvite]

def dmOf (o : Option Content) (r : String) : Bool := (o.map fun x => decide (r ∈ x.direct)).getD false
def tagsOf (o : Option Content) : List (String × Int) := (o.map (·.tags)).getD []
def ignoredOf (o : Option Content) : List String := (o.bind (·.ignored)).getD []

theorem loadCache_spec (ops : List Op) (r : String) :
    (loadCache (run ops)).dm r = (invitedTo ops r).getD (dmOf (lastData ops "" "m.direct") r) ∧
    (r ≠ "" → (loadCache (run ops)).tags r = tagsOf (lastData ops r "m.tag")) ∧
    (loadCache (run ops)).ignored = ignoredOf (lastData ops "" "m.ignored_user_list") := by
  obtain ⟨h1, h2, h3, h4⟩ := db_spec ops
  generalize run ops = s at *
  unfold loadCache
  simp only
  have hload : ∀ c, load s.db c "" "m.ignored_user_list" =
      { c with ignored := ((lastData ops "" "m.ignored_user_list").bind (·.ignored)).getD c.ignored } := by
    intro c
    unfold load
    rw [h2]
    cases lastData ops "" "m.ignored_user_list" with
    | none => rfl
    | some x => unfold onAccountData; cases hx : x.ignored <;> simp [hx]
  have hdirect : load s.db {} "" "m.direct" = { dm := dmOf (lastData ops "" "m.direct") } := by
    unfold load
    rw [h2]
    cases lastData ops "" "m.direct" with
    | none => rfl
    | some x => rfl
  rw [hload, hdirect]
  obtain ⟨t1, t2, t3⟩ := tagFold (tagRows s.db) (fun e he => by
    have := (List.mem_filter.1 he).2
    simp only [decide_eq_true_eq] at this
    exact this.1) ((List.filter_sublist.map _).nodup h1)
    { dm := dmOf (lastData ops "" "m.direct"), ignored := ((lastData ops "" "m.ignored_user_list").bind (·.ignored)).getD [] } r
  obtain ⟨i1, i2, i3⟩ := inviteFold s.invites h3 ((tagRows s.db).foldl (fun c e => onAccountData c e.1.1 e.1.2 e.2)
    { dm := dmOf (lastData ops "" "m.direct"), ignored := ((lastData ops "" "m.ignored_user_list").bind (·.ignored)).getD [] }) r
  refine ⟨?_, fun hr => ?_, ?_⟩
  · rw [i1, t2, h4]
  · rw [i2, t1]
    have hg : Assoc.get (tagRows s.db) (r, "m.tag") = lastData ops r "m.tag" := by
      have := Assoc.get_filter s.db (fun k => decide (k.2 = "m.tag" ∧ k.1 ≠ "")) (r, "m.tag")
      rw [if_pos (by simp [hr]), h2] at this
      exact this
    rw [hg]
    rfl
  · rw [i3, t3]; rfl

/-! ## Theorems -/

/-- **C104.** The tags of a room are those of the last `m.tag` of the room. -/
theorem C104_tags (ops : List Op) (room : String) (hr : room ≠ "") :
    (run ops).cache.tags room = ((lastData ops room "m.tag").map (·.tags)).getD [] := by
  induction ops using Verif.Util.snocRec with
  | nil => rfl
  | append_singleton ops o ih =>
    rw [run_snoc, lastData_snoc]
    cases o with
    | data r t x =>
      show (onAccountData (run ops).cache r t x).tags room = _
      by_cases ht : t = "m.tag"
      · subst ht
        have : (onAccountData (run ops).cache r "m.tag" x).tags room = if room = r then x.tags else (run ops).cache.tags room := by
          unfold onAccountData
          rw [if_neg (by decide), if_pos rfl]
        rw [this]
        by_cases hh : r = room
        · simp [hh]
        · simp [hh, Ne.symm hh, ih]
      · simp only [ht, and_false, if_false]
        rw [← ih]
        unfold onAccountData
        rw [if_neg ht]
        split
        · rfl
        · split
          · split
            · rfl
            · split <;> rfl
          · rfl
    | invite r d => exact ih
    | retire r => exact ih
    | restart => exact (loadCache_spec ops room).2.1 hr

/-- **C104.** The ignored users are those of the last global `m.ignored_user_list` – provided every one that came has an object of
users. -/
theorem C104_ignored_partial (ops : List Op) (hwf : ∀ x, .data "" "m.ignored_user_list" x ∈ ops → x.ignored.isSome = true) :
    (run ops).cache.ignored = ((lastData ops "" "m.ignored_user_list").bind (·.ignored)).getD [] := by
  induction ops using Verif.Util.snocRec with
  | nil => rfl
  | append_singleton ops o ih =>
    have ih := ih fun x hx => hwf x (List.mem_append_left _ hx)
    rw [run_snoc, lastData_snoc]
    cases o with
    | data r t x =>
      show (onAccountData (run ops).cache r t x).ignored = _
      by_cases ht : r = "" ∧ t = "m.ignored_user_list"
      · obtain ⟨rfl, rfl⟩ := ht
        obtain ⟨l, hl⟩ := Option.isSome_iff_exists.1 (hwf x (by simp))
        unfold onAccountData
        simp [hl]
      · simp only [if_neg ht]
        rw [← ih]
        unfold onAccountData
        split
        · rfl
        · split
          · rfl
          · split
            · rename_i h3
              rw [if_pos (fun h => ht ⟨h, h3⟩)]
            · rfl
    | invite r d => exact ih
    | retire r => exact ih
    | restart => exact (loadCache_spec ops "").2.2

/-- **C104.** A room is a direct chat if it is listed in the last global `m.direct` – provided the user was never invited to it while
the proxy was watching, and no `m.direct` came for a room. -/
theorem C104_direct_partial (ops : List Op) (room : String) (hi : ∀ d, .invite room d ∉ ops) (hg : ∀ r x, .data r "m.direct" x ∈ ops → r = "") :
    (run ops).cache.dm room = true ↔ ∃ x, lastData ops "" "m.direct" = some x ∧ room ∈ x.direct := by
  have key : (run ops).cache.dm room = dmOf (lastData ops "" "m.direct") room ∧ invitedTo ops room = none := by
    induction ops using Verif.Util.snocRec with
    | nil => exact ⟨rfl, rfl⟩
    | append_singleton ops o ih =>
      have ih := ih (fun d hd => hi d (List.mem_append_left _ hd)) fun r x hx => hg r x (List.mem_append_left _ hx)
      rw [run_snoc, lastData_snoc, invitedTo_snoc]
      cases o with
      | data r t x =>
        refine ⟨?_, ih.2⟩
        show (onAccountData (run ops).cache r t x).dm room = _
        by_cases ht : t = "m.direct"
        · subst ht
          have := hg r x (by simp)
          subst this
          simp only [and_self, if_true]
          rfl
        · simp only [ht, and_false, if_false]
          rw [← ih.1]
          unfold onAccountData
          rw [if_neg ht]
          split
          · rfl
          · split
            · split
              · rfl
              · split <;> rfl
            · rfl
      | invite r d =>
        have hr : r ≠ room := fun h => hi d (by simp [h])
        refine ⟨?_, ?_⟩
        · show (if room = r then d else (run ops).cache.dm room) = _
          rw [if_neg (Ne.symm hr)]; exact ih.1
        · simp only [if_neg hr]; exact ih.2
      | retire r => exact ⟨ih.1, by simp only; split <;> first | rfl | exact ih.2⟩
      | restart =>
        refine ⟨?_, ih.2⟩
        have := (loadCache_spec ops room).1
        rw [ih.2] at this
        exact this
  rw [key.1]
  unfold dmOf
  cases lastData ops "" "m.direct" with
  | none => simp
  | some x => simp

/-- **C104.** A room the user is invited to is a direct chat as the invite says, also after restarts – as long as no `m.direct` comes. -/
theorem C104_invited_partial (pre post : List Op) (room : String) (d : Bool) (hr : ∀ o ∈ post, o ≠ .retire room ∧ (∀ d', o ≠ .invite room d') ∧
    ∀ r x, o ≠ .data r "m.direct" x) : (run (pre ++ [.invite room d] ++ post)).cache.dm room = d := by
  have key : (run (pre ++ [.invite room d] ++ post)).cache.dm room = d ∧ invitedTo (pre ++ [.invite room d] ++ post) room = some d := by
    induction post using Verif.Util.snocRec with
    | nil =>
      rw [List.append_nil, run_snoc, invitedTo_snoc]
      refine ⟨?_, by simp⟩
      show (if room = room then d else _) = d
      rw [if_pos rfl]
    | append_singleton post o ih =>
      have ih := ih fun o ho => hr o (List.mem_append_left _ ho)
      obtain ⟨h1, h2, h3⟩ := hr o (by simp)
      rw [← List.append_assoc, run_snoc, invitedTo_snoc]
      generalize pre ++ [Op.invite room d] ++ post = ops at *
      cases o with
      | data r t x =>
        refine ⟨?_, ih.2⟩
        show (onAccountData (run ops).cache r t x).dm room = d
        rw [← ih.1]
        unfold onAccountData
        rw [if_neg (fun h => h3 r x (by rw [h]))]
        split
        · rfl
        · split
          · split
            · rfl
            · split <;> rfl
          · rfl
      | invite r e =>
        have hne : r ≠ room := fun h => h2 e (by rw [h])
        refine ⟨?_, by simp only [if_neg hne]; exact ih.2⟩
        show (if room = r then e else (run ops).cache.dm room) = d
        rw [if_neg (Ne.symm hne)]; exact ih.1
      | retire r =>
        have hne : r ≠ room := fun h => h1 (by rw [h])
        exact ⟨ih.1, by simp only [if_neg hne]; exact ih.2⟩
      | restart =>
        refine ⟨?_, ih.2⟩
        have := (loadCache_spec ops room).1
        rw [ih.2] at this
        exact this
  exact key.1

/-- Non-vacuity: a restart in the middle, tags and direct chats changed before and after. -/
def exOps : List Op :=
  [.data "" "m.direct" { direct := ["!a", "!b"] }, .data "!a" "m.tag" { tags := [("m.favourite", 1)] }, .restart,
   .data "" "m.direct" { direct := ["!b"] }, .data "" "m.ignored_user_list" { ignored := some ["@x"] }, .restart]

example : (run exOps).cache.dm "!a" = false ∧ (run exOps).cache.dm "!b" = true ∧ (run exOps).cache.tags "!a" = [("m.favourite", 1)] ∧
    (run exOps).cache.ignored = ["@x"] ∧ (∀ d, .invite "!b" d ∉ exOps) := by
  refine ⟨by decide +kernel, by decide +kernel, by decide +kernel, by decide +kernel, ?_⟩
  intro d h
  simp [exOps] at h

/-- **C104 fails when the user accepts a direct invite**: without `m.direct` the room is a direct chat until the cache is made anew. -/
theorem C104_violated_join : (run [.invite "!r" true, .retire "!r"]).cache.dm "!r" = true ∧
    (run [.invite "!r" true, .retire "!r", .restart]).cache.dm "!r" = false := by decide +kernel

/-- **C104 fails for an invite the user marks as direct**: when the cache is made anew, the invite overrides `m.direct`. -/
theorem C104_violated_restart :
    (run [.invite "!r" false, .data "" "m.direct" { direct := ["!r"] }]).cache.dm "!r" = true ∧
    (run [.invite "!r" false, .data "" "m.direct" { direct := ["!r"] }, .restart]).cache.dm "!r" = false := by decide +kernel

/-- **C104 fails for `m.direct` in the account data of a room**: it replaces the direct chats of the user until the cache is made
anew. -/
theorem C104_violated_scope :
    (run [.data "" "m.direct" { direct := ["!r"] }, .data "!x" "m.direct" {}]).cache.dm "!r" = false ∧
    lastData [.data "" "m.direct" { direct := ["!r"] }, .data "!x" "m.direct" {}] "" "m.direct" = some { direct := ["!r"] } := by decide +kernel

/-- **C104 fails for a malformed list of ignored users**: the last list stays in force, but only until the cache is made anew. -/
theorem C104_violated_malformed :
    (run [.data "" "m.ignored_user_list" { ignored := some ["@x"] }, .data "" "m.ignored_user_list" {}]).cache.ignored = ["@x"] ∧
    (run [.data "" "m.ignored_user_list" { ignored := some ["@x"] }, .data "" "m.ignored_user_list" {}, .restart]).cache.ignored = [] := by decide +kernel

end Verif.UserFlags
