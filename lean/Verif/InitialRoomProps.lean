import Verif.InitialRoom
import Verif.LeavingExamples
/-! # C85: rooms that come into view do not show what the user may not see -/
namespace Verif.InitialRoom
open Verif
open Verif.RoomName (Meta Hero removeHero)

/-! ## Invites -/

/-- Independence of the current room, for any value `f` that could be read. -/
def Independent {α : Type} (f : World → α) : Prop := ∀ w w', f w = f w'

/-- C85 for invites: nothing of the current room is in what is sent for an invite, apart from the timeline the user may see
anyway. -/
theorem C85_invite (nm : Meta → String × Bool) (user : String) (urd : Urd) (lm : Option ListsMeta) (bump : List String)
    (heroes : Bool) (v : Visible) (h : urd.isInvite = true) : Independent (getInitial nm user urd lm bump heroes v) := by
  intro w w'
  simp [getInitial, h]

/-- What is sent for an invite: its state, and the metadata in it. -/
theorem C85_invite_content (nm : Meta → String × Bool) (user : String) (urd : Urd) (lm : Option ListsMeta) (bump : List String)
    (heroes : Bool) (v : Visible) (w : World) (r : Room) (h : urd.isInvite = true)
    (hr : getInitial nm user urd lm bump heroes v w = some r) :
    ∃ i, urd.invite = some i ∧ r.inviteState = some i.inviteState ∧ r.requiredState = none ∧ r.joined = 1 ∧ r.invited = 1 ∧
      r.name = (nm { i.meta with heroes := removeHero i.heroes user }).1 ∧ ∀ x ∈ r.heroes, x ∈ i.heroes := by
  unfold getInitial at hr
  simp only [h, if_true] at hr
  cases hi : urd.invite with
  | none => rw [hi] at hr; simp at hr
  | some i =>
    rw [hi] at hr
    simp only [Option.map_some] at hr
    split at hr
    · rename_i m0 st ts he _
      cases he
      cases hr
      refine ⟨i, rfl, rfl, rfl, rfl, rfl, rfl, ?_⟩
      intro x hx
      simp only at hx
      split at hx
      · have sub : ∀ (l : List Hero), ∀ y ∈ removeHero l user, y ∈ l := by
          intro l
          induction l with
          | nil => intro y hy; exact hy
          | cons a l ih =>
            intro y hy
            unfold removeHero at hy
            split at hy
            · exact List.mem_cons_of_mem _ hy
            · rcases List.mem_cons.1 hy with rfl | hy
              · exact List.mem_cons_self
              · exact List.mem_cons_of_mem _ (ih y hy)
        exact sub _ x hx
      · cases hx
    · cases hr

/-- Heroes are sent if the client asked for them and the name was made from them; they are then all those of the metadata,
the user excepted. -/
theorem C85_heroes (nm : Meta → String × Bool) (user : String) (urd : Urd) (lm : Option ListsMeta) (bump : List String)
    (heroes : Bool) (v : Visible) (w : World) (r : Room) (h : urd.isInvite = false)
    (hr : getInitial nm user urd lm bump heroes v w = some r) :
    (r.heroes ≠ [] → heroes = true ∧ (nm { w.room with heroes := removeHero w.room.heroes user }).2 = true) ∧
    (heroes = true → (nm { w.room with heroes := removeHero w.room.heroes user }).2 = true →
      r.heroes = removeHero w.room.heroes user) := by
  unfold getInitial at hr
  simp only [h, Bool.false_eq_true, if_false] at hr
  split at hr
  · rename_i m0 st ts he _
    cases he
    cases hr
    refine ⟨fun hne => ?_, fun h1 h2 => by simp only [h1, h2, Bool.and_self, if_true]⟩
    simp only at hne
    split at hne
    · rename_i hc; simpa using hc
    · exact absurd rfl hne
  · cases hr

/-- A room whose name is made from its heroes, with and without being asked for them. -/
example : ((getInitial (fun m => (m.nameEvent, true)) "@u" {} (some ⟨fun _ => 5, 3, 9⟩) [] true ⟨[], ""⟩
      ⟨{ roomID := "!a", heroes := [{ id := "@u" }, { id := "@v" }] }, []⟩).map (·.heroes) = some [{ id := "@v" }]) ∧
    ((getInitial (fun m => (m.nameEvent, true)) "@u" {} (some ⟨fun _ => 5, 3, 9⟩) [] false ⟨[], ""⟩
      ⟨{ roomID := "!a", heroes := [{ id := "@u" }, { id := "@v" }] }, []⟩).map (·.heroes) = some []) := by decide +kernel

/-! ## No panic -/

/-- The flag is never set without the invite. -/
def UInv (u : Urd) : Prop := u.isInvite = true → u.invite.isSome = true

theorem ustep_inv {u : Urd} (h : UInv u) (o : UOp) : UInv (ustep u o) := by
  cases o with
  | event own =>
    cases own with
    | none => exact h
    | some m =>
      unfold ustep
      simp only
      split
      · split
        · exact h
        · intro hc; cases hc
      · exact h
  | invite i dm =>
    cases i with
    | none => exact h
    | some i => intro _; rfl
  | left => intro hc; cases hc
  | counts n hh => exact h

theorem maxBump_none (bump : List String) (m : Nat) : maxBump none bump m = m := by
  cases bump <;> rfl

theorem timestamp_some (lm : Option ListsMeta) (bump : List String) : ∃ t, timestamp lm bump = some t := by
  unfold timestamp
  cases lm with
  | none => simp only [maxBump_none]; exact ⟨0, rfl⟩
  | some l => simp only; split <;> exact ⟨_, rfl⟩

/-- C85: building the data of a room never panics, whatever the user cache was told before and whether or not the lists know
the room. -/
theorem C85_no_panic (nm : Meta → String × Bool) (user : String) (ops : List UOp) (lm : Option ListsMeta) (bump : List String)
    (heroes : Bool) (v : Visible) (w : World) : (getInitial nm user (ops.foldl ustep {}) lm bump heroes v w).isSome = true := by
  have inv : ∀ (ops : List UOp) (u : Urd), UInv u → UInv (ops.foldl ustep u) := by
    intro ops
    induction ops with
    | nil => exact fun u h => h
    | cons o os ih => exact fun u h => ih _ (ustep_inv h o)
  have hu := inv ops {} (fun h => by cases h)
  generalize ops.foldl ustep {} = u at hu
  obtain ⟨t, ht⟩ := timestamp_some lm bump
  unfold getInitial
  simp only [ht]
  cases hi : u.isInvite with
  | false => simp
  | true =>
    have := hu hi
    cases hv : u.invite with
    | none => rw [hv] at this; cases this
    | some i => simp

/-! ## Which invite is shown -/

/-- The user answers an invite, or it is gone: they are joined, leave, or a member event of another kind is seen. -/
def Over : UOp → Prop
  | .event (some m) => m ≠ "invite"
  | .left => True
  | .invite (some _) _ => True
  | _ => False

theorem ustep_over {u : Urd} {o : UOp} {i : Invite} :
    (ustep u o).isInvite = true ∧ (ustep u o).invite = some i ↔
      (∃ dm, o = .invite (some i) dm) ∨ (¬ Over o ∧ u.isInvite = true ∧ u.invite = some i) := by
  cases o with
  | event own =>
    cases own with
    | none => simp [ustep, Over]
    | some m =>
      by_cases hu : u.isInvite = true
      · by_cases hm : m = "invite"
        · simp [ustep, Over, hu, hm]
        · simp [ustep, Over, hu, hm]
      · simp [ustep, Over, hu]
  | invite j dm =>
    cases j with
    | none => simp [ustep, Over]
    | some j => simp [ustep, Over]
  | left => simp [ustep, Over]
  | counts n h => simp [ustep, Over]

/-- A room is shown as an invite exactly while the invite is pending: the invite shown is the last one the user cache was told of, and
since then the user neither left nor had another member event. -/
theorem C85_pending (ops : List UOp) (i : Invite) :
    ((ops.foldl ustep {}).isInvite = true ∧ (ops.foldl ustep {}).invite = some i) ↔
      ∃ pre dm post, ops = pre ++ .invite (some i) dm :: post ∧ ∀ o ∈ post, ¬ Over o := by
  induction ops using Util.snocRec with
  | nil =>
    constructor
    · rintro ⟨h, _⟩; cases h
    · rintro ⟨pre, dm, post, h, _⟩; cases pre <;> cases h
  | append_singleton ops o ih =>
    rw [List.foldl_append, List.foldl_cons, List.foldl_nil, ustep_over, ih]
    constructor
    · rintro (⟨dm, rfl⟩ | ⟨ho, pre, dm, post, rfl, hp⟩)
      · exact ⟨ops, dm, [], rfl, fun _ h => by cases h⟩
      · refine ⟨pre, dm, post ++ [o], by simp, fun x hx => ?_⟩
        rcases List.mem_append.1 hx with hx | hx
        · exact hp x hx
        · rw [List.mem_singleton.1 hx]; exact ho
    · rintro ⟨pre, dm, post, h, hp⟩
      rcases List.eq_nil_or_concat post with rfl | ⟨post, x, rfl⟩
      · obtain ⟨h1, h2⟩ := List.append_inj' h rfl
        cases h2
        exact Or.inl ⟨dm, rfl⟩
      · rw [List.concat_eq_append, ← List.cons_append, ← List.append_assoc] at h
        obtain ⟨h1, h2⟩ := List.append_inj' h rfl
        cases h2
        exact Or.inr ⟨hp o (by simp), pre, dm, post, h1, fun y hy => hp y (by simp [hy])⟩

/-- An invite, counts, and the invite event itself: still shown. A join: no longer. -/
example : ∃ i : Invite, ([UOp.invite (some i) false, .counts 1 1, .event (some "invite")].foldl ustep {}).isInvite = true ∧
    ([UOp.invite (some i) false, .counts 1 1, .event (some "join")].foldl ustep {}).isInvite = false :=
  ⟨⟨"!r", [], [], "", "", ""⟩, rfl, rfl⟩

/-! ## Timestamps -/

theorem maxBump_some (l : ListsMeta) (bump : List String) (m : Nat) :
    maxBump (some l) bump m = bump.foldl (fun a t => max a (l.latest t)) m := by
  induction bump generalizing m with
  | nil => rfl
  | cons t ts ih =>
    show maxBump (some l) ts _ = _
    rw [ih, List.foldl_cons]
    congr 1
    split <;> omega

/-- C85, timestamps: with bump event types the timestamp is the greatest of those of the latest events of these types and of
the join, so it never is from before the join; without, it is that of the last message. -/
theorem C85_timestamp (l : ListsMeta) (bump : List String) :
    timestamp (some l) bump = some (if bump = [] then l.lastMsg else bump.foldl (fun a t => max a (l.latest t)) l.joinTs) := by
  have hmax : ∀ (ts : List String) (a b : Nat), ts.foldl (fun a t => max a (l.latest t)) (max a b) =
      max (ts.foldl (fun a t => max a (l.latest t)) a) b := by
    intro ts
    induction ts with
    | nil => intro a b; rfl
    | cons t ts ih =>
      intro a b
      simp only [List.foldl_cons]
      rw [← ih]
      congr 1
      omega
  unfold timestamp
  simp only
  rw [maxBump_some]
  cases bump with
  | nil => simp
  | cons t ts =>
    have h1 := hmax (t :: ts) 0 l.joinTs
    rw [Nat.zero_max] at h1
    rw [h1]
    split
    · rename_i h
      simp only [reduceCtorEq, if_false]
      congr 1
      omega
    · rename_i h
      simp only [reduceCtorEq, if_false]
      congr 1
      omega

/-! ## Rooms the user is not in -/

/-- C85, partial: over the histories of `Leaving.C83_listed_partial` (users leave by kicks or unseen rejections, and join again
only after an invite), what a window shows of a room depends on the current room only while the user is joined to it.
Missing: the other histories, for which the current room is shown to users who left or were banned, see the violations. -/
theorem C85_private_partial (S : Lists.Strs) {s0 s : Leaving.State} {k : String} (h0 : Leaving.Start s0 k) (hs : List Leaving.Hap)
    (hok : ∀ a h b, hs = a ++ h :: b → Leaving.OkHap a h ∧ ∀ o ∈ h.ops, Leaving.OkOp k o)
    (hrun : Leaving.run S s0 (hs.flatMap Leaving.Hap.ops) = some s) (room : String)
    (hst : Leaving.status room hs .never ≠ .joined)
    (nm : Meta → String × Bool) (user : String) (urd : Urd) (lm : Option ListsMeta) (bump : List String) (heroes : Bool) (v : Visible) :
    Independent (shown nm user s k room urd lm bump heroes v) := by
  intro w w'
  obtain ⟨hg, hk, hr⟩ := Leaving.run_right S h0 hs hok hrun
  unfold shown
  split
  · rfl
  · rename_i l hl
    split
    · rename_i hm
      have hlisted : Leaving.Listed s k room := ⟨l, hl, hm⟩
      rcases (hr room).listed.1 hlisted with h | h
      · exact absurd h hst
      · have hi : (s.urd room).isInvite = true := by rw [(hr room).inv, h]; rfl
        congr 1
        exact C85_invite nm user _ lm bump heroes v hi w w'
    · rfl

/-- The room after the user is gone. -/
def later : World := ⟨{ roomID := "!a", nameEvent := "secret plans" }, ["name: secret plans"]⟩

/-- An invite, and what is sent for it. -/
example : (getInitial (fun m => (m.nameEvent, true)) "@u"
    ([.invite (some { roomID := "!a", inviteState := ["i"], heroes := [{ id := "@v" }], nameEvent := "tea" }) true].foldl ustep {})
    (some ⟨fun _ => 5, 3, 9⟩) ["m.room.message"] true ⟨[], ""⟩ later).map (fun r => (r.name, r.inviteState, r.timestamp, r.heroes)) =
    some ("tea", some ["i"], 5, [{ id := "@v" }]) := by decide +kernel

end Verif.InitialRoom
