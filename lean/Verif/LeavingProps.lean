import Verif.Leaving
import Verif.ListsProps
/-! # C83: a list without filters shows the rooms the user is in -/
namespace Verif.Leaving
open Verif
variable (S : Lists.Strs)

/-! ## Specification -/

/-- What happens to the user, as in the sync responses of the homeserver. -/
inductive Hap
  | joins (u : Up)
  /-- the user leaves the room, or rejects the invite: the timeline of the `leave` section, then `OnLeftRoom` -/
  | leaves (u u' : Up)
  /-- someone else removes the user or takes the invite back -/
  | kicked (u u' : Up)
  /-- a ban in a timeline -/
  | banned (u : Up)
  | invited (u : Up)
  /-- the invite also shows up in the timeline another member gets -/
  | inviteSeen (u : Up)
  | message (u : Up)
  | quiet (u : Up)
  | request (o : Lists.Op)

/-- What it makes the code do. -/
def Hap.ops : Hap → List Op
  | .joins u => [.event (some .join) u]
  | .leaves u u' => [.event (some .leave) u, .leftRoom false u']
  | .kicked u u' => [.event (some .leave) u, .leftRoom true u']
  | .banned u => [.event (some .ban) u]
  | .invited u => [.invite u]
  | .inviteSeen u => [.event (some .invite) u]
  | .message u => [.event none u]
  | .quiet u => [.quiet u]
  | .request o => [.list o]

inductive Status
  | never | joined | invited | out
  deriving DecidableEq

/-- Where the user is in a room. -/
def status (room : String) : List Hap → Status → Status
  | [], st => st
  | h :: hs, st => status room hs <| match h with
    | .joins u => if u.r.id = room then .joined else st
    | .leaves u _ | .kicked u _ | .banned u => if u.r.id = room then .out else st
    | .invited u => if u.r.id = room then .invited else st
    | _ => st

/-- The invite of the user to the room was also seen in a timeline. -/
def seen (room : String) : List Hap → Bool → Bool
  | [], b => b
  | h :: hs, b => seen room hs <| match h with
    | .joins u | .leaves u _ | .kicked u _ | .banned u => if u.r.id = room then false else b
    | .inviteSeen u => if u.r.id = room then true else b
    | _ => b

/-- The last of `OnLeftRoom` and `OnInvite` for the room was `OnLeftRoom`. -/
def leftSince (room : String) : List Op → Bool → Bool
  | [], b => b
  | o :: os, b => leftSince room os <| match o with
    | .leftRoom _ u => if u.r.id = room then true else b
    | .invite u => if u.r.id = room then false else b
    | _ => b

/-- The room of an update has not been replaced, so that every filterless list has it. -/
def Up.current (u : Up) : Prop := u.r.f.upgraded = none

/-- The list `k` is there, and has no filters. -/
def Unfiltered (s : State) (k : String) : Prop := ∃ l, Lists.getList s.lists k = some l ∧ l.filter = {}

/-- The list `k` shows the room. -/
def Listed (s : State) (k room : String) : Prop := ∃ l, Lists.getList s.lists k = some l ∧ room ∈ l.sr.ids

/-- Requests keep the list, and nothing else happens to the lists. -/
def KeepsList (k : String) : Lists.Op → Prop
  | .update _ _ => False
  | .assign k' f so ow perm => (k' ≠ k ∨ ow = false) ∧ Lists.Good (.assign k' f so ow perm)
  | .sort _ _ => True
  | .delete k' => k' ≠ k
  | .touch _ _ => True

/-- What may happen to the list `k` in a history of operations. -/
def OkOp (k : String) : Op → Prop
  | .event _ u | .leftRoom _ u | .invite u | .quiet u => u.current
  | .list o => KeepsList k o

/-- The histories for which the list is right. -/
def OkHap (before : List Hap) : Hap → Prop
  -- not while the last leave has not been followed by an invite
  | .joins u => status u.r.id before .never ≠ .out
  -- only invites that were not also seen in a timeline
  | .leaves u u' => u.r.id = u'.r.id ∧ status u.r.id before .never = .invited ∧ seen u.r.id before false = false
  | .kicked u u' => u.r.id = u'.r.id
  | .banned _ => False
  | .invited u => status u.r.id before .never ≠ .joined
  | .inviteSeen _ => True
  | .message _ => True
  | .quiet u => status u.r.id before .never ≠ .never
  | .request _ => True

/-! ## The lists -/

theorem incl_plain (all : String → Option Lists.Room) (r : Lists.Room) (h : r.f.upgraded = none) :
    Lists.incl S all {} r = true := by
  simp [Lists.incl, Filters.incl, Filters.superseded, h, Filters.flagRejects, Filters.nullableStringExists]

theorem emit_spec {s s' : State} {u : Up} {k : String} (hg : Lists.GInv s.lists) (hu : u.current) (hk : Unfiltered s k)
    (h : emit S s u = some s') :
    Lists.GInv s'.lists ∧ Unfiltered s' k ∧ s'.joined = s.joined ∧ s'.invited = s.invited ∧ s'.urd = s.urd ∧
      (∀ room, Listed s' k room ↔ if room = u.r.id then (s.urd room).hasLeft = false else Listed s k room) := by
  unfold emit at h
  obtain ⟨l, hl, rfl⟩ := Option.map_eq_some_iff.1 h
  obtain ⟨l0, hk0, hf0⟩ := hk
  obtain ⟨hg', -, -, hsp⟩ := Lists.update_spec S hg hl
  obtain ⟨l1, hk1, hf1, hm⟩ := hsp k l0 hk0
  refine ⟨hg', ⟨l1, hk1, hf1.trans hf0⟩, rfl, rfl, rfl, fun room => ?_⟩
  have hmf : (Lists.mergeRoom s.lists (dataOf s.urd u.r)).f = (dataOf s.urd u.r).f := by
    unfold Lists.mergeRoom; split <;> rfl
  have hin : Lists.incl S l.all l0.filter (Lists.mergeRoom s.lists (dataOf s.urd u.r)) = true := by
    rw [hf0]
    exact incl_plain S _ _ (by rw [hmf]; exact hu)
  have hd : (dataOf s.urd u.r).id = u.r.id := rfl
  have key : Listed { s with lists := l } k room ↔ room ∈ l1.sr.ids := by
    constructor
    · rintro ⟨l2, h2, h3⟩; rw [hk1] at h2; cases h2; exact h3
    · exact fun h => ⟨l1, hk1, h⟩
  rw [key, hm room, hd]
  by_cases e : room = u.r.id
  · rw [if_pos e, if_pos e, e]
    exact ⟨fun h => h.2, fun h => ⟨hin, h⟩⟩
  · rw [if_neg e, if_neg e]
    constructor
    · exact fun h => ⟨l0, hk0, h⟩
    · rintro ⟨l2, h2, h3⟩; rw [hk0] at h2; cases h2; exact h3

theorem list_spec {s s' : State} {o : Lists.Op} {k : String} (hg : Lists.GInv s.lists) (ho : KeepsList k o)
    (hk : Unfiltered s k) (h : step S s (.list o) = some s') :
    Lists.GInv s'.lists ∧ Unfiltered s' k ∧ s'.joined = s.joined ∧ s'.invited = s.invited ∧ s'.urd = s.urd ∧
      (∀ room, Listed s' k room ↔ Listed s k room) := by
  unfold step at h
  obtain ⟨l, hl, rfl⟩ := Option.map_eq_some_iff.1 h
  obtain ⟨l0, hk0, hf0⟩ := hk
  have hgood : Lists.Good o := by
    cases o with
    | assign => exact ho.2
    | _ => trivial
  have hleaves : ∀ room, Lists.Leaves k room o := by
    intro room
    cases o with
    | update => exact ho.elim
    | assign => exact ho.1
    | sort => trivial
    | delete => exact ho
    | touch => trivial
  obtain ⟨l1, hk1, hf1, -⟩ := Lists.leaves_step S hg hgood hl (hleaves "") hk0
  refine ⟨Lists.step_inv S hg hgood hl, ⟨l1, hk1, hf1.trans hf0⟩, rfl, rfl, rfl, fun room => ?_⟩
  obtain ⟨l2, hk2, -, hm⟩ := Lists.leaves_step S hg hgood hl (hleaves room) hk0
  constructor
  · rintro ⟨l3, h3, h4⟩
    rw [hk2] at h3; cases h3
    exact ⟨l0, hk0, hm.1 h4⟩
  · rintro ⟨l3, h3, h4⟩
    rw [hk0] at h3; cases h3
    exact ⟨l2, hk2, hm.2 h4⟩

/-! ## Single operations -/

theorem put_self {α : Type} (f : String → α) (k : String) (v : α) : put f k v k = v := by simp [put]

theorem put_ne {α : Type} (f : String → α) (k : String) (v : α) {x : String} (h : x ≠ k) : put f k v x = f x := by
  simp [put, h]

/-- Whether the user gets an event. -/
def gets (s : State) (own : Option Membership) (room : String) : Bool :=
  let t := track (s.joined room) (s.invited room) own
  t.1 || t.2.2

theorem onEvent_left (a : Urd) (own : Option Membership) : (onEvent a own).hasLeft = a.hasLeft := by
  unfold onEvent; split <;> rfl

theorem event_spec {s s' : State} {own : Option Membership} {u : Up} {k : String} (hg : Lists.GInv s.lists) (hu : u.current)
    (hk : Unfiltered s k) (h : step S s (.event own u) = some s') :
    Lists.GInv s'.lists ∧ Unfiltered s' k ∧
      s'.joined = put s.joined u.r.id (track (s.joined u.r.id) (s.invited u.r.id) own).1 ∧
      s'.invited = put s.invited u.r.id (track (s.joined u.r.id) (s.invited u.r.id) own).2.1 ∧
      s'.urd = (if gets s own u.r.id = true then put s.urd u.r.id (onEvent (s.urd u.r.id) own) else s.urd) ∧
      (∀ room, Listed s' k room ↔ if room = u.r.id ∧ gets s own room = true then (s.urd room).hasLeft = false else Listed s k room) := by
  unfold step at h
  simp only at h
  by_cases c : gets s own u.r.id = true
  · have c' := c
    unfold gets at c'
    simp only at c'
    rw [if_pos c'] at h
    obtain ⟨a1, a2, a3, a4, a5, a6⟩ := emit_spec S (k := k) (by exact hg) hu (by exact hk) h
    refine ⟨a1, a2, a3, a4, by rw [a5, if_pos c], fun room => ?_⟩
    rw [a6 room]
    by_cases e : room = u.r.id
    · rw [if_pos e, if_pos ⟨e, e ▸ c⟩, e]
      simp only [put_self, onEvent_left]
    · rw [if_neg e, if_neg (fun x => e x.1)]
      exact Iff.rfl
  · have c' := c
    unfold gets at c'
    simp only at c'
    rw [if_neg c'] at h
    cases h
    refine ⟨hg, hk, rfl, rfl, by rw [if_neg c], fun room => ?_⟩
    rw [if_neg]
    · exact Iff.rfl
    · rintro ⟨rfl, h⟩; exact c h

theorem left_spec {s s' : State} {kick : Bool} {u : Up} {k : String} (hg : Lists.GInv s.lists) (hu : u.current)
    (hk : Unfiltered s k) (h : step S s (.leftRoom kick u) = some s') :
    Lists.GInv s'.lists ∧ Unfiltered s' k ∧ s'.joined = s.joined ∧ s'.invited = s.invited ∧
      s'.urd = put s.urd u.r.id { isInvite := false, hasLeft := true } ∧
      (∀ room, Listed s' k room ↔ if room = u.r.id ∧ (kick = true ∨ (s.urd room).isInvite = true) then False else Listed s k room) := by
  unfold step at h
  simp only at h
  by_cases c : ((s.urd u.r.id).isInvite || kick) = true
  · rw [if_pos c] at h
    obtain ⟨a1, a2, a3, a4, a5, a6⟩ := emit_spec S (k := k) (by exact hg) hu (by exact hk) h
    refine ⟨a1, a2, a3, a4, a5, fun room => ?_⟩
    rw [a6 room]
    by_cases e : room = u.r.id
    · have c2 : kick = true ∨ (s.urd room).isInvite = true := by
        rw [e]; simpa [or_comm] using c
      rw [if_pos e, if_pos ⟨e, c2⟩, e]
      simp only [put_self]
      simp
    · rw [if_neg e, if_neg (fun x => e x.1)]
      exact Iff.rfl
  · rw [if_neg c] at h
    cases h
    refine ⟨hg, hk, rfl, rfl, rfl, fun room => ?_⟩
    rw [if_neg]
    · exact Iff.rfl
    · rintro ⟨rfl, h⟩
      apply c
      simpa [or_comm] using h

theorem invite_spec {s s' : State} {u : Up} {k : String} (hg : Lists.GInv s.lists) (hu : u.current)
    (hk : Unfiltered s k) (h : step S s (.invite u) = some s') :
    Lists.GInv s'.lists ∧ Unfiltered s' k ∧ s'.joined = s.joined ∧ s'.invited = s.invited ∧
      s'.urd = put s.urd u.r.id { isInvite := true, hasLeft := false } ∧
      (∀ room, Listed s' k room ↔ room = u.r.id ∨ Listed s k room) := by
  unfold step at h
  obtain ⟨a1, a2, a3, a4, a5, a6⟩ := emit_spec S (k := k) (by exact hg) hu (by exact hk) h
  refine ⟨a1, a2, a3, a4, a5, fun room => ?_⟩
  rw [a6 room]
  by_cases e : room = u.r.id
  · rw [if_pos e, e]
    simp only [put_self]
    simp
  · rw [if_neg e]
    exact ⟨fun h => .inr h, fun h => h.resolve_left e⟩

theorem quiet_spec {s s' : State} {u : Up} {k : String} (hg : Lists.GInv s.lists) (hu : u.current)
    (hk : Unfiltered s k) (h : step S s (.quiet u) = some s') :
    Lists.GInv s'.lists ∧ Unfiltered s' k ∧ s'.joined = s.joined ∧ s'.invited = s.invited ∧ s'.urd = s.urd ∧
      (∀ room, Listed s' k room ↔ if room = u.r.id then (s.urd room).hasLeft = false else Listed s k room) :=
  emit_spec S hg hu hk h

/-! ## Histories -/

theorem run_append {s : State} {a b : List Op} : run S s (a ++ b) = (run S s a).bind (run S · b) := by
  induction a generalizing s with
  | nil => rfl
  | cons o os ih =>
    show (step S s o).bind (run S · (os ++ b)) = ((step S s o).bind (run S · os)).bind (run S · b)
    cases step S s o with
    | none => rfl
    | some s1 => exact ih

theorem step_ok {s s' : State} {o : Op} {k : String} (hg : Lists.GInv s.lists) (ho : OkOp k o) (hk : Unfiltered s k)
    (h : step S s o = some s') :
    Lists.GInv s'.lists ∧ Unfiltered s' k ∧
      ∀ room b, (s.urd room).hasLeft = b → (s'.urd room).hasLeft = leftSince room [o] b := by
  cases o with
  | event own u =>
    obtain ⟨a1, a2, -, -, a5, -⟩ := event_spec S hg ho hk h
    refine ⟨a1, a2, fun room b hb => ?_⟩
    rw [a5]
    split
    · by_cases e : room = u.r.id
      · rw [e, put_self, onEvent_left]; rw [e] at hb; exact hb
      · rw [put_ne _ _ _ e]; exact hb
    · exact hb
  | leftRoom kick u =>
    obtain ⟨a1, a2, -, -, a5, -⟩ := left_spec S hg ho hk h
    refine ⟨a1, a2, fun room b hb => ?_⟩
    rw [a5]
    by_cases e : room = u.r.id
    · simp [e, put_self, leftSince]
    · rw [put_ne _ _ _ e]; simpa [leftSince, Ne.symm e] using hb
  | invite u =>
    obtain ⟨a1, a2, -, -, a5, -⟩ := invite_spec S hg ho hk h
    refine ⟨a1, a2, fun room b hb => ?_⟩
    rw [a5]
    by_cases e : room = u.r.id
    · simp [e, put_self, leftSince]
    · rw [put_ne _ _ _ e]; simpa [leftSince, Ne.symm e] using hb
  | quiet u =>
    obtain ⟨a1, a2, -, -, a5, -⟩ := quiet_spec S hg ho hk h
    exact ⟨a1, a2, fun room b hb => by rw [a5]; exact hb⟩
  | list o =>
    obtain ⟨a1, a2, -, -, a5, -⟩ := list_spec S hg ho hk h
    exact ⟨a1, a2, fun room b hb => by rw [a5]; exact hb⟩

theorem run_ok {s s' : State} {os : List Op} {k : String} (hg : Lists.GInv s.lists) (ho : ∀ o ∈ os, OkOp k o)
    (hk : Unfiltered s k) (h : run S s os = some s') :
    Lists.GInv s'.lists ∧ Unfiltered s' k ∧
      ∀ room b, (s.urd room).hasLeft = b → (s'.urd room).hasLeft = leftSince room os b := by
  induction os generalizing s with
  | nil => cases h; exact ⟨hg, hk, fun _ _ h => h⟩
  | cons o os ih =>
    obtain ⟨s1, h1, h2⟩ := Option.bind_eq_some_iff.1 h
    obtain ⟨b1, b2, b3⟩ := step_ok S hg (ho o (by simp)) hk h1
    obtain ⟨c1, c2, c3⟩ := ih b1 (fun x hx => ho x (by simp [hx])) b2 h2
    refine ⟨c1, c2, fun room b hb => ?_⟩
    rw [c3 room _ (b3 room b hb)]
    rfl

/-- A connection with a list `k` without filters, and no rooms yet. -/
structure Start (s : State) (k : String) : Prop where
  joined : ∀ r, s.joined r = false
  invited : ∀ r, s.invited r = false
  urd : ∀ r, s.urd r = {}
  ginv : Lists.GInv s.lists
  empty : s.lists.keys = []
  list : Unfiltered s k

theorem start_listed {s : State} {k : String} (h : Start s k) (room : String) : ¬ Listed s k room := by
  rintro ⟨l, h1, h2⟩
  have := (h.ginv.list k l (Lists.lookup_mem h1)).2 room h2
  have := (h.ginv.keys_iff room).1 this
  rw [h.empty] at this
  cases this

/-- The connections the server has after the first request are such: lists are created before any room is known. -/
theorem start_of_requests {os : List Lists.Op} {l : Lists.State} {k : String}
    (hgood : ∀ o ∈ os, Lists.Good o) (h : Lists.run S {} os = some l) (hno : l.keys = [])
    (hl : ∃ f, Lists.getList l k = some f ∧ f.filter = {}) : Start { lists := l } k :=
  ⟨fun _ => rfl, fun _ => rfl, fun _ => rfl, Lists.run_inv S Lists.init_inv hgood h, hno, hl⟩

/-! ## C83 -/

/-- The operation makes the connection process an update for the room: an event for a user who is in the room or has just
been told to leave, a kick or a rejection, an invite, or another update. -/
def Reaches (s : State) (room : String) : Op → Prop
  | .event own u => u.r.id = room ∧ ((own = none ∨ own = some .invite) ∧ s.joined room = true ∨ own = some .join ∨
      (own = some .leave ∨ own = some .ban) ∧ (s.joined room = true ∨ s.invited room = true))
  | .leftRoom kick u => u.r.id = room ∧ (kick = true ∨ (s.urd room).isInvite = true)
  | .invite u => u.r.id = room
  | .quiet u => u.r.id = room
  | .list _ => False

theorem gets_iff (s : State) (own : Option Membership) (u : Up) :
    gets s own u.r.id = true ↔ Reaches s u.r.id (.event own u) := by
  unfold gets Reaches
  cases own with
  | none => simp [track]
  | some m => cases m <;> simp [track]

/-- C83, exact.  Whatever happened before, once an update for the room reaches a filterless list, the list shows the room
iff `OnLeftRoom` was not called for it after the last invite; and operations that do not reach it leave the list as it is.
Joining is not among what counts. -/
theorem C83_exact {s0 s s' : State} {k : String} (h0 : Start s0 k) (os : List Op) (o : Op)
    (hos : ∀ x ∈ os ++ [o], OkOp k x) (h1 : run S s0 os = some s) (h2 : step S s o = some s') (room : String) :
    (Reaches s room o → (Listed s' k room ↔ leftSince room (os ++ [o]) false = false)) ∧
    (¬ Reaches s room o → (Listed s' k room ↔ Listed s k room)) := by
  obtain ⟨g, hk, hl⟩ := run_ok S h0.ginv (fun x hx => hos x (by simp [hx])) h0.list h1
  have hleft : (s.urd room).hasLeft = leftSince room os false := hl room false (by rw [h0.urd])
  have happ : ∀ (a : List Op) b, leftSince room (a ++ [o]) b = leftSince room [o] (leftSince room a b) := by
    intro a
    induction a with
    | nil => intro b; rfl
    | cons x xs ih => intro b; exact ih _
  have ho : OkOp k o := hos o (by simp)
  rw [happ, ← hleft]
  cases o with
  | event own u =>
    obtain ⟨-, -, -, -, -, a6⟩ := event_spec S g ho hk h2
    rw [a6 room]
    constructor
    · intro hr
      have e : u.r.id = room := hr.1
      subst e
      rw [if_pos ⟨rfl, (gets_iff s own u).2 hr⟩]
      exact Iff.rfl
    · intro hr
      rw [if_neg]
      rintro ⟨rfl, h⟩
      exact hr ((gets_iff s own u).1 h)
  | leftRoom kick u =>
    obtain ⟨-, -, -, -, -, a6⟩ := left_spec S g ho hk h2
    rw [a6 room]
    constructor
    · rintro ⟨rfl, h⟩
      rw [if_pos ⟨rfl, h⟩]
      simp [leftSince]
    · intro hr
      rw [if_neg]
      rintro ⟨rfl, h⟩
      exact hr ⟨rfl, h⟩
  | invite u =>
    obtain ⟨-, -, -, -, -, a6⟩ := invite_spec S g ho hk h2
    rw [a6 room]
    constructor
    · rintro rfl
      simp [leftSince]
    · intro hr
      exact ⟨fun h => h.resolve_left (fun e => hr e.symm), .inr⟩
  | quiet u =>
    obtain ⟨-, -, -, -, -, a6⟩ := quiet_spec S g ho hk h2
    rw [a6 room]
    constructor
    · rintro rfl
      rw [if_pos rfl]
      exact Iff.rfl
    · intro hr
      rw [if_neg (fun e => hr e.symm)]
  | list o =>
    obtain ⟨-, -, -, -, -, a6⟩ := list_spec S g ho hk h2
    exact ⟨fun h => h.elim, fun _ => a6 room⟩

theorem status_snoc (room : String) (a : List Hap) (h : Hap) (st : Status) :
    status room (a ++ [h]) st = status room [h] (status room a st) := by
  induction a generalizing st with
  | nil => rfl
  | cons x xs ih => exact ih _

theorem seen_snoc (room : String) (a : List Hap) (h : Hap) (b : Bool) :
    seen room (a ++ [h]) b = seen room [h] (seen room a b) := by
  induction a generalizing b with
  | nil => rfl
  | cons x xs ih => exact ih _

/-- What the code knows of one room, when it is right. -/
structure Right (j i : Bool) (u : Urd) (listed : Prop) (st : Status) (sn : Bool) : Prop where
  joined : j = decide (st = .joined)
  invited : i = sn
  left : u.hasLeft = decide (st = .out)
  inv : u.isInvite = decide (st = .invited)
  listed : listed ↔ st = .joined ∨ st = .invited

/-- All rooms. -/
def AllRight (s : State) (k : String) (hs : List Hap) : Prop :=
  ∀ room, Right (s.joined room) (s.invited room) (s.urd room) (Listed s k room) (status room hs .never) (seen room hs false)

theorem hap_right {s s' : State} {k : String} {hs : List Hap} {h : Hap} (hg : Lists.GInv s.lists) (hk : Unfiltered s k)
    (hr : AllRight s k hs) (ho : OkHap hs h) (hops : ∀ o ∈ h.ops, OkOp k o) (hrun : run S s h.ops = some s') :
    Lists.GInv s'.lists ∧ Unfiltered s' k ∧ AllRight s' k (hs ++ [h]) := by
  have one : ∀ {o : Op}, run S s [o] = some s' → step S s o = some s' := by
    intro o h
    obtain ⟨s1, h1, h2⟩ := Option.bind_eq_some_iff.1 h
    cases h2; exact h1
  cases h with
  | joins u =>
    obtain ⟨a1, a2, a3, a4, a5, a6⟩ := event_spec S hg (hops _ (List.mem_singleton.2 rfl)) hk (one hrun)
    refine ⟨a1, a2, fun room => ?_⟩
    have hro := hr room
    rw [status_snoc, seen_snoc]
    rw [a3, a4, a5]
    have hgets : gets s (some .join) u.r.id = true := by simp [gets, track]
    rw [if_pos hgets]
    by_cases e : room = u.r.id
    · subst e
      have hout : status u.r.id hs .never ≠ .out := ho
      have hl : (s.urd u.r.id).hasLeft = false := by rw [hro.left]; simp [hout]
      constructor
      · simp [put_self, track, status]
      · simp [put_self, track, seen]
      · simp [put_self, onEvent_left, status, hl]
      · rw [put_self]
        unfold onEvent
        cases hi : (s.urd u.r.id).isInvite <;> simp [status, hi]
      · rw [a6, if_pos ⟨rfl, hgets⟩]
        simp [status, hl]
    · rw [put_ne _ _ _ e, put_ne _ _ _ e, put_ne _ _ _ e]
      have := hro
      constructor
      · simpa [status, Ne.symm e] using hro.joined
      · simpa [seen, Ne.symm e] using hro.invited
      · simpa [status, Ne.symm e] using hro.left
      · simpa [status, Ne.symm e] using hro.inv
      · rw [a6, if_neg (fun x => e x.1)]
        simpa [status, Ne.symm e] using hro.listed
  | leaves u u' =>
    obtain ⟨s1, h1, h2⟩ := Option.bind_eq_some_iff.1 hrun
    obtain ⟨s2, h2, h3⟩ := Option.bind_eq_some_iff.1 h2
    cases h3
    obtain ⟨a1, a2, a3, a4, a5, a6⟩ := event_spec S hg (hops (.event (some .leave) u) (by simp [Hap.ops])) hk h1
    obtain ⟨b1, b2, b3, b4, b5, b6⟩ := left_spec S a1 (hops (.leftRoom false u') (by simp [Hap.ops])) a2 h2
    obtain ⟨he, hst, hse⟩ := ho
    have hu := hr u.r.id
    have hng : ¬ gets s (some .leave) u.r.id = true := by
      simp [gets, track, hu.joined, hu.invited, hst, hse]
    rw [if_neg hng] at a5
    refine ⟨b1, b2, fun room => ?_⟩
    have hro := hr room
    rw [status_snoc, seen_snoc, b3, b4, b5, a3, a4, a5, ← he]
    by_cases e : room = u.r.id
    · subst e
      constructor
      · simp [put_self, track, status]
      · simp [put_self, track, seen]
      · simp [put_self, status]
      · simp [put_self, status]
      · rw [b6, if_pos ⟨he, .inr (by rw [a5, hu.inv, hst]; rfl)⟩]
        simp [status]
    · rw [put_ne _ _ _ e, put_ne _ _ _ e, put_ne _ _ _ e]
      constructor
      · simpa [status, Ne.symm e] using hro.joined
      · simpa [seen, Ne.symm e] using hro.invited
      · simpa [status, Ne.symm e] using hro.left
      · simpa [status, Ne.symm e] using hro.inv
      · rw [b6, if_neg (fun x => e (x.1.trans he.symm)), a6, if_neg (fun x => e x.1)]
        simpa [status, Ne.symm e] using hro.listed
  | kicked u u' =>
    obtain ⟨s1, h1, h2⟩ := Option.bind_eq_some_iff.1 hrun
    obtain ⟨s2, h2, h3⟩ := Option.bind_eq_some_iff.1 h2
    cases h3
    obtain ⟨a1, a2, a3, a4, a5, a6⟩ := event_spec S hg (hops (.event (some .leave) u) (by simp [Hap.ops])) hk h1
    obtain ⟨b1, b2, b3, b4, b5, b6⟩ := left_spec S a1 (hops (.leftRoom true u') (by simp [Hap.ops])) a2 h2
    have he : u.r.id = u'.r.id := ho
    refine ⟨b1, b2, fun room => ?_⟩
    have hro := hr room
    rw [status_snoc, seen_snoc, b3, b4, b5, a3, a4, ← he]
    by_cases e : room = u.r.id
    · subst e
      constructor
      · simp [put_self, track, status]
      · simp [put_self, track, seen]
      · simp [put_self, status]
      · simp [put_self, status]
      · rw [b6, if_pos ⟨he, .inl rfl⟩]
        simp [status]
    · rw [put_ne _ _ _ e, put_ne _ _ _ e, put_ne _ _ _ e]
      have h5 : s1.urd room = s.urd room := by
        rw [a5]; split
        · rw [put_ne _ _ _ e]
        · rfl
      rw [h5]
      constructor
      · simpa [status, Ne.symm e] using hro.joined
      · simpa [seen, Ne.symm e] using hro.invited
      · simpa [status, Ne.symm e] using hro.left
      · simpa [status, Ne.symm e] using hro.inv
      · rw [b6, if_neg (fun x => e (x.1.trans he.symm)), a6, if_neg (fun x => e x.1)]
        simpa [status, Ne.symm e] using hro.listed
  | banned u => exact ho.elim
  | invited u =>
    obtain ⟨a1, a2, a3, a4, a5, a6⟩ := invite_spec S hg (hops _ (List.mem_singleton.2 rfl)) hk (one hrun)
    refine ⟨a1, a2, fun room => ?_⟩
    have hro := hr room
    rw [status_snoc, seen_snoc, a3, a4, a5]
    by_cases e : room = u.r.id
    · subst e
      have hj : status u.r.id hs .never ≠ .joined := ho
      constructor
      · rw [hro.joined]; simp [hj, status]
      · rw [hro.invited]; rfl
      · simp [put_self, status]
      · simp [put_self, status]
      · rw [a6]; simp [status]
    · rw [put_ne _ _ _ e]
      constructor
      · simpa [status, Ne.symm e] using hro.joined
      · simpa [seen, Ne.symm e] using hro.invited
      · simpa [status, Ne.symm e] using hro.left
      · simpa [status, Ne.symm e] using hro.inv
      · rw [a6]
        simpa [status, e, Ne.symm e] using hro.listed
  | inviteSeen u =>
    obtain ⟨a1, a2, a3, a4, a5, a6⟩ := event_spec S hg (hops _ (List.mem_singleton.2 rfl)) hk (one hrun)
    refine ⟨a1, a2, fun room => ?_⟩
    have hro := hr room
    rw [status_snoc, seen_snoc, a3, a4, a5]
    by_cases e : room = u.r.id
    · subst e
      have hgets : gets s (some .invite) u.r.id = decide (status u.r.id hs .never = .joined) := by
        simp [gets, track, hro.joined]
      by_cases hj : status u.r.id hs .never = .joined
      · have hi : (s.urd u.r.id).isInvite = false := by rw [hro.inv, hj]; rfl
        have hl : (s.urd u.r.id).hasLeft = false := by rw [hro.left, hj]; rfl
        have hg' : gets s (some .invite) u.r.id = true := by rw [hgets]; simp [hj]
        rw [if_pos hg']
        constructor
        · rw [put_self]; exact hro.joined
        · simp [put_self, track, seen]
        · simp [put_self, onEvent_left, status, hl, hj]
        · rw [put_self]; simp [onEvent, status, hi, hj]
        · rw [a6, if_pos ⟨rfl, hg'⟩]; simp [status, hl, hj]
      · have hg' : ¬ gets s (some .invite) u.r.id = true := by rw [hgets]; simp [hj]
        rw [if_neg hg']
        constructor
        · rw [put_self]; exact hro.joined
        · simp [put_self, track, seen]
        · exact hro.left
        · exact hro.inv
        · rw [a6, if_neg (fun x => hg' x.2)]; exact hro.listed
    · have h5 : (if gets s (some .invite) u.r.id = true then put s.urd u.r.id (onEvent (s.urd u.r.id) (some .invite)) else s.urd) room
          = s.urd room := by
        split
        · rw [put_ne _ _ _ e]
        · rfl
      rw [put_ne _ _ _ e, put_ne _ _ _ e, h5]
      constructor
      · exact hro.joined
      · simpa [seen, Ne.symm e] using hro.invited
      · exact hro.left
      · exact hro.inv
      · rw [a6, if_neg (fun x => e x.1)]
        simpa [status, Ne.symm e] using hro.listed
  | message u =>
    obtain ⟨a1, a2, a3, a4, a5, a6⟩ := event_spec S hg (hops _ (List.mem_singleton.2 rfl)) hk (one hrun)
    refine ⟨a1, a2, fun room => ?_⟩
    have hro := hr room
    rw [status_snoc, seen_snoc, a3, a4, a5]
    have h5 : (if gets s none u.r.id = true then put s.urd u.r.id (onEvent (s.urd u.r.id) none) else s.urd) room = s.urd room := by
      split
      · by_cases e : room = u.r.id
        · subst e; rw [put_self]; simp [onEvent]
        · rw [put_ne _ _ _ e]
      · rfl
    rw [h5]
    by_cases e : room = u.r.id
    · subst e
      rw [put_self, put_self]
      refine ⟨hro.joined, hro.invited, hro.left, hro.inv, ?_⟩
      rw [a6]
      split
      · rename_i hc
        have hj : s.joined u.r.id = true := by simpa [gets, track] using hc.2
        rw [hro.joined] at hj
        have hj := of_decide_eq_true hj
        rw [hro.left, hj]
        simp [status, hj]
      · exact hro.listed
    · rw [put_ne _ _ _ e, put_ne _ _ _ e]
      refine ⟨hro.joined, hro.invited, hro.left, hro.inv, ?_⟩
      rw [a6, if_neg (fun x => e x.1)]
      exact hro.listed
  | quiet u =>
    obtain ⟨a1, a2, a3, a4, a5, a6⟩ := quiet_spec S hg (hops _ (List.mem_singleton.2 rfl)) hk (one hrun)
    refine ⟨a1, a2, fun room => ?_⟩
    have hro := hr room
    rw [status_snoc, seen_snoc, a3, a4, a5]
    refine ⟨hro.joined, hro.invited, hro.left, hro.inv, ?_⟩
    rw [a6]
    split
    · rename_i e
      subst e
      have hn : status u.r.id hs .never ≠ .never := ho
      rw [hro.left]
      show _ ↔ status u.r.id hs .never = .joined ∨ status u.r.id hs .never = .invited
      cases hc : status u.r.id hs .never <;> simp_all
    · exact hro.listed
  | request o =>
    obtain ⟨a1, a2, a3, a4, a5, a6⟩ := list_spec S hg (hops _ (List.mem_singleton.2 rfl)) hk (one hrun)
    refine ⟨a1, a2, fun room => ?_⟩
    have hro := hr room
    rw [status_snoc, seen_snoc, a3, a4, a5]
    exact ⟨hro.joined, hro.invited, hro.left, hro.inv, by rw [a6]; exact hro.listed⟩

theorem run_right {s0 s : State} {k : String} (h0 : Start s0 k) (hs : List Hap)
    (hok : ∀ a h b, hs = a ++ h :: b → OkHap a h ∧ ∀ o ∈ h.ops, OkOp k o)
    (hrun : run S s0 (hs.flatMap Hap.ops) = some s) : Lists.GInv s.lists ∧ Unfiltered s k ∧ AllRight s k hs := by
  induction hs using Verif.Util.snocRec generalizing s with
  | nil =>
    cases hrun
    refine ⟨h0.ginv, h0.list, fun room => ⟨?_, ?_, ?_, ?_, ?_⟩⟩
    · rw [h0.joined]; rfl
    · rw [h0.invited]; rfl
    · rw [h0.urd]; rfl
    · rw [h0.urd]; rfl
    · exact ⟨fun h => absurd h (start_listed h0 room), fun h => by rcases h with h | h <;> cases h⟩
  | append_singleton hs h ih =>
    rw [List.flatMap_append, run_append] at hrun
    obtain ⟨s1, h1, h2⟩ := Option.bind_eq_some_iff.1 hrun
    obtain ⟨b1, b2, b3⟩ := ih (fun a x b e => hok a x (b ++ [h]) (by rw [e]; simp)) h1
    have hlast := hok hs h [] rfl
    have h2' : run S s1 h.ops = some s := by simpa using h2
    exact hap_right S b1 b2 b3 hlast.1 hlast.2 h2'

/-- C83, partial: a filterless list shows exactly the rooms the user is in or invited to, as long as the user leaves rooms
only by being kicked or by rejecting an invite that no timeline showed, is not banned, and joins again only after an invite.
Missing: the other ways of leaving and joining, for which it is false: see the violations. -/
theorem C83_listed_partial {s0 s : State} {k : String} (h0 : Start s0 k) (hs : List Hap)
    (hok : ∀ a h b, hs = a ++ h :: b → OkHap a h ∧ ∀ o ∈ h.ops, OkOp k o)
    (hrun : run S s0 (hs.flatMap Hap.ops) = some s) (room : String) :
    Listed s k room ↔ status room hs .never = .joined ∨ status room hs .never = .invited := 
  ((run_right S h0 hs hok hrun).2.2 room).listed

end Verif.Leaving
