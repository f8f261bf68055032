import Verif.ClientMetaProps
/-!
# C109: a client that has caught up has the current heroes of an unnamed room
-/
namespace Verif.ClientMeta

open Verif

/-! ## Specification -/

/-- The room has neither a name nor an alias, so that it is called after its heroes. -/
def Unnamed (m : RoomName.Meta) : Prop := m.nameEvent = "" ∧ m.alias = ""

instance (m : RoomName.Meta) : Decidable (Unnamed m) := inferInstanceAs (Decidable (_ ∧ _))

/-- What a name is made of: who the heroes are and what they are called. -/
def who (l : List RoomName.Hero) : List (String × String) := l.map fun h => (h.id, h.name)

/-- The model's `calculated` is the flag of the calculated names (C56). -/
theorem calculated_spec (m : RoomName.Meta) : calculated m = (RoomName.nameSpec m 5).2 := by
  unfold calculated RoomName.nameSpec
  by_cases h1 : m.nameEvent = ""
  · by_cases h2 : m.alias = ""
    · simp only [h1, h2]
      cases h3 : (m.heroes.map (RoomName.shown m.heroes)).reverse with
      | nil =>
        have h4 : m.heroes = [] := by simpa using h3
        by_cases h5 : m.joinCount + m.inviteCount - 1 ≤ 0 <;> simp [h4, h5]
      | cons a l =>
        have h4 : m.heroes ≠ [] := by intro h; simp [h] at h3
        cases l with
        | nil => simp only [h4]; simp only [ne_eq, not_true_eq_false, if_false, decide_true, decide_false, Bool.false_and, Bool.not_false, Bool.and_self]; split <;> rfl
        | cons b l =>
          simp only [h4]
          simp only [ne_eq, not_true_eq_false, if_false, decide_true, decide_false, Bool.false_and, Bool.not_false, Bool.and_self]
          split
          · rfl
          · split <;> rfl
    · simp [h1, h2]
  · simp [h1]

theorem sameHeroNames_who {a b : List RoomName.Hero} (h : RoomName.sameHeroNames a b = true) : who a = who b := by
  induction a generalizing b with
  | nil => cases b with
    | nil => rfl
    | cons _ _ => simp [RoomName.sameHeroNames] at h
  | cons x a ih => cases b with
    | nil => simp [RoomName.sameHeroNames] at h
    | cons y b =>
      simp only [RoomName.sameHeroNames, Bool.and_eq_true, decide_eq_true_eq] at h
      have := ih h.2
      unfold who at this ⊢
      simp only [List.map_cons, h.1.1, h.1.2, this]

/-- An unnamed room with heroes has a calculated name. -/
theorem calculated_unnamed {m : RoomName.Meta} (h : Unnamed m) (hh : m.heroes ≠ []) : calculated m = true := by
  simp [calculated, h.1, h.2, hh]

/-- The heroes as a field, up to what `f` keeps of them. -/
def heroField (nm : RoomName.Meta → String) {T : Type} (f : List RoomName.Hero → T) : Field nm RoomName.Meta where
  proj m := m.room
  right v m := Unnamed m → m.heroes ≠ [] → f v.heroes = f m.heroes
  sends a b := !RoomName.sameRoomName a.room b.room && calculated b.room && decide (b.room.heroes ≠ [])
  built m h hh := by
    show f (if calculated m.room then m.room.heroes else []) = _
    rw [if_pos (calculated_unnamed h hh)]
  sent a b v h _ _ := by
    show f (if _ then _ else _) = _
    rw [if_pos h]
  kept a b v k h hr := by
    intro h1 h2
    show f (if _ then _ else _) = _
    rw [if_neg (by rw [h]; simp)]; exact hr h1 h2

theorem hero_law {T : Type} (f : List RoomName.Hero → T) (P : M → Prop) (hP : ∀ m, P m → Unnamed m.room → m.room.heroes ≠ [])
    (hf : ∀ a b : M, P a → P b → who a.room.heroes = who b.room.heroes → f a.room.heroes = f b.room.heroes) :
    Law (heroField nm f) P := by
  intro v a b ha hb hs hr hu hh
  simp only [heroField, Bool.and_eq_false_iff, Bool.not_eq_false', decide_eq_false_iff_not] at hs
  rcases hs with (hs | hs) | hs
  · simp only [RoomName.sameRoomName, Bool.and_eq_true, decide_eq_true_eq] at hs
    have hua : Unnamed a.room := ⟨hs.1.1.1.1.2.trans hu.1, hs.1.1.1.2.trans hu.2⟩
    exact (hr hua (hP a ha hua)).trans (hf a b ha hb (sameHeroNames_who hs.2))
  · have hc : calculated b.room = true := calculated_unnamed hu hh
    rw [hc] at hs; cases hs
  · exact absurd hh hs

/-! ## C109 -/

/-- A client that has processed all updates knows, for an unnamed room, who the heroes are and what they are called. Missing: rooms left
without heroes (`C109_violated_left`), the avatars of heroes (`C109_violated_avatar`), and what C78 excludes. -/
theorem C109_partial (nm : RoomName.Meta → String) (nid : Nat) (m : M) (ops : List Op)
    (hok : OkHist nm (fresh nid m) ops) (hp : Always (fun m => Unnamed m.room → m.room.heroes ≠ []) nm (fresh nid m) ops)
    (hq : (run nm (fresh nid m) ops).queue = [])
    (hh : (run nm (fresh nid m) ops).held = []) (v : View) (hv : (run nm (fresh nid m) ops).client = some v)
    (hu : Unnamed (run nm (fresh nid m) ops).cache.room) :
    who v.heroes = who (run nm (fresh nid m) ops).cache.room.heroes := by
  have hlast : Unnamed (run nm (fresh nid m) ops).cache.room → (run nm (fresh nid m) ops).cache.room.heroes ≠ [] :=
    hp ops [] (by simp)
  exact current (F := heroField nm who) (hero_law who _ (fun m h => h) (fun _ _ _ _ h => h)) nid m ops hok hp (fun _ _ _ _ => rfl) hq hh hv
    hu (hlast hu)

/-- It has the heroes themselves if avatars of members do not change. -/
theorem C109_avatar_partial (nm : RoomName.Meta → String) (nid : Nat) (m : M) (ops : List Op) (av : String → String)
    (hok : OkHist nm (fresh nid m) ops)
    (hp : Always (fun m => (Unnamed m.room → m.room.heroes ≠ []) ∧ ∀ h ∈ m.room.heroes, h.avatar = av h.id) nm (fresh nid m) ops)
    (hq : (run nm (fresh nid m) ops).queue = [])
    (hh : (run nm (fresh nid m) ops).held = []) (v : View) (hv : (run nm (fresh nid m) ops).client = some v)
    (hu : Unnamed (run nm (fresh nid m) ops).cache.room) :
    v.heroes = (run nm (fresh nid m) ops).cache.room.heroes := by
  have hlast := (hp ops [] (by simp)).1
  refine current (F := heroField nm id) (hero_law id _ (fun m h => h.1) ?_) nid m ops hok hp (fun _ _ _ _ => rfl) hq hh hv hu (hlast hu)
  intro a b ha hb hw
  have key : ∀ l : List RoomName.Hero, (∀ h ∈ l, h.avatar = av h.id) → l = (who l).map fun p => ⟨p.1, p.2, av p.1⟩ := by
    intro l hl
    induction l with
    | nil => rfl
    | cons h l ih =>
      have h1 := hl h (by simp)
      have h2 := ih fun x hx => hl x (by simp [hx])
      unfold who at h2 ⊢
      rw [List.map_cons, List.map_cons, ← h2, ← h1]
  show a.room.heroes = b.room.heroes
  rw [key _ ha.2, key _ hb.2, hw]

/-! ## Where the code disagrees -/

def pair (avatar : String) : RoomName.Meta := { roomID := "!r", joinCount := 2, heroes := [⟨"@b", "Bob", avatar⟩] }

/-- A member changes their avatar: the new one is not sent. -/
theorem C109_violated_avatar : ∃ ops, let s := run spec (fresh 1 ⟨pair "mxc://1", false⟩) ops
    s.queue = [] ∧ s.held = [] ∧ s.cache.room.heroes = [⟨"@b", "Bob", "mxc://2"⟩] ∧
      s.client.map (·.heroes) = some [⟨"@b", "Bob", "mxc://1"⟩] :=
  ⟨[.load 1, .build 1, .dispatch 2 (pair "mxc://2") false, .process true false], by decide +kernel⟩

/-- The last other member leaves: the client still has them as hero, of a room now called "Empty Room". -/
theorem C109_violated_left : ∃ ops, let s := run spec (fresh 1 ⟨pair "", false⟩) ops
    s.queue = [] ∧ s.held = [] ∧ s.cache.room.heroes = [] ∧ Unnamed s.cache.room ∧
      s.client.map (·.name) = some "Empty Room" ∧ s.client.map (·.heroes) = some [⟨"@b", "Bob", ""⟩] :=
  ⟨[.load 1, .build 1, .dispatch 2 { roomID := "!r", joinCount := 1 } false, .process true false], by decide +kernel⟩

/-! ## The hypotheses can be met -/

def three : RoomName.Meta := { roomID := "!r", joinCount := 3, heroes := [⟨"@b", "Bob", "mxc://b"⟩, ⟨"@c", "Carol", ""⟩] }

/-- The room is named, a member joins, and the name is removed. -/
def heroSample : List Op :=
  [.load 1, .build 1, .dispatch 2 (named "A") false, .process true true, .dispatch 3 { three with nameEvent := "A" } false, .process true true,
    .dispatch 4 three false, .process true true]

def av (id : String) : String := if id = "@b" then "mxc://b" else ""

example : who three.heroes = who (run spec (fresh 1 ⟨pair "mxc://b", false⟩) heroSample).cache.room.heroes :=
  C109_partial spec 1 _ heroSample (okHist_of (by decide +kernel)) (always_of (by decide +kernel)) (by decide +kernel) (by decide +kernel)
    ⟨"Bob and Carol", none, 3, 0, three.heroes⟩ (by decide +kernel) (by decide +kernel)

example : three.heroes = (run spec (fresh 1 ⟨pair "mxc://b", false⟩) heroSample).cache.room.heroes :=
  C109_avatar_partial spec 1 _ heroSample av (okHist_of (by decide +kernel)) (always_of (by decide +kernel)) (by decide +kernel) (by decide +kernel)
    ⟨"Bob and Carol", none, 3, 0, three.heroes⟩ (by decide +kernel) (by decide +kernel)

end Verif.ClientMeta
