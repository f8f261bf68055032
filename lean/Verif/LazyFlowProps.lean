import Verif.LazyFlow
import Verif.LazyMemberProps
/-!
# C149: a client that lazily loads members knows those it hears of
-/
namespace Verif.LazyFlow
open Verif.LazyMember (Str)

/-! ## Specification -/

/-- The member event of the user after the first `n` events of a room is `m`. -/
def IsMember (h : List Ev) (n : Nat) (u : Str) (m : Ev) : Prop :=
  ∃ pre post, h.take n = pre ++ m :: post ∧ m.member = some u ∧ ∀ x ∈ post, x.member ≠ some u

/-- The users a response speaks of. -/
def Resp.users (p : Resp) : List Str := p.timeline.map (·.sender) ++ p.typing

/-- The room of a step. -/
def Op.room : Op → Str
  | .store r _ => r
  | .initial r _ _ _ _ => r
  | .live r _ => r
  | .typing r _ => r

/-- Room ids have no spaces, rooms are sent lazily, with some timeline, whose senders are members, before there are updates of them, and
are not sent again to a client that then forgets what it has. -/
def Good (rep : Bool) (w : W) (o : Op) : Prop :=
  ' ' ∉ o.room ∧
  match o with
  | .initial r n limit l shown => l = true ∧ timeline (w.hist r) n limit shown ≠ [] ∧
      (∀ e ∈ timeline (w.hist r) n limit shown, ∃ m, IsMember (w.hist r) n e.sender m) ∧ (rep = true → w.sent r = false)
  | .live r _ => w.sent r = true
  | .typing r _ => w.sent r = true
  | .store _ _ => True

/-- Rooms are sent once, and then every member event of them is processed in order. -/
def Straight (w : W) (o : Op) : Prop :=
  match o with
  | .initial r _ _ _ _ => w.sent r = false
  | .live r n => w.pos r < n ∧ ∀ e ∈ ((w.hist r).take (n - 1)).drop (w.pos r), e.member = none
  | _ => True

inductive Reach (rep : Bool) : W → Prop
  | init : Reach rep {}
  | step {w : W} (o : Op) : Reach rep w → Good rep w o → Reach rep (step rep w o).1

inductive ReachStraight (rep : Bool) : W → Prop
  | init : ReachStraight rep {}
  | step {w : W} (o : Op) : ReachStraight rep w → Good rep w o → Straight w o → ReachStraight rep (step rep w o).1

/-! ## Lists of events -/

/-- The last member event of the user. -/
def lastOf (l : List Ev) (u : Str) : Option Ev := l.reverse.find? fun e => e.member = some u

theorem lastOf_append (a b : List Ev) (u : Str) : lastOf (a ++ b) u = (lastOf b u).or (lastOf a u) := by
  simp only [lastOf, List.reverse_append, List.find?_append]

theorem lastOf_some {l : List Ev} {u : Str} {m : Ev} (h : lastOf l u = some m) : m ∈ l ∧ m.member = some u :=
  ⟨List.mem_reverse.1 (List.mem_of_find?_eq_some h), by simpa using List.find?_some h⟩

theorem lastOf_mem {l : List Ev} {u : Str} {m : Ev} (h : m ∈ l) (hm : m.member = some u) : ∃ x, lastOf l u = some x := by
  cases hx : lastOf l u with
  | some x => exact ⟨x, rfl⟩
  | none =>
    have := List.find?_eq_none.1 hx m (List.mem_reverse.2 h)
    exact absurd hm (by simpa using this)

theorem lastOf_none {l : List Ev} {u : Str} (h : ∀ e ∈ l, e.member ≠ some u) : lastOf l u = none :=
  List.find?_eq_none.2 fun e he => by simpa using h e (List.mem_reverse.1 he)

theorem lastOf_iff (l : List Ev) (u : Str) (m : Ev) :
    lastOf l u = some m ↔ ∃ pre post, l = pre ++ m :: post ∧ m.member = some u ∧ ∀ x ∈ post, x.member ≠ some u := by
  constructor
  · intro h
    obtain ⟨hm, as, bs, hab, hno⟩ := List.find?_eq_some_iff_append.1 h
    refine ⟨bs.reverse, as.reverse, ?_, by simpa using hm, fun x hx => ?_⟩
    · have := congrArg List.reverse hab
      simpa using this
    · simpa using hno x (List.mem_reverse.1 hx)
  · rintro ⟨pre, post, rfl, hm, hno⟩
    rw [List.append_cons, lastOf_append, lastOf_none hno, lastOf_append]
    simp [lastOf, hm]

theorem lastOf_filter (l : List Ev) (p : Ev → Bool) (hp : ∀ e, e.member.isSome = true → p e = true) (u : Str) :
    lastOf (l.filter p) u = lastOf l u := by
  unfold lastOf
  rw [← List.filter_reverse, List.find?_filter]
  congr 1
  funext e
  by_cases h : e.member = some u
  · simp [h, hp e (by simp [h])]
  · simp [h]

theorem memberAt_eq (h : List Ev) (n : Nat) (u : Str) : memberAt h n u = lastOf (h.take n) u := rfl

theorem isMember_iff (h : List Ev) (n : Nat) (u : Str) (m : Ev) : IsMember h n u m ↔ memberAt h n u = some m := (lastOf_iff _ _ _).symm

theorem learn_eq (c : Str → Option Ev) (es : List Ev) (u : Str) : learn c es u = (lastOf es u).or (c u) := by
  unfold learn
  induction es generalizing c with
  | nil => simp [lastOf]
  | cons e es ih =>
    rw [List.foldl_cons, ih, ← List.singleton_append, lastOf_append]
    have : learn1 c e u = (lastOf [e] u).or (c u) := by
      unfold learn1
      cases he : e.member with
      | none => simp [lastOf, he]
      | some v =>
        by_cases hv : u = v
        · subst hv; simp [lastOf, he, set]
        · have : v ≠ u := fun h => hv h.symm
          simp [lastOf, he, set, hv, this]
    rw [this]
    cases lastOf es u <;> simp

theorem learn_mono {c : Str → Option Ev} {u : Str} {m : Ev} (h : c u = some m) (es : List Ev) : ∃ x, learn c es u = some x := by
  rw [learn_eq, h]
  cases lastOf es u with
  | none => exact ⟨m, rfl⟩
  | some x => exact ⟨x, rfl⟩

theorem learn_mem {es : List Ev} {u : Str} {m : Ev} (hm : m ∈ es) (hu : m.member = some u) (c : Str → Option Ev) :
    ∃ x, learn c es u = some x := by
  obtain ⟨x, hx⟩ := lastOf_mem hm hu
  exact ⟨x, by rw [learn_eq, hx]; rfl⟩

theorem lastOf_timeline {h : List Ev} {n limit : Nat} {shown : Nat → Bool} {u : Str} {m : Ev}
    (hl : lastOf (timeline h n limit shown) u = some m) : memberAt h n u = some m := by
  unfold timeline at hl
  rw [lastOf_filter _ _ (fun e he => by simp [he])] at hl
  rw [memberAt_eq, ← List.take_append_drop ((h.take n).length - limit) (h.take n), lastOf_append, hl]
  rfl

theorem timeline_sub {h : List Ev} {n limit : Nat} {shown : Nat → Bool} {e : Ev} (he : e ∈ timeline h n limit shown) : e ∈ h :=
  List.mem_of_mem_take (List.mem_of_mem_drop (List.mem_filter.1 he).1)

/-! ## The cache of members that were sent -/

theorem lazyUser_spec (s : LazyMember.State) (h : List Ev) (n : Nat) (r u : Str) (hr : ' ' ∉ r) :
    (∀ q v, ' ' ∉ q → LazyMember.isSet (lazyUser s h n r u).1 q v = true → LazyMember.isSet s q v = true ∨
      (q = r ∧ ∃ m ∈ (lazyUser s h n r u).2, m.member = some v)) ∧
    (∀ q v, ' ' ∉ q → LazyMember.isSet s q v = true → LazyMember.isSet (lazyUser s h n r u).1 q v = true) ∧
    (∀ q, LazyMember.isLazyLoading (lazyUser s h n r u).1 q = true ↔ LazyMember.isLazyLoading s q = true) ∧
    (LazyMember.isLazyLoading s r = true → ∀ m, memberAt h n u = some m → LazyMember.isSet (lazyUser s h n r u).1 r u = true) ∧
    (∀ m ∈ (lazyUser s h n r u).2, ∃ v, memberAt h n v = some m) ∧
    (LazyMember.isLazyLoading s r = false → (lazyUser s h n r u).2 = []) := by
  unfold lazyUser
  by_cases hc : (LazyMember.isLazyLoading s r && !LazyMember.isSet s r u) = true
  · rw [if_pos hc]
    simp only [Bool.and_eq_true, Bool.not_eq_true'] at hc
    cases hm : memberAt h n u with
    | none => exact ⟨fun _ _ _ h => .inl h, fun _ _ _ h => h, fun _ => Iff.rfl, (fun _ _ h => nomatch h), (fun _ h => nomatch h), fun _ => rfl⟩
    | some m =>
      have hmu := (lastOf_some hm).2
      refine ⟨fun q v hq hs => ?_, fun q v hq hs => ?_, fun q => ?_, fun _ _ _ => ?_, fun x hx => ?_, fun hf => ?_⟩
      · rcases (LazyMember.addUser_isSet s r u q v hr hq).1 hs with h | ⟨rfl, rfl⟩
        · exact .inl h
        · exact .inr ⟨rfl, m, by simp, hmu⟩
      · exact (LazyMember.addUser_isSet s r u q v hr hq).2 (.inl hs)
      · rw [LazyMember.addUser_lazy]
        exact ⟨fun h => h.elim id fun h => h ▸ hc.1, .inl⟩
      · exact (LazyMember.addUser_isSet s r u r u hr hr).2 (.inr ⟨rfl, rfl⟩)
      · simp only [List.mem_singleton] at hx
        exact ⟨u, by rw [hx]; exact hm⟩
      · rw [hc.1] at hf; cases hf
  · rw [if_neg hc]
    refine ⟨fun _ _ _ h => .inl h, fun _ _ _ h => h, fun _ => Iff.rfl, fun hl m _ => ?_, by simp, fun _ => rfl⟩
    cases hs : LazyMember.isSet s r u with
    | true => rfl
    | false => rw [hl, hs] at hc; exact absurd rfl hc

theorem lazyUsers_spec (us : List Str) (s : LazyMember.State) (h : List Ev) (n : Nat) (r : Str) (hr : ' ' ∉ r) :
    (∀ q v, ' ' ∉ q → LazyMember.isSet (lazyUsers s h n r us).1 q v = true → LazyMember.isSet s q v = true ∨
      (q = r ∧ ∃ m ∈ (lazyUsers s h n r us).2, m.member = some v)) ∧
    (∀ q v, ' ' ∉ q → LazyMember.isSet s q v = true → LazyMember.isSet (lazyUsers s h n r us).1 q v = true) ∧
    (∀ q, LazyMember.isLazyLoading (lazyUsers s h n r us).1 q = true ↔ LazyMember.isLazyLoading s q = true) ∧
    (LazyMember.isLazyLoading s r = true → ∀ u ∈ us, ∀ m, memberAt h n u = some m →
      LazyMember.isSet (lazyUsers s h n r us).1 r u = true) ∧
    (∀ m ∈ (lazyUsers s h n r us).2, ∃ v, memberAt h n v = some m) := by
  induction us generalizing s with
  | nil => exact ⟨fun _ _ _ h => .inl h, fun _ _ _ h => h, fun _ => Iff.rfl, by simp, by simp [lazyUsers]⟩
  | cons u us ih =>
    obtain ⟨a1, a2, a3, a4, a5, _⟩ := lazyUser_spec s h n r u hr
    obtain ⟨b1, b2, b3, b4, b5⟩ := ih (lazyUser s h n r u).1
    refine ⟨fun q v hq hs => ?_, fun q v hq hs => b2 q v hq (a2 q v hq hs), fun q => (b3 q).trans (a3 q), fun hl v hv m hm => ?_,
      fun m hm => ?_⟩
    · rcases b1 q v hq hs with h | ⟨rfl, m, hm, hv⟩
      · rcases a1 q v hq h with h | ⟨rfl, m, hm, hv⟩
        · exact .inl h
        · exact .inr ⟨rfl, m, List.mem_append_left _ hm, hv⟩
      · exact .inr ⟨rfl, m, List.mem_append_right _ hm, hv⟩
    · rcases List.mem_cons.1 hv with rfl | hv
      · exact b2 r v hr (a4 hl m hm)
      · exact b4 ((a3 r).2 hl) v hv m hm
    · rcases List.mem_append.1 hm with hm | hm
      · exact a5 m hm
      · exact b5 m hm

/-! ## Known members -/

structure Known (w : W) : Prop where
  known : ∀ r u, ' ' ∉ r → LazyMember.isSet w.lc r u = true → ∃ m, w.client r u = some m
  lazy : ∀ r, w.sent r = true → LazyMember.isLazyLoading w.lc r = true

/-- The responses of a step name only users the cache has then, if they are members. -/
theorem known_step {rep : Bool} {w : W} {o : Op} (hk : Known w) (hnew : ∀ r, ' ' ∉ r → w.sent r = false → ∀ u, LazyMember.isSet w.lc r u = false)
    (hg : Good rep w o) : Known (step rep w o).1 ∧
      (∀ p, (step rep w o).2 = some p → ∀ u ∈ p.users, ∀ m, memberAt ((step rep w o).1.hist p.room) ((step rep w o).1.pos p.room) u = some m →
        LazyMember.isSet (step rep w o).1.lc p.room u = true) ∧
      (∀ r, ' ' ∉ r → (step rep w o).1.sent r = false → ∀ u, LazyMember.isSet (step rep w o).1.lc r u = false) := by
  obtain ⟨hsp, hg⟩ := hg
  cases o with
  | store r e => exact ⟨⟨hk.known, hk.lazy⟩, (fun _ h => nomatch h), hnew⟩
  | initial r n limit l shown =>
    obtain ⟨rfl, hne, hmem, hrep⟩ := hg
    simp only [Op.room] at hsp
    simp only [step, if_true]
    refine ⟨⟨fun q u hq hs => ?_, fun q hq => ?_⟩, fun p hp u hu m hm => ?_, fun q hq hf u => ?_⟩
    · rcases (LazyMember.add_isSet _ _ _ _ _ hsp hq).1 hs with h | ⟨rfl, h⟩
      · obtain ⟨m, hm⟩ := hk.known q u hq h
        by_cases hqr : q = r
        · subst hqr
          simp only [set, if_true]
          cases rep with
          | false => exact learn_mono hm _
          | true =>
            rw [hnew q hq (hrep rfl) u] at h
            cases h
        · simp only [set, if_neg hqr]; exact ⟨m, hm⟩
      · simp only [set, if_true]
        obtain ⟨e, he, rfl⟩ := List.mem_map.1 h
        obtain ⟨m, hm⟩ := hmem e he
        have hm' := (isMember_iff _ _ _ _).1 hm
        exact learn_mem (m := m) (List.mem_append_left _ (List.mem_filterMap.2 ⟨e.sender, h, hm'⟩)) (lastOf_some hm').2 _
    · rw [LazyMember.add_lazy]
      by_cases hqr : q = r
      · exact .inr ⟨hqr.symm, by simpa using hne⟩
      · simp only [set, if_neg hqr] at hq
        exact .inl (hk.lazy q hq)
    · simp only [Option.some.injEq] at hp
      subst hp
      simp only [Resp.users, List.append_nil] at hu
      exact (LazyMember.add_isSet _ _ _ _ _ hsp hsp).2 (.inr ⟨rfl, hu⟩)
    · by_cases hqr : q = r
      · simp [set, hqr] at hf
      · simp only [set, if_neg hqr] at hf
        have := hnew q hq hf u
        cases hx : LazyMember.isSet (LazyMember.add w.lc r ((timeline (w.hist r) n limit shown).map (·.sender))) q u with
        | false => rfl
        | true =>
          rcases (LazyMember.add_isSet _ _ _ _ _ hsp hq).1 hx with h | ⟨h, _⟩
          · rw [this] at h; cases h
          · exact absurd h.symm hqr
  | live r n =>
    simp only [Op.room] at hsp
    have hg : w.sent r = true := hg
    have hl := hk.lazy r hg
    simp only [step]
    split
    · exact ⟨hk, (fun _ h => nomatch h), hnew⟩
    · split
      · exact ⟨hk, (fun _ h => nomatch h), hnew⟩
      · rename_i e _
        split
        · exact ⟨⟨hk.known, hk.lazy⟩, (fun _ h => nomatch h), hnew⟩
        · obtain ⟨a1, a2, a3, a4, a5, _⟩ := lazyUser_spec w.lc (w.hist r) n r e.sender hsp
          refine ⟨⟨fun q u hq hs => ?_, fun q hq => (a3 q).2 (hk.lazy q hq)⟩, fun p hp u hu m hm => ?_, fun q hq hf u => ?_⟩
          · rcases a1 q u hq hs with h | ⟨rfl, m, hm, hv⟩
            · obtain ⟨m, hm⟩ := hk.known q u hq h
              by_cases hqr : q = r
              · subst hqr
                simp only [set, if_true]
                exact learn_mono hm _
              · simp only [set, if_neg hqr]; exact ⟨m, hm⟩
            · simp only [set, if_true]
              exact learn_mem (List.mem_append_left _ hm) hv _
          · simp only [Option.some.injEq] at hp
            subst hp
            simp only [Resp.users, List.map_cons, List.map_nil, List.append_nil, List.mem_singleton] at hu
            subst hu
            simp only [set, if_true] at hm
            exact a4 hl m hm
          · have := hnew q hq hf u
            cases hx : LazyMember.isSet (lazyUser w.lc (w.hist r) n r e.sender).1 q u with
            | false => rfl
            | true =>
              rcases a1 q u hq hx with h | ⟨rfl, _⟩
              · rw [this] at h; cases h
              · exact absurd (hg.symm.trans hf) (by simp)
  | typing r us =>
    simp only [Op.room] at hsp
    have hg : w.sent r = true := hg
    have hl := hk.lazy r hg
    simp only [step]
    obtain ⟨a1, a2, a3, a4, a5⟩ := lazyUsers_spec us w.lc (w.hist r) (w.pos r) r hsp
    refine ⟨⟨fun q u hq hs => ?_, fun q hq => (a3 q).2 (hk.lazy q hq)⟩, fun p hp u hu m hm => ?_, fun q hq hf u => ?_⟩
    · rcases a1 q u hq hs with h | ⟨rfl, m, hm, hv⟩
      · obtain ⟨m, hm⟩ := hk.known q u hq h
        by_cases hqr : q = r
        · subst hqr
          simp only [set, if_true]
          exact learn_mono hm _
        · simp only [set, if_neg hqr]; exact ⟨m, hm⟩
      · simp only [set, if_true]
        exact learn_mem hm hv _
    · simp only [Option.some.injEq] at hp
      subst hp
      simp only [Resp.users, List.map_nil, List.nil_append] at hu
      exact a4 hl u hu m hm
    · have := hnew q hq hf u
      cases hx : LazyMember.isSet (lazyUsers w.lc (w.hist r) (w.pos r) r us).1 q u with
      | false => rfl
      | true =>
        rcases a1 q u hq hx with h | ⟨rfl, _⟩
        · rw [this] at h; cases h
        · exact absurd (hg.symm.trans hf) (by simp)

theorem reach_known {rep : Bool} {w : W} (h : Reach rep w) :
    Known w ∧ ∀ r, ' ' ∉ r → w.sent r = false → ∀ u, LazyMember.isSet w.lc r u = false := by
  induction h with
  | init => exact ⟨⟨by simp [LazyMember.isSet], by simp⟩, by simp [LazyMember.isSet]⟩
  | step o _ hg ih =>
    obtain ⟨h1, _, h3⟩ := known_step ih.1 ih.2 hg
    exact ⟨h1, h3⟩

theorem step_room {rep : Bool} {w : W} {o : Op} {p : Resp} (h : (step rep w o).2 = some p) : p.room = o.room := by
  cases o with
  | store r e => cases h
  | initial r n limit l shown => simp only [step, Option.some.injEq] at h; subst h; rfl
  | live r n =>
    simp only [step] at h
    split at h
    · cases h
    · split at h
      · cases h
      · split at h
        · cases h
        · simp only [Option.some.injEq] at h; subst h; rfl
  | typing r us => simp only [step, Option.some.injEq] at h; subst h; rfl

/-- C149: the client has a member event of every user it is told of who is, or was, a member. -/
theorem C149_known_partial (rep : Bool) (w : W) (o : Op) (p : Resp) (h : Reach rep w) (hg : Good rep w o) (hp : (step rep w o).2 = some p)
    (u : Str) (hu : u ∈ p.users) (m : Ev) (hm : IsMember ((step rep w o).1.hist p.room) ((step rep w o).1.pos p.room) u m) :
    ∃ x, (step rep w o).1.client p.room u = some x := by
  obtain ⟨hk, hnew⟩ := reach_known h
  obtain ⟨h1, h2, _⟩ := known_step hk hnew hg
  exact h1.known p.room u (by rw [step_room hp]; exact hg.1) (h2 p hp u hu m ((isMember_iff _ _ _ _).1 hm))

/-! ## Current members -/

structure Current (w : W) : Prop where
  le : ∀ r, w.pos r ≤ (w.hist r).length
  new : ∀ r, w.sent r = false → ∀ u, w.client r u = none
  cur : ∀ r u m, w.client r u = some m → memberAt (w.hist r) (w.pos r) u = some m

theorem take_min (h : List Ev) (n : Nat) : h.take (min n h.length) = h.take n := by
  rcases Nat.le_total n h.length with hn | hn
  · rw [Nat.min_eq_left hn]
  · rw [Nat.min_eq_right (by omega), List.take_length, List.take_of_length_le (by omega)]

theorem take_live {h : List Ev} {n k : Nat} {e : Ev} (hn : n ≠ 0) (he : h[n - 1]? = some e) (hk : k < n) :
    h.take n = h.take k ++ (h.take (n - 1)).drop k ++ [e] := by
  have h1 : h.take n = h.take (n - 1) ++ [e] := by
    have hlt : n - 1 < h.length := (List.getElem?_eq_some_iff.1 he).1
    have := List.take_append_getElem hlt
    rw [(List.getElem?_eq_some_iff.1 he).2] at this
    rw [this]
    congr 1
    omega
  have h2 : h.take k = (h.take (n - 1)).take k := by
    rw [List.take_take]
    congr 1
    omega
  rw [h1, h2, List.take_append_drop]

theorem current_step {rep : Bool} {w : W} {o : Op} (hc : Current w) (hg : Good rep w o) (hs : Straight w o) :
    Current (step rep w o).1 := by
  obtain ⟨hsp, hg⟩ := hg
  cases o with
  | store r e =>
    refine ⟨fun q => ?_, hc.new, fun q u m hm => ?_⟩
    · by_cases hqr : q = r
      · subst hqr
        have := hc.le q
        simp only [step, set, if_true, List.length_append, List.length_singleton]; omega
      · simp only [step, set, if_neg hqr]; exact hc.le q
    · by_cases hqr : q = r
      · subst hqr
        have := hc.cur q u m hm
        simp only [step, set, if_true, memberAt]
        rw [List.take_append_of_le_length (hc.le q)]
        exact this
      · simp only [step, set, if_neg hqr]; exact hc.cur q u m hm
  | initial r n limit l shown =>
    obtain ⟨rfl, hne, hmem, hrep⟩ := hg
    have hnone : ∀ u, (if rep then fun _ => none else w.client r) u = none := by
      intro u
      split
      · rfl
      · exact hc.new r hs u
    simp only [step, if_true]
    refine ⟨fun q => ?_, fun q hq u => ?_, fun q u m hm => ?_⟩
    · by_cases hqr : q = r
      · subst hqr; simp only [set, if_true]; omega
      · simp only [set, if_neg hqr]; exact hc.le q
    · by_cases hqr : q = r
      · simp [set, hqr] at hq
      · simp only [set, if_neg hqr] at hq ⊢
        exact hc.new q hq u
    · by_cases hqr : q = r
      · subst hqr
        simp only [set, if_true] at hm ⊢
        rw [learn_eq, hnone u, Option.or_none, lastOf_append] at hm
        simp only [memberAt, take_min]
        cases ht : lastOf (timeline (w.hist q) n limit shown) u with
        | some x =>
          rw [ht] at hm
          cases hm
          exact lastOf_timeline ht
        | none =>
          rw [ht, Option.none_or] at hm
          obtain ⟨h1, h2⟩ := lastOf_some hm
          obtain ⟨v, _, hv⟩ := List.mem_filterMap.1 h1
          have := (lastOf_some hv).2
          rw [h2] at this
          cases this
          exact hv
      · simp only [set, if_neg hqr] at hm ⊢
        exact hc.cur q u m hm
  | live r n =>
    simp only [Op.room] at hsp
    obtain ⟨hlt, hno⟩ := hs
    have h0 : n ≠ 0 := by omega
    simp only [step, if_neg h0]
    cases he : (w.hist r)[n - 1]? with
    | none => exact hc
    | some e =>
      simp only [if_neg (show ¬ n ≤ w.pos r by omega)]
      obtain ⟨_, _, _, _, a5, _⟩ := lazyUser_spec w.lc (w.hist r) n r e.sender hsp
      refine ⟨fun q => ?_, fun q hq u => ?_, fun q u m hm => ?_⟩
      · by_cases hqr : q = r
        · subst hqr
          have := (List.getElem?_eq_some_iff.1 he).1
          simp only [set, if_true]; omega
        · simp only [set, if_neg hqr]; exact hc.le q
      · by_cases hqr : q = r
        · subst hqr
          exact absurd ((show w.sent q = true from hg).symm.trans hq) (by simp)
        · simp only [set, if_neg hqr]
          exact hc.new q hq u
      · by_cases hqr : q = r
        · subst hqr
          simp only [set, if_true] at hm ⊢
          rw [learn_eq, lastOf_append] at hm
          have htake := take_live h0 he hlt
          have hat : memberAt (w.hist q) n u = (lastOf [e] u).or (memberAt (w.hist q) (w.pos q) u) := by
            have hmid : lastOf (((w.hist q).take (n - 1)).drop (w.pos q)) u = none := lastOf_none fun x hx => by rw [hno x hx]; simp
            rw [memberAt_eq, htake, lastOf_append, lastOf_append, hmid, Option.none_or]
            rfl
          cases h1 : lastOf [e] u with
          | some x =>
            rw [h1] at hm hat
            cases hm
            exact hat
          | none =>
            rw [h1, Option.none_or] at hm
            cases h2 : lastOf (lazyUser w.lc (w.hist q) n q e.sender).2 u with
            | some x =>
              rw [h2] at hm
              cases hm
              obtain ⟨g1, g2⟩ := lastOf_some h2
              obtain ⟨v, hv⟩ := a5 _ g1
              have := (lastOf_some hv).2
              rw [g2] at this
              cases this
              exact hv
            | none =>
              rw [h2, Option.none_or] at hm
              rw [hat, h1, Option.none_or]
              exact hc.cur q u m hm
        · simp only [set, if_neg hqr] at hm ⊢
          exact hc.cur q u m hm
  | typing r us =>
    simp only [Op.room] at hsp
    obtain ⟨_, _, _, _, a5⟩ := lazyUsers_spec us w.lc (w.hist r) (w.pos r) r hsp
    simp only [step]
    refine ⟨hc.le, fun q hq u => ?_, fun q u m hm => ?_⟩
    · by_cases hqr : q = r
      · subst hqr
        exact absurd ((show w.sent q = true from hg).symm.trans hq) (by simp)
      · simp only [set, if_neg hqr]; exact hc.new q hq u
    · by_cases hqr : q = r
      · subst hqr
        simp only [set, if_true] at hm
        rw [learn_eq] at hm
        cases h2 : lastOf (lazyUsers w.lc (w.hist q) (w.pos q) q us).2 u with
        | some x =>
          rw [h2] at hm
          cases hm
          obtain ⟨g1, g2⟩ := lastOf_some h2
          obtain ⟨v, hv⟩ := a5 _ g1
          have := (lastOf_some hv).2
          rw [g2] at this
          cases this
          exact hv
        | none =>
          rw [h2, Option.none_or] at hm
          exact hc.cur q u m hm
      · simp only [set, if_neg hqr] at hm
        exact hc.cur q u m hm

theorem straight_reach {rep : Bool} {w : W} (h : ReachStraight rep w) : Reach rep w := by
  induction h with
  | init => exact .init
  | step o _ hg _ ih => exact .step o ih hg

theorem straight_current {rep : Bool} {w : W} (h : ReachStraight rep w) : Current w := by
  induction h with
  | init => exact ⟨by simp, by simp, by simp⟩
  | step o _ hg hs ih => exact current_step ih hg hs

/-- C149: of every user it is told of, the client has the member event that is the current one then, if every room is sent once and then
followed. -/
theorem C149_current_partial (rep : Bool) (w : W) (o : Op) (p : Resp) (h : ReachStraight rep w) (hg : Good rep w o) (hs : Straight w o)
    (hp : (step rep w o).2 = some p) (u : Str) (hu : u ∈ p.users) (m : Ev) :
    (step rep w o).1.client p.room u = some m ↔
      IsMember ((step rep w o).1.hist p.room) ((step rep w o).1.pos p.room) u m := by
  have hc := current_step (straight_current h) hg hs
  constructor
  · intro hm
    exact (isMember_iff _ _ _ _).2 (hc.cur _ _ _ hm)
  · intro hm
    obtain ⟨x, hx⟩ := C149_known_partial rep w o p (straight_reach h) hg hp u hu m hm
    have := hc.cur _ _ _ hx
    rw [(isMember_iff _ _ _ _).1 hm] at this
    cases this
    exact hx

/-! ## Member events are real -/

theorem memberAt_real {h : List Ev} {n : Nat} {u : Str} {m : Ev} (hm : memberAt h n u = some m) : m ∈ h :=
  List.mem_of_mem_take (lastOf_some hm).1

/-- What the client has of the members are member events of theirs that are stored in the room. -/
def Real (w : W) : Prop := ∀ r u m, w.client r u = some m → m ∈ w.hist r ∧ m.member = some u

theorem lazyUser_real {s : LazyMember.State} {h : List Ev} {n : Nat} {r u : Str} {m : Ev} (hm : m ∈ (lazyUser s h n r u).2) : m ∈ h := by
  unfold lazyUser at hm
  split at hm
  · split at hm
    · rename_i x hx
      simp only [List.mem_singleton] at hm
      subst hm
      exact memberAt_real hx
    · cases hm
  · cases hm

theorem lazyUsers_real {us : List Str} {s : LazyMember.State} {h : List Ev} {n : Nat} {r : Str} {m : Ev}
    (hm : m ∈ (lazyUsers s h n r us).2) : m ∈ h := by
  induction us generalizing s with
  | nil => cases hm
  | cons u us ih => exact (List.mem_append.1 hm).elim lazyUser_real ih

theorem learn_real {h : List Ev} {c : Str → Option Ev} {es : List Ev} (hc : ∀ u m, c u = some m → m ∈ h ∧ m.member = some u)
    (he : ∀ e ∈ es, e ∈ h) (u : Str) (m : Ev) (hm : learn c es u = some m) : m ∈ h ∧ m.member = some u := by
  rw [learn_eq] at hm
  cases hl : lastOf es u with
  | some x =>
    rw [hl] at hm
    cases hm
    exact ⟨he _ (lastOf_some hl).1, (lastOf_some hl).2⟩
  | none => rw [hl, Option.none_or] at hm; exact hc u m hm

theorem real_step {rep : Bool} {w : W} (h : Real w) (o : Op) : Real (step rep w o).1 := by
  cases o with
  | store r e =>
    intro q u m hm
    obtain ⟨h1, h2⟩ := h q u m hm
    refine ⟨?_, h2⟩
    simp only [step, set]
    split
    · rename_i hqr; subst hqr; exact List.mem_append_left _ h1
    · exact h1
  | initial r n limit l shown =>
    intro q u m hm
    simp only [step, set] at hm ⊢
    split at hm
    · rename_i hqr
      subst hqr
      refine learn_real ?_ ?_ u m hm
      · intro u m hm
        split at hm
        · cases hm
        · exact h q u m hm
      · intro e he
        rcases List.mem_append.1 he with he | he
        · split at he
          · obtain ⟨v, _, hv⟩ := List.mem_filterMap.1 he
            exact memberAt_real hv
          · cases he
        · exact timeline_sub he
    · exact h q u m hm
  | live r n =>
    simp only [step]
    split
    · exact h
    · split
      · exact h
      · rename_i e he
        split
        · exact h
        · intro q u m hm
          simp only [set] at hm ⊢
          split at hm
          · rename_i hqr
            subst hqr
            refine learn_real (h q) ?_ u m hm
            intro x hx
            rcases List.mem_append.1 hx with hx | hx
            · exact lazyUser_real hx
            · simp only [List.mem_singleton] at hx
              subst hx
              exact List.mem_of_getElem? he
          · exact h q u m hm
  | typing r us =>
    intro q u m hm
    simp only [step, set] at hm ⊢
    split at hm
    · rename_i hqr
      subst hqr
      exact learn_real (h q) (fun e he => lazyUsers_real he) u m hm
    · exact h q u m hm

/-- C149: a client never has anything but member events of the user that are stored in the room. -/
theorem C149_real (rep : Bool) (ops : List Op) (r u : Str) (m : Ev) (h : (run rep {} ops).client r u = some m) :
    m ∈ (run rep {} ops).hist r ∧ m.member = some u := by
  have : ∀ (ops : List Op) (w : W), Real w → Real (run rep w ops) := by
    intro ops
    induction ops with
    | nil => exact fun _ h => h
    | cons o os ih => exact fun w h => ih _ (real_step h o)
  exact this ops {} (fun _ _ _ h => nomatch h) r u m h

/-! ## Cases -/

def r : Str := ['r']
def a : Str := ['a']
def b : Str := ['b']
/-- Two members, a message of `b`, and one of `a`. -/
def start : List Op := [.store r ⟨1, a, some a⟩, .store r ⟨2, b, some b⟩, .store r ⟨3, b, none⟩, .store r ⟨4, a, none⟩]

/-- The room with its last message, then a message of `b`: the member event of `b` comes with it, once. -/
example : let w := run false {} (start ++ [.initial r 4 1 true (fun _ => true), .store r ⟨5, b, none⟩, .store r ⟨6, b, none⟩])
    (step false w (.live r 5)).2 = some ⟨r, [⟨2, b, some b⟩], [⟨5, b, none⟩], []⟩ ∧
    (step false (step false w (.live r 5)).1 (.live r 6)).2 = some ⟨r, [], [⟨6, b, none⟩], []⟩ ∧
    w.client r a = some ⟨1, a, some a⟩ ∧ w.client r b = none := by decide +kernel

/-- `b` types. -/
example : let w := run false {} (start ++ [.initial r 4 1 true (fun _ => true)])
    (step false w (.typing r [b, a])).2 = some ⟨r, [⟨2, b, some b⟩], [], [b, a]⟩ := by decide +kernel

/-- C149 fails for a room that is sent twice. `b` is known and changes their profile while the room is out of view; the room comes back
with a timeline without `b`; the message `b` then sends comes without the member event, and the client has the old one. -/
theorem C149_violated_stale : let w := run false {} (start ++ [.initial r 4 2 true (fun _ => true), .store r ⟨5, b, some b⟩,
      .store r ⟨6, a, none⟩, .initial r 6 1 true (fun _ => true), .store r ⟨7, b, none⟩])
    (step false w (.live r 7)).2 = some ⟨r, [], [⟨7, b, none⟩], []⟩ ∧
    (step false w (.live r 7)).1.client r b = some ⟨2, b, some b⟩ ∧ memberAt (w.hist r) 7 b = some ⟨5, b, some b⟩ := by decide +kernel

/-- C149 fails for a client that takes `initial: true` to replace what it has of the room: after the second one the sender of a live
message is not known to it. -/
theorem C149_violated_replaced : let w := run true {} (start ++ [.initial r 4 2 true (fun _ => true), .initial r 4 1 true (fun _ => true),
      .store r ⟨5, b, none⟩])
    (step true w (.live r 5)).2 = some ⟨r, [], [⟨5, b, none⟩], []⟩ ∧ (step true w (.live r 5)).1.client r b = none ∧
    memberAt (w.hist r) 5 b = some ⟨2, b, some b⟩ := by decide +kernel

/-- C149 fails for a room that is sent with an empty timeline, for example because its last messages are of ignored users: the room is
never taken to be loaded lazily, and no member event is sent with later messages. -/
theorem C149_violated_empty : let w := run false {} (start ++ [.initial r 4 1 true (fun _ => false), .store r ⟨5, b, none⟩])
    (step false w (.live r 5)).2 = some ⟨r, [], [⟨5, b, none⟩], []⟩ ∧ (step false w (.live r 5)).1.client r b = none ∧
    memberAt (w.hist r) 5 b = some ⟨2, b, some b⟩ := by decide +kernel

/-- The hypotheses of `C149_current_partial` hold for a room that is sent and then followed. -/
example : ∃ w, ReachStraight true w ∧ Good true w (.live r 5) ∧ Straight w (.live r 5) ∧
    (step true w (.live r 5)).2 = some ⟨r, [⟨2, b, some b⟩], [⟨5, b, none⟩], []⟩ := by
  have hsp : ' ' ∉ r := by decide
  have h1 : ReachStraight true (run true {} start) :=
    .step (.store r ⟨4, a, none⟩) (.step (.store r ⟨3, b, none⟩) (.step (.store r ⟨2, b, some b⟩) (.step (.store r ⟨1, a, some a⟩) .init
      ⟨hsp, trivial⟩ trivial) ⟨hsp, trivial⟩ trivial) ⟨hsp, trivial⟩ trivial) ⟨hsp, trivial⟩ trivial
  have h2 : Good true (run true {} start) (.initial r 4 1 true (fun _ => true)) := by
    refine ⟨hsp, rfl, by decide +kernel, ?_, by decide +kernel⟩
    intro e he
    have : e = ⟨4, a, none⟩ := by
      have ht : timeline ((run true {} start).hist r) 4 1 (fun _ => true) = [⟨4, a, none⟩] := by decide +kernel
      rw [ht] at he
      simpa using he
    subst this
    exact ⟨⟨1, a, some a⟩, (isMember_iff _ _ _ _).2 (by decide +kernel)⟩
  have h3 := ReachStraight.step (.initial r 4 1 true (fun _ => true)) h1 h2 (show (run true {} start).sent r = false by decide +kernel)
  have h4 := ReachStraight.step (.store r ⟨5, b, none⟩) h3 ⟨hsp, trivial⟩ trivial
  exact ⟨_, h4, ⟨hsp, by decide +kernel⟩, ⟨by decide +kernel, by decide +kernel⟩, by decide +kernel⟩

end Verif.LazyFlow
