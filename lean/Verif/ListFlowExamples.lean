import Verif.ListFlowProps
import Verif.ListSyncExamples
/-!
# Histories for C138: where the client goes wrong, and that the hypotheses can be met
-/
namespace Verif.ListFlow
open Verif Verif.Request Verif.Ranges

def strs : Lists.Strs := ⟨id, id⟩

/-- What is computed of the states in the examples. -/
structure View where
  subscribed : Bool := true
  loaded : Bool := true
  queue : List FilterFlow.Entry := []
  held : List FilterFlow.Entry := []
  lp : Nat
  a : Filters.Room
  b : Filters.Room
  cur : Option RList
  out : Option (List ListSync.COp) := none
  count : Nat
  shown : List (Option String)
  deriving DecidableEq

def look (w : W) : View :=
  ⟨w.st.subscribed, w.st.loaded, w.st.queue, w.st.held, w.st.lp "!a", FilterFlow.now w.st "!a", FilterFlow.now w.st "!b", w.cur,
    w.out, w.count, (List.range w.count).map fun i : Nat => w.m.get (i : Int)⟩

theorem seen {ops : List Op} {v : View} (h : (run strs "l" {} ops).map look = some v) : ∃ w, run strs "l" {} ops = some w ∧ look w = v :=
  Option.map_eq_some_iff.1 h

theorem shown_at {w : W} {v : View} (h : look w = v) (i : Nat) {x : Option String} (hx : v.shown[i]? = some x) : w.m.get i = x := by
  subst h
  simp only [look, List.getElem?_map] at hx
  rw [Option.map_eq_some_iff] at hx
  obtain ⟨n, h1, h2⟩ := hx
  have := List.getElem?_eq_some_iff.1 h1
  obtain ⟨_, h3⟩ := this
  simp only [List.getElem_range] at h3
  rw [h3]; exact h2

def ask (f : Filters.Filter) (by_ : String) : RList := { ranges := some [(0, 9)], sort := some [by_], filters := some f }

def req (f : Filters.Filter) (by_ : String) : Op := .request (some (ask f by_)) (fun _ => true) id id

/-- A connection that has loaded the rooms `!a` and `!b`, and has answered a request. -/
def begun (f : Filters.Filter) (by_ : String) : List Op :=
  [.flow (.state "!a" 1 { name := "A" } none true), .flow (.state "!b" 2 { name := "B" } none true), .flow .connect,
    .flow (.load [("!a", {}), ("!b", {})] [] (fun r => if r = "!a" then some 1 else if r = "!b" then some 2 else none)),
    req f by_, .respond]

def p (x : FilterFlow.X) : Op := .flow (.process (fun _ => ⟨[], [], false⟩) x true)

def roomA : Filters.Room := ⟨none, false, false, false, false, "A", none, [], []⟩
def roomB : Filters.Room := ⟨none, false, false, false, false, "B", none, [], []⟩

/-! ## That the hypotheses can be met -/

/-- The requirements on a step that do not depend on the state. -/
def OkOp : Op → Prop
  | .flow (.list o) => Lists.Good o ∧ ListSync.Other "l" o
  | .flow _ => True
  | .request next _ p1 p2 =>
    (∀ n, next = some n → ListSync.OkList n ∧ ∀ prev, ListSync.OneIndex prev n) ∧ (∀ l, (p1 l).Perm l) ∧ ∀ l, (p2 l).Perm l
  | .respond => True

/-- Those that do, as a check. -/
def okB (w : W) : List Op → Bool
  | [] => true
  | o :: os =>
    (match o with | .flow (.load _ _ _) => w.st.lists.lists.isEmpty | _ => true) &&
    match step strs "l" w o with
    | none => true
    | some w' => (w'.out.map ListSync.tameB).getD true && okB w' os

/-- As in `ListSyncExamples`. -/
theorem okRun_of {ops : List Op} : ∀ {w : W}, (∀ o ∈ ops, OkOp o) → okB w ops = true → OkRun strs "l" w ops := by
  induction ops with
  | nil => intro w _ _; trivial
  | cons o ops ih =>
    intro w h1 h2
    simp only [okB, Bool.and_eq_true] at h2
    have ho := h1 o (List.mem_cons_self ..)
    refine ⟨?_, ?_⟩
    · cases o with
      | flow q =>
        cases q <;> first | exact ho | skip
        exact List.isEmpty_iff.1 h2.1
      | request next joined p1 p2 =>
        obtain ⟨a, b, c⟩ := ho
        exact ⟨fun n hn => ⟨(a n hn).1, (a n hn).2 _⟩, b, c⟩
      | respond => trivial
    · intro w' hw
      have h3 := h2.2
      rw [hw] at h3
      simp only [Bool.and_eq_true] at h3
      refine ⟨fun l hl => ?_, ih (fun x hx => h1 x (List.mem_cons_of_mem _ hx)) h3.2⟩
      have := h3.1
      rw [hl] at this
      exact ListSync.tameB_tame this

theorem req_ok (f : Filters.Filter) {by_ : String} (h : SortableRooms.Supported by_) : OkOp (req f by_) := by
  refine ⟨fun n hn => ?_, fun _ => List.Perm.refl _, fun _ => List.Perm.refl _⟩
  cases hn
  refine ⟨⟨rfl, ⟨[by_], rfl, fun o ho => ?_⟩, rfl⟩, ?_⟩
  · rw [List.mem_singleton.1 ho]; exact h
  · intro prev q _ _ _ i hi
    have hi : (i, i) ∈ [((0 : Int), (9 : Int))] := hi
    simp only [List.mem_singleton, Prod.mk.injEq] at hi
    omega

/-- The room `!a` is renamed while `!b` stays. -/
def exA : List Op := begun {} "by_name"
def exO : FilterFlow.Op := .state "!a" 4 { name := "X" } none true
def exB : List Op := [req {} "by_name", p {}, .respond]

def hist : List Op := exA ++ .flow exO :: exB

theorem hist_ok : OkRun strs "l" {} hist := by
  refine okRun_of ?_ (by decide +kernel)
  have hs : SortableRooms.Supported "by_name" := by simp [SortableRooms.Supported, SortableRooms.before]
  intro o ho
  simp only [hist, exA, begun, exB, exO, List.cons_append, List.nil_append, List.mem_cons, List.not_mem_nil, or_false] at ho
  rcases ho with rfl | rfl | rfl | rfl | rfl | rfl | rfl | rfl | rfl | rfl <;> first | trivial | exact req_ok _ hs

/-- The prefixes of a run. -/
theorem prefix_take {a b : List Op} {w s' : W} {n : Nat} {P : View → Prop} {b1 b2 : List Op} (h0 : run strs "l" {} a = some w)
    (hb : b.length < n) (hc : ∀ k < n, ∀ v, (run strs "l" {} (a ++ b.take k)).map look = some v → P v) (he : b = b1 ++ b2)
    (hr : run strs "l" w b1 = some s') : P (look s') := by
  refine hc b1.length ?_ (look s') ?_
  · have := congrArg List.length he
    simp only [List.length_append] at this
    omega
  · rw [he, List.take_left, run_append strs "l" h0, hr]
    rfl

def final : View :=
  { lp := 4, a := { roomA with name := "X" }, b := roomB, cur := some (ask {} "by_name"), count := 2, shown := [some "!b", some "!a"] }

/-- The hypotheses of the theorems of C138 are met: after the rooms are loaded and shown, one is renamed, and is shown in its new place. -/
example : ∃ w, OkRun strs "l" {} hist ∧ run strs "l" {} hist = some w ∧ w.out = none ∧ w.cur = some (ask {} "by_name") ∧
    Whole w (ask {} "by_name") ∧ Current strs "l" hist w "!a" ∧ Current strs "l" hist w "!b" ∧
    (FilterFlow.now w.st "!a").upgraded = none ∧ (FilterFlow.now w.st "!a").hasLeft = false ∧ ShownAt w 0 "!b" ∧ ShownAt w 1 "!a" := by
  have c1 : ∀ k < 4, ((run strs "l" {} ((exA ++ [.flow exO]) ++ exB.take k)).map look).map
      (fun v => (decide (v.lp ≤ 4), v.a)) = some (true, final.a) := by decide +kernel
  have c2 : ∀ k < 7, ((run strs "l" {} (exA.take 4 ++ (exA.drop 4 ++ .flow exO :: exB).take k)).map look).map (·.b) = some roomB := by
    decide +kernel
  obtain ⟨w, h, hv⟩ := seen (ops := hist) (v := final) (by decide +kernel)
  obtain ⟨s, h0, hv0⟩ := seen (ops := exA)
    (v := { lp := 1, a := roomA, b := roomB, cur := some (ask {} "by_name"), count := 2, shown := [some "!a", some "!b"] }) (by decide +kernel)
  obtain ⟨s1, h1, hv1⟩ := seen (ops := exA ++ [.flow exO])
    (v := { lp := 1, a := final.a, b := roomB, cur := some (ask {} "by_name"), count := 2, shown := [some "!a", some "!b"],
            queue := [⟨"!a", final.a, some { nid := 4, wait := "!a" }⟩] }) (by decide +kernel)
  obtain ⟨t, g0, gv⟩ := seen (ops := exA.take 3)
    (v := { loaded := false, lp := 0, a := roomA, b := roomB, cur := none, count := 0, shown := [] }) (by decide +kernel)
  obtain ⟨t1, g1, _⟩ := seen (ops := exA.take 4)
    (v := { lp := 1, a := roomA, b := roomB, cur := none, count := 0, shown := [] }) (by decide +kernel)
  have hs := shown_at hv
  injection hv with v1 v2 v3 v4 v5 v6 v7 v8 v9 v10 v11
  injection hv0 with u1 u2 u3 u4
  injection gv with z1 z2 z3 z4 z5 z6 z7
  refine ⟨w, hist_ok, h, v9, v8, ?_, ?_, ?_, by rw [v6]; rfl, by rw [v6]; rfl, ⟨by omega, by rw [v10]; decide, hs 0 rfl⟩,
    ⟨by omega, by rw [v10]; decide, hs 1 rfl⟩⟩
  · intro i h0 h1
    rw [v10] at h1
    exact ⟨(0, 9), List.mem_cons_self .., h0, by have : i < ((2 : Nat) : Int) := h1; simp only; omega⟩
  · have hstep : step strs "l" s (.flow exO) = some s1 := by
      rw [run_append strs "l" h0] at h1
      simp only [run, Option.bind_fun_some] at h1
      exact h1
    have ha : ∀ b1 b2 s', exB = b1 ++ b2 → run strs "l" s1 b1 = some s' →
        FilterFlow.Kept s'.st "!a" exO ∧ FilterFlow.now s'.st "!a" = FilterFlow.now w.st "!a" := by
      intro b1 b2 s' he hr
      have := prefix_take (n := 4) (P := fun v => v.lp ≤ 4 ∧ v.a = final.a) h1 (by decide) (fun k hk v hv => by
        have := c1 k hk
        rw [hv] at this
        simp only [Option.map_some, Option.some.injEq, Prod.mk.injEq, decide_eq_true_eq] at this
        exact this) he hr
      exact ⟨this.1, by rw [v6]; exact this.2⟩
    refine .told exA exB exO s s1 rfl h0 u1 ⟨rfl, by decide, rfl⟩ ?_ hstep ha ?_ ⟨v2, ?_⟩
    · intro e he
      rw [u4] at he
      cases he
    · intro x hx
      simp only [exB, List.mem_cons, List.not_mem_nil, or_false] at hx
      rcases hx with rfl | rfl | rfl <;> trivial
    · rw [v3, v4]
      intro e he
      cases he
  · have hstep : step strs "l" t (.flow (.load [("!a", {}), ("!b", {})] []
        (fun r => if r = "!a" then some 1 else if r = "!b" then some 2 else none))) = some t1 := by
      have : exA.take 4 = exA.take 3 ++ [.flow (.load [("!a", {}), ("!b", {})] []
        (fun r => if r = "!a" then some 1 else if r = "!b" then some 2 else none))] := rfl
      rw [this, run_append strs "l" g0] at g1
      simp only [run, Option.bind_fun_some] at g1
      exact g1
    refine .loaded (exA.take 3) (exA.drop 4 ++ .flow exO :: exB) _ [] _ t t1 rfl g0 z2 ⟨{}, by simp⟩ ?_ ?_ hstep ?_ ?_
    · have : (FilterFlow.now t.st "!b").isInvite = false := by rw [z7]; rfl
      exact this
    · rw [z3, z4]
      intro e he
      cases he
    · intro b1 b2 s' he hr
      have := prefix_take (n := 7) (P := fun v => v.b = roomB) g1 (by decide) (fun k hk v hv => by
        have := c2 k hk
        rw [hv] at this
        simp only [Option.map_some, Option.some.injEq] at this
        exact this) he hr
      rw [v7]
      exact this
    · intro x hx
      simp only [exA, begun, exB, exO, List.drop, List.cons_append, List.nil_append, List.mem_cons, List.not_mem_nil, or_false] at hx
      rcases hx with rfl | rfl | rfl | rfl | rfl | rfl <;> trivial

/-! ## Where the client goes wrong -/

/-- A room that becomes a direct chat is not shown in the client's list of direct chats, although everything is processed and answered. -/
theorem C138_violated_direct : ∃ ops w, run strs "l" {} ops = some w ∧ w.st.queue = [] ∧ w.st.held = [] ∧ w.out = none ∧
    w.cur = some (ask { isDM := some true } "by_name") ∧ (FilterFlow.now w.st "!a").isDM = true ∧ w.count = 0 := by
  obtain ⟨w, h, hv⟩ := seen (ops := begun { isDM := some true } "by_name" ++ [.flow (.direct ["!a"]), req { isDM := some true } "by_name", .respond])
    (v := { lp := 1, a := { roomA with isDM := true }, b := roomB, cur := some (ask { isDM := some true } "by_name"), count := 0, shown := [] })
    (by decide +kernel)
  injection hv with _ _ h1 h2 _ h3 _ h4 h5 h6
  exact ⟨_, w, h, h1, h2, h5, h4, by rw [h3], h6⟩

/-- Two updates in one response: a room is tagged and leaves the list (DELETE 1), and the last room is renamed and moves to the top
(DELETE 2, INSERT 0). The client then has no room at an index below the count. -/
theorem C138_violated_batch : ∃ ops w, run strs "l" {} ops = some w ∧ w.st.queue = [] ∧ w.st.held = [] ∧ w.out = none ∧
    w.cur = some (ask { notTags := ["low"] } "by_name") ∧ w.count = 3 ∧ w.m.get 2 = none := by
  obtain ⟨w, h, hv⟩ := seen (ops := [.flow (.state "!a" 1 { name := "A" } none true), .flow (.state "!b" 2 { name := "B" } none true),
      .flow (.state "!c" 3 { name := "C" } none true), .flow (.state "!d" 4 { name := "D" } none true), .flow .connect,
      .flow (.load [("!a", {}), ("!b", {}), ("!c", {}), ("!d", {})] [] (fun _ => some 4)), req { notTags := ["low"] } "by_name", .respond,
      .flow (.tag "!b" ["low"]), .flow (.state "!d" 5 { name := "0" } none true), req { notTags := ["low"] } "by_name", p {}, p {}, .respond])
    (v := { lp := 4, a := roomA, b := { roomB with tags := ["low"] }, cur := some (ask { notTags := ["low"] } "by_name"), count := 3,
            shown := [some "!d", some "!a", none] }) (by decide +kernel)
  have hs := shown_at hv 2 rfl
  injection hv with _ _ h1 h2 _ _ _ h4 h5 h6
  exact ⟨_, w, h, h1, h2, h5, h4, h6, hs⟩

end Verif.ListFlow
