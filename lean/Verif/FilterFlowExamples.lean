import Verif.FilterFlowProps
/-!
# Histories for C137: where lists go wrong, and that the hypotheses can be met
-/
namespace Verif.FilterFlow
open Verif

def strs : Lists.Strs := ⟨id, id⟩

def req : String → Lists.Req := fun _ => ⟨[(0, 9)], ["by_recency"], false⟩

/-- What is computed of the states in the examples. -/
structure View where
  subscribed : Bool := true
  loaded : Bool := true
  queue : List Entry := []
  held : List Entry := []
  lp : Nat
  now : Filters.Room
  /-- the connection's copy of the room `!c` -/
  other : Option Filters.Room := none
  filter : Option Filters.Filter
  ids : Option (List String)
  deriving DecidableEq

def look (s : St) : View :=
  ⟨s.subscribed, s.loaded, s.queue, s.held, s.lp "!a", now s "!a", Lists.findF s.lists.all "!c",
    (Lists.getList s.lists "l").map (·.filter), (Lists.getList s.lists "l").map (·.sr.ids)⟩

theorem seen {ops : List Op} {v : View} (h : (run strs {} ops).map look = some v) : ∃ s, run strs {} ops = some s ∧ look s = v :=
  Option.map_eq_some_iff.1 h

/-- A connection that has loaded the rooms `!a` and `!b`, with a list. -/
def begun (f : Filters.Filter) : List Op :=
  [.state "!a" 1 { name := "A" } none true, .state "!b" 2 { name := "B" } none true, .connect,
    .load [("!a", {}), ("!b", {})] [] (fun r => if r = "!a" then some 1 else if r = "!b" then some 2 else none),
    .list (.assign "l" f (some ["by_recency"]) true id)]

def p : Op := .process req {} true

/-- The room `!a` at first. -/
def roomA : Filters.Room := ⟨none, false, false, false, false, "A", none, [], []⟩

/-- A room that becomes a direct chat is not put into the list of direct chats, although the connection has processed everything. -/
theorem C137_violated_direct : ∃ ops s, run strs {} ops = some s ∧ s.queue = [] ∧ s.held = [] ∧ (now s "!a").isDM = true ∧
    (Lists.getList s.lists "l").map (·.filter) = some { isDM := some true } ∧ (Lists.getList s.lists "l").map (·.sr.ids) = some [] := by
  obtain ⟨s, h, hv⟩ := seen (ops := begun { isDM := some true } ++ [.direct ["!a"]])
    (v := { lp := 1, now := { roomA with isDM := true }, filter := some { isDM := some true }, ids := some [] }) (by decide +kernel)
  injection hv with _ _ h1 h2 _ h3 _ h4 h5
  exact ⟨_, s, h, h1, h2, by rw [h3], h4, h5⟩

/-- The user's own message waits for its transaction id; the user tags the room, and it is put into the list of favourites; the message
is released, with what the room was before, and the room is taken out of the list. -/
theorem C137_violated_held : ∃ ops ops' s s', run strs {} ops = some s ∧ run strs s ops' = some s' ∧
    (Lists.getList s.lists "l").map (·.sr.ids) = some ["!a"] ∧ s'.queue = [] ∧ s'.held = [] ∧ (now s' "!a").tags = ["fav"] ∧
    (Lists.getList s'.lists "l").map (·.filter) = some { tags := ["fav"] } ∧ (Lists.getList s'.lists "l").map (·.sr.ids) = some [] := by
  obtain ⟨s, h, hv⟩ := seen (ops := begun { tags := ["fav"] } ++ [.message "!a" 3 "@me" true true, .tag "!a" ["fav"], p])
    (v := { lp := 1, now := { roomA with tags := ["fav"] }, filter := some { tags := ["fav"] }, ids := some ["!a"],
            held := [⟨"!a", roomA, some { nid := 3, wait := "!a", sender := some "@me", noTxn := true }⟩] }) (by decide +kernel)
  obtain ⟨s', h', hv'⟩ := seen
    (ops := (begun { tags := ["fav"] } ++ [.message "!a" 3 "@me" true true, .tag "!a" ["fav"], p]) ++ [.release "!a", p])
    (v := { lp := 3, now := { roomA with tags := ["fav"] }, filter := some { tags := ["fav"] }, ids := some [] }) (by decide +kernel)
  rw [run_append strs h] at h'
  injection hv with _ _ _ _ _ _ _ _ h5
  injection hv' with _ _ h1 h2 _ h3 _ h4 h6
  exact ⟨_, _, s, s', h, h', h5, h1, h2, by rw [h3], h4, h6⟩

/-- A room becomes encrypted, then an ignored user sends a message. Both are queued when the room is sent to the client, with a timeline
up to the message: the first is skipped for being old, the second for being ignored. -/
theorem C137_violated_ignored : ∃ ops s, run strs {} ops = some s ∧ s.queue = [] ∧ s.held = [] ∧ (now s "!a").encrypted = true ∧
    (Lists.getList s.lists "l").map (·.filter) = some { isEncrypted := some true } ∧
    (Lists.getList s.lists "l").map (·.sr.ids) = some [] := by
  obtain ⟨s, h, hv⟩ := seen
    (ops := begun { isEncrypted := some true } ++ [.ignore ["@x"], .state "!a" 3 { name := "A", encrypted := true } none true,
      .message "!a" 4 "@x" false true, .build "!a" 4, p, p])
    (v := { lp := 4, now := { roomA with encrypted := true }, filter := some { isEncrypted := some true }, ids := some [] })
    (by decide +kernel)
  injection hv with _ _ h1 h2 _ h3 _ h4 h5
  exact ⟨_, s, h, h1, h2, by rw [h3], h4, h5⟩

/-- A room is upgraded and then the user joins the new one: the old one stays in the list, which does not show upgraded rooms whose new
room the user is in. -/
theorem C137_violated_upgrade : ∃ ops s, run strs {} ops = some s ∧ s.queue = [] ∧ s.held = [] ∧
    Filters.Superseded (Lists.findF s.lists.all) (now s "!a") ∧ (Lists.getList s.lists "l").map (·.filter) = some {} ∧
    (Lists.getList s.lists "l").map (·.sr.ids) = some ["!c", "!a", "!b"] := by
  obtain ⟨s, h, hv⟩ := seen
    (ops := begun {} ++ [.state "!a" 3 { name := "A", upgraded := some "!c" } none true, p,
      .state "!c" 4 { name := "C" } (some false) true, .process req { lastMsg := 4 } true])
    (v := { lp := 3, now := { roomA with upgraded := some "!c" }, other := some { roomA with name := "C" }, filter := some {},
            ids := some ["!c", "!a", "!b"] }) (by decide +kernel)
  injection hv with _ _ h1 h2 _ h3 h6 h4 h5
  exact ⟨_, s, h, h1, h2, ⟨"!c", { roomA with name := "C" }, by rw [h3], h6, rfl, rfl⟩, h4, h5⟩

def exA : List Op := begun { nameLike := "X" } ++ [.message "!a" 3 "@me" true true]
def exO : Op := .state "!a" 4 { name := "X" } none true
def exB : List Op := [.release "!a", .release "!a", p, p]

def waiting : Entry := ⟨"!a", roomA, some { nid := 3, wait := "!a", sender := some "@me", noTxn := true }⟩

/-- The hypotheses of C137 are met: a room is renamed behind a message that waits, and both are released and processed. -/
example : ∃ s s1 s2, run strs {} exA = some s ∧ s.subscribed = true ∧ Tells "!a" exO ∧ InOrder s "!a" exO ∧ step strs s exO = some s1 ∧
    run strs s1 exB = some s2 ∧ (∀ b1 b2 s', exB = b1 ++ b2 → run strs s1 b1 = some s' → Kept s' "!a" exO) ∧ (∀ x ∈ exB, Plain "!a" x) ∧
    Steady strs s1 exB "!a" (now s2 "!a") ∧ CaughtUp s2 "!a" ∧ (now s2 "!a").upgraded = none ∧ (now s2 "!a").hasLeft = false ∧
    s.held ≠ [] ∧ (Lists.getList s.lists "l").map (·.sr.ids) = some [] ∧
    (Lists.getList s2.lists "l").map (·.sr.ids) = some ["!a"] := by
  have c1 : ∀ k < 5, ((run strs {} (exA ++ ([exO] ++ exB.take k))).map look).map (fun v => (decide (v.lp ≤ 4), v.now)) =
      some (true, { roomA with name := "X" }) := by decide +kernel
  obtain ⟨s, h0, v0⟩ := seen (ops := exA)
    (v := { lp := 1, now := roomA, filter := some { nameLike := "X" }, ids := some [], held := [waiting] }) (by decide +kernel)
  obtain ⟨s2, h2, v2⟩ := seen (ops := exA ++ ([exO] ++ exB))
    (v := { lp := 4, now := { roomA with name := "X" }, filter := some { nameLike := "X" }, ids := some ["!a"] }) (by decide +kernel)
  rw [run_append strs h0] at h2
  obtain ⟨s1, h1, h2⟩ := Option.bind_eq_some_iff.1 h2
  injection v0 with v01 _ _ v04 _ _ _ _ v09
  injection v2 with _ v22 v23 v24 _ v26 _ _ v29
  have cp : ∀ b1 b2 s', exB = b1 ++ b2 → run strs s1 b1 = some s' → s'.lp "!a" ≤ 4 ∧ now s' "!a" = { roomA with name := "X" } := by
    intro b1 b2 s' he hr
    have hlen : b1.length < 5 := by
      have := congrArg List.length he
      simp only [List.length_append, exB, List.length_cons, List.length_nil] at this
      omega
    have h := c1 b1.length hlen
    have hrun : run strs s ([exO] ++ b1) = run strs s1 b1 := by
      show (step strs s exO).bind _ = _
      rw [h1]
      rfl
    rw [he, List.take_left, run_append strs h0, hrun, hr] at h
    simp only [Option.map_some, look, Option.some.injEq, Prod.mk.injEq, decide_eq_true_eq] at h
    exact h
  refine ⟨s, s1, s2, h0, v01, ⟨rfl, by decide, rfl⟩, ?_, h1, h2, fun b1 b2 s' he hr => (cp b1 b2 s' he hr).1, ?_, ?_,
    ⟨v22, ?_⟩, ?_, ?_, ?_, v09, v29⟩
  · intro e he _
    rw [v04] at he
    rw [List.mem_singleton.1 he]
    rfl
  · intro x hx
    simp only [exB, List.mem_cons, List.not_mem_nil, or_false] at hx
    rcases hx with rfl | rfl | rfl | rfl <;> trivial
  · intro b1 b2 s' he hr
    rw [(cp b1 b2 s' he hr).2]
    exact v26.symm
  · rw [v23, v24]
    intro e he
    cases he
  · rw [v26]; rfl
  · rw [v26]; rfl
  · rw [v04]; simp

/-- So are those for loaded rooms. -/
example : ∃ s s2, run strs {} ((begun {}).take 3) = some s ∧ s.loaded = false ∧ (s.usr "!a").isInvite = false ∧
    (∀ e ∈ s.queue ++ s.held, e.room ≠ "!a") ∧ run strs s ((begun {}).drop 3) = some s2 ∧
    (Lists.getList s2.lists "l").map (·.sr.ids) = some ["!a", "!b"] := by
  obtain ⟨s, h, hv⟩ := seen (ops := (begun {}).take 3)
    (v := { loaded := false, lp := 0, now := roomA, filter := none, ids := none }) (by decide +kernel)
  obtain ⟨s2, h2, hv2⟩ := seen (ops := (begun {}).take 3 ++ (begun {}).drop 3)
    (v := { lp := 1, now := roomA, filter := some {}, ids := some ["!a", "!b"] }) (by decide +kernel)
  rw [run_append strs h] at h2
  injection hv with _ v2 v3 v4 _ v6
  injection hv2 with _ _ _ _ _ _ _ _ v9
  refine ⟨s, s2, h, v2, ?_, ?_, h2, v9⟩
  · have : (now s "!a").isInvite = false := by rw [v6]; rfl
    exact this
  · rw [v3, v4]
    intro e he
    cases he

end Verif.FilterFlow
