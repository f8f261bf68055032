import Verif.InviteData
import Verif.RoomNameProps
import Verif.Util
/-!
# C103: an invite is shown as what it says
-/
namespace Verif.InviteData
open Verif.RoomName (Meta Hero removeHero Calculate nameSpec calculateAvatar)

/-! ## Specification -/

/-- The value of a state event with an empty key in the invite state: of the last such event. -/
def valueOf (evs : List SEv) (type : String) : String :=
  (((evs.filter fun e => decide (e.type = type ∧ e.stateKey = "")).getLast?).map (·.value)).getD ""

/-- The user's own member event: the invite. -/
def inviteOf (evs : List SEv) (user : String) : Option SEv :=
  (evs.filter fun e => decide (e.type = "m.room.member" ∧ e.stateKey = user)).getLast?

/-- The member events of others which they sent themselves. -/
def selves (evs : List SEv) (user : String) : List SEv :=
  evs.filter fun e => decide (e.type = "m.room.member" ∧ e.stateKey ≠ user ∧ e.stateKey = e.sender)

/-- The name shown for a member: the display name, or the id. -/
def nameOf (e : SEv) : String := if e.displayname = "" then e.stateKey else e.displayname

/-! ## The loop -/

/-- Last event of the type, whatever its key. -/
def lastOf (evs : List SEv) (type : String) : Option SEv := (evs.filter fun e => decide (e.type = type)).getLast?

theorem lastOf_snoc (evs : List SEv) (e : SEv) (type : String) :
    lastOf (evs ++ [e]) type = if e.type = type then some e else lastOf evs type := by
  unfold lastOf
  by_cases h : e.type = type
  · rw [List.filter_append, List.filter_cons_of_pos (by simpa using h)]; simp [h]
  · rw [List.filter_append, List.filter_cons_of_neg (by simpa using h)]; simp [h]

theorem inviteOf_snoc (evs : List SEv) (e : SEv) (user : String) :
    inviteOf (evs ++ [e]) user = if e.type = "m.room.member" ∧ e.stateKey = user then some e else inviteOf evs user := by
  unfold inviteOf
  by_cases h : e.type = "m.room.member" ∧ e.stateKey = user
  · rw [List.filter_append, List.filter_cons_of_pos (by simpa using h)]; simp [h]
  · rw [List.filter_append, List.filter_cons_of_neg (by simpa using h), if_neg h]; simp

theorem selves_snoc (evs : List SEv) (e : SEv) (user : String) :
    selves (evs ++ [e]) user = if e.type = "m.room.member" ∧ e.stateKey ≠ user ∧ e.stateKey = e.sender then selves evs user ++ [e] else selves evs user := by
  unfold selves
  by_cases h : e.type = "m.room.member" ∧ e.stateKey ≠ user ∧ e.stateKey = e.sender
  · rw [List.filter_append, List.filter_cons_of_pos (by simpa using h), if_pos h]; simp
  · rw [List.filter_append, List.filter_cons_of_neg (by simpa using h), if_neg h]; simp

structure Scanned (user room : String) (all evs : List SEv) (d : Data) : Prop where
  roomID : d.roomID = room
  inviteState : d.inviteState = all
  heroes : d.heroes = (selves evs user).map fun e => ⟨e.stateKey, e.displayname, e.avatarURL⟩
  inviteEvent : d.inviteEvent = inviteOf evs user
  ts : d.ts = ((inviteOf evs user).map (·.ts)).getD 0
  isDM : d.isDM = ((inviteOf evs user).map (·.direct)).getD false
  name : d.name = ((lastOf evs "m.room.name").map (·.value)).getD ""
  avatar : d.avatar = ((lastOf evs "m.room.avatar").map (·.value)).getD ""
  alias : d.alias = ((lastOf evs "m.room.canonical_alias").map (·.value)).getD ""
  roomType : d.roomType = ((lastOf evs "m.room.create").map (·.value)).getD ""
  encrypted : d.encrypted = (lastOf evs "m.room.encryption").isSome

theorem scanned (user room : String) (all evs : List SEv) :
    Scanned user room all evs (evs.foldl (scan user) { roomID := room, inviteState := all }) := by
  induction evs using Verif.Util.snocRec with
  | nil => exact ⟨rfl, rfl, rfl, rfl, rfl, rfl, rfl, rfl, rfl, rfl, rfl⟩
  | append_singleton evs e ih =>
    rw [List.foldl_append]
    simp only [List.foldl_cons, List.foldl_nil]
    obtain ⟨h1, h2, h3, h4, h5, h6, h7, h8, h9, h10, h11⟩ := ih
    generalize evs.foldl (scan user) { roomID := room, inviteState := all } = d at *
    unfold scan
    split
    · rename_i ht
      by_cases hu : user = e.stateKey
      · rw [if_pos hu]
        have hs : ¬ (e.type = "m.room.member" ∧ e.stateKey ≠ user ∧ e.stateKey = e.sender) := fun h => h.2.1 hu.symm
        have hi : e.type = "m.room.member" ∧ e.stateKey = user := ⟨ht, hu.symm⟩
        constructor <;> (try simp only [lastOf_snoc, inviteOf_snoc, selves_snoc, if_neg hs, if_pos hi]) <;> simp [h1, h2, h3, h7, h8, h9, h10, h11, ht]
      · rw [if_neg hu]
        have hu' : ¬ e.stateKey = user := fun h => hu h.symm
        by_cases hh : e.stateKey = e.sender
        · rw [if_pos hh]
          have hs : e.type = "m.room.member" ∧ e.stateKey ≠ user ∧ e.stateKey = e.sender := ⟨ht, hu', hh⟩
          have hi : ¬ (e.type = "m.room.member" ∧ e.stateKey = user) := fun h => hu' h.2
          constructor <;> (try simp only [lastOf_snoc, inviteOf_snoc, selves_snoc, if_pos hs, if_neg hi]) <;> simp [h1, h2, h3, h4, h5, h6, h7, h8, h9, h10, h11, ht]
        · rw [if_neg hh]
          have hs : ¬ (e.type = "m.room.member" ∧ e.stateKey ≠ user ∧ e.stateKey = e.sender) := fun h => hh h.2.2
          have hi : ¬ (e.type = "m.room.member" ∧ e.stateKey = user) := fun h => hu' h.2
          constructor <;> (try simp only [lastOf_snoc, inviteOf_snoc, selves_snoc, if_neg hs, if_neg hi]) <;> simp [h1, h2, h3, h4, h5, h6, h7, h8, h9, h10, h11, ht]
    · rename_i ht
      have hs : ¬ (e.type = "m.room.member" ∧ e.stateKey ≠ user ∧ e.stateKey = e.sender) := fun h => ht h.1
      have hi : ¬ (e.type = "m.room.member" ∧ e.stateKey = user) := fun h => ht h.1
      split
      · constructor <;> (try simp only [lastOf_snoc, inviteOf_snoc, selves_snoc, if_neg hs, if_neg hi]) <;> simp [*]
      split
      · constructor <;> (try simp only [lastOf_snoc, inviteOf_snoc, selves_snoc, if_neg hs, if_neg hi]) <;> simp [*]
      split
      · constructor <;> (try simp only [lastOf_snoc, inviteOf_snoc, selves_snoc, if_neg hs, if_neg hi]) <;> simp [*]
      split
      · constructor <;> (try simp only [lastOf_snoc, inviteOf_snoc, selves_snoc, if_neg hs, if_neg hi]) <;> simp [*]
      split
      · constructor <;> (try simp only [lastOf_snoc, inviteOf_snoc, selves_snoc, if_neg hs, if_neg hi]) <;> simp [*]
      · constructor <;> (try simp only [lastOf_snoc, inviteOf_snoc, selves_snoc, if_neg hs, if_neg hi]) <;> simp [*]

/-! ## Theorems -/

/-- **C103.** An invite is taken up exactly if the user's own member event is in the invite state. -/
theorem C103_exists (user room : String) (evs : List SEv) :
    (newInviteData user room evs).isSome = true ↔ ∃ e ∈ evs, e.type = "m.room.member" ∧ e.stateKey = user := by
  have h := (scanned user room evs evs).inviteEvent
  unfold newInviteData
  simp only [h]
  unfold inviteOf
  constructor
  · intro hs
    split at hs
    · cases hs
    · rename_i hne
      cases hl : (evs.filter fun e => decide (e.type = "m.room.member" ∧ e.stateKey = user)).getLast? with
      | none => exact absurd hl hne
      | some e =>
        have := List.mem_filter.1 (List.mem_of_getLast? hl)
        exact ⟨e, this.1, by simpa using this.2⟩
  · rintro ⟨e, he, hp⟩
    rw [if_neg]
    · rfl
    · intro hn
      rw [List.getLast?_eq_none_iff] at hn
      have := List.mem_filter (p := fun e : SEv => decide (e.type = "m.room.member" ∧ e.stateKey = user)).2 ⟨he, by simpa using hp⟩
      rw [hn] at this; cases this

theorem lastOf_value {evs : List SEv} {type : String} (h : ∀ e ∈ evs, e.type = type → e.stateKey = "") :
    ((lastOf evs type).map (·.value)).getD "" = valueOf evs type := by
  unfold lastOf valueOf
  rw [List.filter_congr (q := fun e => decide (e.type = type ∧ e.stateKey = ""))]
  intro e he
  by_cases ht : e.type = type
  · simp [ht, h e he ht]
  · simp [ht]

theorem lastOf_isSome (evs : List SEv) (type : String) : (lastOf evs type).isSome = true ↔ ∃ e ∈ evs, e.type = type := by
  unfold lastOf
  constructor
  · intro h
    obtain ⟨e, he⟩ := Option.isSome_iff_exists.1 h
    have := List.mem_filter.1 (List.mem_of_getLast? he)
    exact ⟨e, this.1, by simpa using this.2⟩
  · rintro ⟨e, he, ht⟩
    cases hl : (evs.filter fun e => decide (e.type = type)).getLast? with
    | some x => rfl
    | none =>
      rw [List.getLast?_eq_none_iff] at hl
      have := List.mem_filter (p := fun e : SEv => decide (e.type = type)).2 ⟨he, by simpa using ht⟩
      rw [hl] at this; cases this

/-- The types of events that are looked at for a value. -/
def valueTypes : List String := ["m.room.name", "m.room.avatar", "m.room.canonical_alias", "m.room.create"]

/-- **C103.** The values of an invite are those of the state events with an empty key in the invite state, and those of the
user's invite – provided there are no such events with another key. -/
theorem C103_values_partial (user room : String) (evs : List SEv) (d : Data) (h : newInviteData user room evs = some d)
    (hk : ∀ e ∈ evs, e.type ∈ valueTypes → e.stateKey = "") :
    d.roomID = room ∧ d.inviteState = evs ∧ d.name = valueOf evs "m.room.name" ∧ d.avatar = valueOf evs "m.room.avatar" ∧
    d.alias = valueOf evs "m.room.canonical_alias" ∧ d.roomType = valueOf evs "m.room.create" ∧
    (d.encrypted = true ↔ ∃ e ∈ evs, e.type = "m.room.encryption") ∧
    ∃ e, inviteOf evs user = some e ∧ d.inviteEvent = some e ∧ d.ts = e.ts ∧ d.isDM = e.direct := by
  have hs := scanned user room evs evs
  unfold newInviteData at h
  simp only at h
  split at h
  · cases h
  · rename_i hne
    rw [Option.some.injEq] at h
    rw [h] at hs hne
    obtain ⟨h1, h2, h3, h4, h5, h6, h7, h8, h9, h10, h11⟩ := hs
    refine ⟨h1, h2, ?_, ?_, ?_, ?_, ?_, ?_⟩
    · rw [h7]; exact lastOf_value fun e he ht => hk e he (by rw [ht]; decide)
    · rw [h8]; exact lastOf_value fun e he ht => hk e he (by rw [ht]; decide)
    · rw [h9]; exact lastOf_value fun e he ht => hk e he (by rw [ht]; decide)
    · rw [h10]; exact lastOf_value fun e he ht => hk e he (by rw [ht]; decide)
    · rw [h11]; exact lastOf_isSome _ _
    · cases hi : inviteOf evs user with
      | none => rw [h4] at hne; exact absurd hi hne
      | some e => exact ⟨e, rfl, h4.trans hi, by rw [h5, hi]; rfl, by rw [h6, hi]; rfl⟩

/-- The user is not among the heroes, so the heroes are shown as they are (and the shared slice is not changed). -/
theorem heroes_shown (user room : String) (evs : List SEv) (d : Data) (h : newInviteData user room evs = some d) :
    (d.shown user).heroes = (selves evs user).map fun e => ⟨e.stateKey, e.displayname, e.avatarURL⟩ := by
  have hs := (scanned user room evs evs).heroes
  unfold newInviteData at h
  simp only at h
  split at h
  · cases h
  · rw [Option.some.injEq] at h
    rw [h] at hs
    have hno : ∀ l : List Hero, (∀ x ∈ l, x.id ≠ user) → removeHero l user = l := by
      intro l
      induction l with
      | nil => intro _; rfl
      | cons x l ih =>
        intro hx
        simp only [removeHero]
        rw [if_neg (hx x (by simp)), ih fun y hy => hx y (by simp [hy])]
    have : (d.shown user).heroes = removeHero d.heroes user := rfl
    rw [this, hno, hs]
    intro x hx
    rw [hs] at hx
    obtain ⟨e, he, rfl⟩ := List.mem_map.1 hx
    have := (List.mem_filter.1 he).2
    simp only [decide_eq_true_eq] at this
    exact this.2.1

/-- **C103.** The name shown is the name, or else the alias, in the invite state; or else, if the only member event there that was
sent by its owner (other than the user) is that of the inviter, the name of the inviter, whose avatar is shown for a direct chat without an
avatar. -/
theorem C103_inviter (user room : String) (evs : List SEv) (d : Data) (h : newInviteData user room evs = some d)
    (hk : ∀ e ∈ evs, e.type ∈ valueTypes → e.stateKey = "") (res : Option (String × Bool)) (hc : Calculate (d.shown user) 5 res) :
    (valueOf evs "m.room.name" ≠ "" → res = some (valueOf evs "m.room.name", false)) ∧
    (valueOf evs "m.room.name" = "" → valueOf evs "m.room.canonical_alias" ≠ "" → res = some (valueOf evs "m.room.canonical_alias", false)) ∧
    (∀ i, valueOf evs "m.room.name" = "" → valueOf evs "m.room.canonical_alias" = "" → selves evs user = [i] → res = some (nameOf i, true)) ∧
    (∀ i, valueOf evs "m.room.avatar" = "" → selves evs user = [i] → d.isDM = true → calculateAvatar (d.shown user) d.isDM = i.avatarURL) := by
  obtain ⟨_, _, h3, h4, h5, _⟩ := C103_values_partial user room evs d h hk
  have hh := heroes_shown user room evs d h
  have hn : (d.shown user).nameEvent = valueOf evs "m.room.name" := h3
  have ha : (d.shown user).alias = valueOf evs "m.room.canonical_alias" := h5
  have hv : (d.shown user).avatarEvent = valueOf evs "m.room.avatar" := h4
  have hj : (d.shown user).joinCount = 1 := rfl
  have hi : (d.shown user).inviteCount = 1 := rfl
  have hres := RoomName.C56_name _ 5 res hc
  rw [hres]
  unfold nameSpec
  rw [hn, ha, hj, hi, hh]
  refine ⟨fun h0 => ?_, fun h0 h1 => ?_, fun i h0 h1 hs => ?_, fun i h0 hs hd => ?_⟩
  · simp only [h0, ne_eq, not_false_eq_true, if_true]
  · simp only [h0, h1, ne_eq, not_true_eq_false, not_false_eq_true, if_true, if_false]
  · simp only [h0, h1, ne_eq, not_true_eq_false, if_false, hs, List.map_cons, List.map_nil, List.reverse_cons, List.reverse_nil, List.nil_append]
    rw [if_pos (by decide)]
    simp [RoomName.shown, nameOf]
  · unfold calculateAvatar
    rw [hv, hh, hs, hd]
    simp [h0]

/-- **C103.** With several such member events, and no name and no alias, the name begins with that of one of these members. -/
theorem C103_named (user room : String) (evs : List SEv) (d : Data) (h : newInviteData user room evs = some d)
    (hk : ∀ e ∈ evs, e.type ∈ valueTypes → e.stateKey = "") (res : Option (String × Bool)) (hc : Calculate (d.shown user) 5 res)
    (h0 : valueOf evs "m.room.name" = "") (h1 : valueOf evs "m.room.canonical_alias" = "") (hs : selves evs user ≠ []) :
    ∃ e ∈ evs, e.type = "m.room.member" ∧ e.stateKey ≠ user ∧ ∃ name b, res = some (name, b) ∧ (nameOf e).toList <+: name.toList := by
  obtain ⟨_, _, h3, _, h5, _⟩ := C103_values_partial user room evs d h hk
  have hh := heroes_shown user room evs d h
  have hres := RoomName.C56_name _ 5 res hc
  have hjc : ¬ (d.shown user).joinCount + (d.shown user).inviteCount ≤ 1 := by
    show ¬ ((1 : Int) + 1 ≤ 1)
    decide
  have := RoomName.C70_partial (d.shown user) 5 (by decide) (h3.trans h0) (h5.trans h1) (fun hl => absurd hl hjc) (fun _ hnil => by
    rw [hh] at hnil; exact hs (List.map_eq_nil_iff.1 hnil))
  rw [if_neg hjc] at this
  obtain ⟨x, hx, hp⟩ := this
  rw [hh] at hx
  obtain ⟨e, he, rfl⟩ := List.mem_map.1 hx
  have hm := List.mem_filter.1 he
  simp only [decide_eq_true_eq] at hm
  refine ⟨e, hm.1, hm.2.1, hm.2.2.1, _, _, hres, ?_⟩
  refine List.IsPrefix.trans ?_ hp
  have hn : (if e.displayname = "" then e.stateKey else e.displayname) = nameOf e := rfl
  simp only [RoomName.shown, hn]
  split
  · exact List.prefix_refl _
  · simp only [String.toList_append, List.append_assoc]
    exact List.prefix_append _ _

/-! ## A concrete invite -/

/-- Bob invites Alice to a direct chat without a name. -/
def exInvite : List SEv :=
  [{ type := "m.room.create", sender := "@bob" }, { type := "m.room.member", stateKey := "@bob", sender := "@bob", displayname := "Bob", avatarURL := "mxc://b" },
   { type := "m.room.encryption", sender := "@bob" },
   { type := "m.room.member", stateKey := "@alice", sender := "@bob", displayname := "Alice", ts := 7, direct := true }]

/-- Non-vacuity. -/
example : ∃ d, newInviteData "@alice" "!r" exInvite = some d ∧ (∀ e ∈ exInvite, e.type ∈ valueTypes → e.stateKey = "") ∧
    selves exInvite "@alice" = [{ type := "m.room.member", stateKey := "@bob", sender := "@bob", displayname := "Bob", avatarURL := "mxc://b" }] ∧
    valueOf exInvite "m.room.name" = "" ∧ d.isDM = true ∧ d.ts = 7 ∧ d.encrypted = true ∧ nameSpec (d.shown "@alice") 5 = ("Bob", true) := by
  refine ⟨_, rfl, by decide +kernel, by decide +kernel, by decide +kernel, by decide +kernel, by decide +kernel, by decide +kernel, by decide +kernel⟩

/-- **C103 fails without the inviter's member event**: the invite of a room without a name is shown as " and 1 others". -/
theorem C103_violated_nobody : ∃ d, newInviteData "@alice" "!r" [{ type := "m.room.member", stateKey := "@alice", sender := "@bob" }] = some d ∧
    nameSpec (d.shown "@alice") 5 = (" and 1 others", true) := ⟨_, rfl, by decide +kernel⟩

/-- **C103 fails for events with another state key**: the last `m.room.name` event counts, whatever its state key. -/
theorem C103_violated_key : ∃ d evs, newInviteData "@alice" "!r" evs = some d ∧ valueOf evs "m.room.name" = "Team" ∧ d.name = "Other" :=
  ⟨_, [{ type := "m.room.member", stateKey := "@alice", sender := "@bob" }, { type := "m.room.name", value := "Team" },
    { type := "m.room.name", stateKey := "x", value := "Other" }], rfl, by decide +kernel, by decide +kernel⟩

end Verif.InviteData
