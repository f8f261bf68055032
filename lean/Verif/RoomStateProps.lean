import Verif.RoomState
import Verif.RequestProps
/-!
# C102: the state sent with a room is the state that was asked for
-/
namespace Verif.RoomState
open Verif.Request Verif.Store

/-! ## Specification -/

/-- What a client asking for `rs` wants to have of the state of a room: what `required_state` selects, and with lazy
loading also the member events of those who sent something in the timeline. -/
def Wanted (user : String) (rs : List (String × String)) (senders : List String) (k : Key) : Prop :=
  Selects user rs k.1 k.2 ∨ (("m.room.member", "$LAZY") ∈ rs ∧ k.1 = "m.room.member" ∧ k.2 ∈ senders)

/-- The list is the part `P` of the state `g`: exactly its events, one per key. -/
def IsPart (l : List Row) (g : St) (P : Key → Prop) : Prop :=
  (∀ k id, (∃ x ∈ l, x.ev.key = k ∧ x.ev.id = id) ↔ g k = some id ∧ P k) ∧ l.Pairwise (fun a b => a.ev.key ≠ b.ev.key)

/-- The state of the room made by the events stored up to the position. -/
def stateAt (db : DB) (room : String) (pos : Nat) : St := replay db.rows room fun n => decide (n ≤ pos)

/-- The position is inside the timeline of the room: the last event up to it was stored as a timeline event on top of
a known state. -/
def Settled (db : DB) (room : String) (pos : Nat) : Prop := ∃ r, LastAt db room pos r ∧ r.before ≠ 0

/-- The state of the room at the position can be determined: it is settled, or nothing is stored up to it. -/
def Fine (db : DB) (room : String) (pos : Nat) : Prop :=
  Settled db room pos ∨ ∀ q ∈ db.rows, q.room = room → ¬ q.nid ≤ pos

/-! ## The query -/

theorem mapOf_mem {q : List (String × List String)} {x} (h : x ∈ mapOf q) : x ∈ q := by
  induction q with
  | nil => exact h
  | cons e q ih =>
    rcases List.mem_cons.1 h with h | h
    · exact h ▸ List.mem_cons_self
    · exact List.mem_cons_of_mem _ (ih (List.mem_filter.1 h).1)

theorem mapOf_nodup (q : List (String × List String)) : ((mapOf q).map (·.1)).Nodup := by
  induction q with
  | nil => exact List.Pairwise.nil
  | cons e q ih =>
    simp only [mapOf, List.map_cons, List.nodup_cons]
    refine ⟨fun h => ?_, ?_⟩
    · obtain ⟨x, hx, hxe⟩ := List.mem_map.1 h
      have := (List.mem_filter.1 hx).2
      simp [hxe] at this
    · exact ((List.filter_sublist (p := fun x : String × List String => !decide (x.1 = e.1)) (l := mapOf q)).map (fun x => x.1)).nodup ih

def keysMatch (o : Option (List String)) (k : String) : Bool :=
  match o with | none => false | some ks => ks.length = 0 || ks.any (· = k)

theorem mapOf_matches (q : List (String × List String)) (k : Key) :
    matchesK (mapOf q) k = keysMatch (q.lookup k.1) k.2 := by
  induction q with
  | nil => rfl
  | cons e q ih =>
    obtain ⟨t, ks⟩ := e
    rw [List.lookup_cons]
    have hm : matchesK (mapOf ((t, ks) :: q)) k =
        ((decide (t = k.1) && (ks.isEmpty || decide (k.2 ∈ ks))) || matchesK ((mapOf q).filter fun x => !decide (x.1 = t)) k) := rfl
    rw [hm]
    by_cases ht : k.1 = t
    · have hno : matchesK ((mapOf q).filter fun x => !decide (x.1 = t)) k = false := by
        unfold matchesK
        rw [List.any_eq_false]
        intro x hx
        have := (List.mem_filter.1 hx).2
        simp only [Bool.not_eq_true', decide_eq_false_iff_not] at this
        simp [ht, this]
      have hb : (k.1 == t) = true := by simpa using ht
      rw [hno, hb]
      simp only [ht, decide_true, Bool.true_and, Bool.or_false]
      cases ks with
      | nil => rfl
      | cons a ks =>
        rw [Bool.eq_iff_iff]
        simp only [keysMatch, List.isEmpty_cons, Bool.false_or, List.mem_cons, decide_eq_true_eq, List.length_cons, Nat.add_eq_zero_iff,
          Nat.one_ne_zero, and_false, decide_false, List.any_cons, Bool.or_eq_true, List.any_eq_true, exists_eq_right]
        exact or_congr_left eq_comm
    · have hyes : matchesK ((mapOf q).filter fun x => !decide (x.1 = t)) k = matchesK (mapOf q) k := by
        unfold matchesK
        rw [Bool.eq_iff_iff, List.any_eq_true, List.any_eq_true]
        constructor
        · rintro ⟨x, hx, h⟩; exact ⟨x, (List.mem_filter.1 hx).1, h⟩
        · rintro ⟨x, hx, h⟩
          refine ⟨x, List.mem_filter.2 ⟨hx, ?_⟩, h⟩
          simp only [Bool.and_eq_true, decide_eq_true_eq] at h
          simp only [Bool.not_eq_true', decide_eq_false_iff_not]
          rw [h.1]; exact ht
      have hb : (k.1 == t) = false := by simpa using ht
      rw [hyes, hb, ih]
      have : ¬ t = k.1 := fun h => ht h.symm
      simp [this]

theorem matches_fetched {q : List (String × List String)} (hq : q.length ≠ 0) (k : Key) : matchesK (mapOf q) k = fetched q k.1 k.2 := by
  rw [mapOf_matches, fetched, if_neg hq]
  rfl

/-- Only types named in the request are queried. -/
theorem query_type {rs : List (String × String)} {user : String} {t k : String} (hq : (rsm rs user).query.length ≠ 0)
    (h : fetched (rsm rs user).query t k = true) : ∃ e ∈ rs, e.1 = t := by
  obtain ⟨_, _, htw, hex⟩ := rsm_spec user rs
  generalize rsm rs user = m at *
  unfold fetched at h
  rw [if_neg hq] at h
  unfold RSM.query at h hq
  by_cases hA : m.allState = true
  · rw [if_pos hA] at hq; simp at hq
  rw [if_neg hA] at h hq
  by_cases hk : m.keysWild.length = 0
  · rw [if_pos hk, lookup_append, lookup_typesWild] at h
    by_cases hw : t ∈ m.typesWild
    · obtain ⟨_, e, he, h1, _⟩ := (htw t).1 hw
      exact ⟨e, he, h1⟩
    · rw [if_neg hw] at h
      simp only at h
      rw [lookup_exact] at h
      by_cases hx : t ∈ m.exact.map (·.1)
      · obtain ⟨p, hp, hpt⟩ := List.mem_map.1 hx
        obtain ⟨_, _, e, he, h1, _⟩ := (hex p.1 p.2).1 hp
        exact ⟨e, he, h1.trans hpt⟩
      · rw [if_neg hx] at h; simp at h
  · rw [if_neg hk] at hq; simp at hq

/-- What the storage returns is the part of the state that the query fetches. -/
theorem stateFor_spec (ops : List Op) (hok : ∀ o ∈ ops, OkOp o) {room : String} {pos : Nat} {r : Row}
    (hr : LastAt (run ops) room pos r) (hb : r.before ≠ 0) (rs : List (String × String)) (user : String)
    (hk : r.ev.hasKey = true ∨ ∀ e ∈ rs, e.1 ≠ r.ev.type) :
    ∃ l, stateFor (run ops) room pos (rsm rs user).query = some l ∧
      IsPart l (stateAt (run ops) room pos) (fun k => fetched (rsm rs user).query k.1 k.2 = true) := by
  unfold stateFor
  by_cases hq : (rsm rs user).query.length = 0
  · rw [if_pos hq]
    obtain ⟨l, hl, h1, h2⟩ := C41_state_partial ops hok hr (fun h0 => absurd h0 hb) (Or.inl hb)
    refine ⟨l, hl, fun k id => ?_, h2⟩
    rw [h1]
    exact ⟨fun h => ⟨h, by show fetched _ _ _ = true; unfold fetched; rw [if_pos hq]⟩, fun h => h.1⟩
  · rw [if_neg hq]
    obtain ⟨l, hl, h1, h2⟩ := C41_filtered_partial ops hok hr hb (mapOf (rsm rs user).query) (mapOf_nodup _)
      (hk.imp id fun hk => by
        rw [matchesF_key, matches_fetched hq]
        cases hf : fetched (rsm rs user).query r.ev.key.1 r.ev.key.2 with
        | false => rfl
        | true =>
          obtain ⟨e, he, het⟩ := query_type hq hf
          exact absurd het (hk e he))
    refine ⟨l, hl, fun k id => ?_, h2⟩
    rw [h1, matches_fetched hq]
    exact Iff.rfl

/-- A room whose state can be determined gives no error. -/
theorem stateFor_fine (ops : List Op) (hok : ∀ o ∈ ops, OkOp o) {room : String} {pos : Nat}
    (hf : Fine (run ops) room pos) (q : List (String × List String)) : (stateFor (run ops) room pos q).isSome = true := by
  unfold stateFor
  rcases hf with ⟨r, hr, hb⟩ | hno
  · split
    · obtain ⟨l, hl, _⟩ := C41_state_partial ops hok hr (fun h0 => absurd h0 hb) (Or.inl hb)
      rw [hl]; rfl
    · unfold stateAfterFiltered
      rw [latestEvent_spec (run_spec ops hok) hr]
      rfl
  · have he := C41_empty ops hok hno
    split
    · rw [he]; rfl
    · unfold stateAfterFiltered
      unfold stateAfter at he
      cases hl : latestEvent (run ops) room pos with
      | none => rw [hl] at he; simp at he
      | some o => cases o <;> rfl

/-! ## The choice -/

/-- An event is kept if it is included, or lazily loaded and the state key is that of a sender. -/
def keep (m : RSM) (users : List String) (x : Row) : Bool :=
  m.include x.ev.type x.ev.stateKey || (m.lazy && decide (x.ev.stateKey ∈ users))

theorem filter_eq_nodup {users : List String} (h : users.Nodup) (u : String) :
    (users.filter (· = u)) = if u ∈ users then [u] else [] := by
  induction users with
  | nil => rfl
  | cons v users ih =>
    obtain ⟨h1, h2⟩ := List.nodup_cons.1 h
    by_cases hv : v = u
    · subst hv
      rw [List.filter_cons_of_pos (by simp), ih h2, if_neg h1, if_pos (by simp)]
    · rw [List.filter_cons_of_neg (by simpa using hv), ih h2]
      have : u ∈ v :: users ↔ u ∈ users := by simp [Ne.symm hv]
      by_cases hm : u ∈ users
      · rw [if_pos hm, if_pos (this.2 hm)]
      · rw [if_neg hm, if_neg (fun h => hm (this.1 h))]

theorem choose_eq (m : RSM) {users : List String} (h : users.Nodup) (x : Row) :
    choose m users x = if keep m users x then [x] else [] := by
  unfold choose keep
  by_cases h1 : m.include x.ev.type x.ev.stateKey = true
  · simp [h1]
  · simp only [h1, Bool.false_eq_true, if_false, Bool.false_or]
    by_cases h2 : m.lazy = true
    · rw [if_pos h2, filter_eq_nodup h]
      by_cases h3 : x.ev.stateKey ∈ users <;> simp [h2, h3]
    · simp [h2]

theorem flatMap_choose (m : RSM) {users : List String} (h : users.Nodup) (l : List Row) :
    l.flatMap (choose m users) = l.filter (keep m users) := by
  induction l with
  | nil => rfl
  | cons x l ih =>
    rw [List.flatMap_cons, ih, choose_eq m h]
    by_cases hx : keep m users x = true
    · rw [if_pos hx, List.filter_cons_of_pos hx]; rfl
    · rw [if_neg hx, List.filter_cons_of_neg hx]; rfl

theorem lazy_iff (rs : List (String × String)) : lazyLoadMembers rs = true ↔ ("m.room.member", "$LAZY") ∈ rs := by
  unfold lazyLoadMembers
  rw [List.any_eq_true]
  constructor
  · rintro ⟨e, he, h⟩
    simp only [Bool.and_eq_true, decide_eq_true_eq] at h
    have : e = ("m.room.member", "$LAZY") := Prod.ext h.1 h.2
    exact this ▸ he
  · intro h; exact ⟨_, h, by decide⟩

theorem isEmpty_iff (rs : List (String × String)) (user : String) : isEmpty (rsm rs user) = true ↔ rs = [] := by
  constructor
  · intro h
    obtain ⟨ha, hk, htw, hex⟩ := rsm_spec user rs
    unfold isEmpty at h
    simp only [Bool.and_eq_true, Bool.not_eq_true', beq_iff_eq, List.length_eq_zero_iff] at h
    obtain ⟨⟨⟨⟨h1, _⟩, h3⟩, h4⟩, h5⟩ := h
    rw [List.eq_nil_iff_forall_not_mem]
    intro e he
    by_cases ht : e.1 = "*"
    · by_cases hw : (resolve user e).2 = "*"
      · rw [ha.2 ⟨e, he, ht, hw⟩] at h1; cases h1
      · have := (hk (resolve user e).2).2 ⟨hw, e, he, ht, rfl⟩
        rw [h4] at this; cases this
    · by_cases hw : (resolve user e).2 = "*"
      · have := (htw e.1).2 ⟨ht, e, he, rfl, hw⟩
        rw [h5] at this; cases this
      · have := (hex e.1 (resolve user e).2).2 ⟨ht, hw, e, he, rfl, rfl⟩
        rw [h3] at this; cases this
  · rintro rfl; rfl

/-! ## Theorems -/

/-- What is sent, exactly: also other state events whose key is a sender's id, if they were fetched. -/
theorem loaded_spec (ops : List Op) (hok : ∀ o ∈ ops, OkOp o) {rooms : List String} {room : String} {pos : Nat} {r : Row}
    (hroom : room ∈ rooms) (hfine : ∀ q ∈ rooms, Fine (run ops) q pos)
    (hr : LastAt (run ops) room pos r) (hb : r.before ≠ 0) (rs : List (String × String)) (user : String)
    (hk : r.ev.hasKey = true ∨ ∀ e ∈ rs, e.1 ≠ r.ev.type)
    (users : String → List String) (hn : (users room).Nodup) (hne : rs ≠ []) :
    IsPart (loadRoomState (run ops) rooms pos (rsm rs user) users room) (stateAt (run ops) room pos) (fun k =>
      fetched (rsm rs user).query k.1 k.2 = true ∧
      ((rsm rs user).include k.1 k.2 = true ∨ (("m.room.member", "$LAZY") ∈ rs ∧ k.2 ∈ users room))) := by
  obtain ⟨l, hl, h1, h2⟩ := stateFor_spec ops hok hr hb rs user hk
  unfold loadRoomState
  rw [if_neg (fun h => hne ((isEmpty_iff rs user).1 h)), if_neg, if_pos hroom, hl]
  · simp only [Option.getD_some]
    rw [flatMap_choose _ hn]
    have hlz : (rsm rs user).lazy = true ↔ ("m.room.member", "$LAZY") ∈ rs := lazy_iff rs
    refine ⟨fun k id => ?_, h2.filter _⟩
    have hkeep : ∀ x : Row, x.ev.key = k → (keep (rsm rs user) (users room) x = true ↔
        ((rsm rs user).include k.1 k.2 = true ∨ (("m.room.member", "$LAZY") ∈ rs ∧ k.2 ∈ users room))) := by
      rintro x rfl
      unfold keep
      simp only [Bool.or_eq_true, Bool.and_eq_true, decide_eq_true_eq, hlz]
      exact Iff.rfl
    constructor
    · rintro ⟨x, hx, hxk, hxi⟩
      obtain ⟨hx1, hx2⟩ := List.mem_filter.1 hx
      obtain ⟨h3, h4⟩ := (h1 k id).1 ⟨x, hx1, hxk, hxi⟩
      exact ⟨h3, h4, (hkeep x hxk).1 hx2⟩
    · rintro ⟨h3, h4, h5⟩
      obtain ⟨x, hx, hxk, hxi⟩ := (h1 k id).2 ⟨h3, h4⟩
      exact ⟨x, List.mem_filter.2 ⟨hx, (hkeep x hxk).2 h5⟩, hxk, hxi⟩
  · intro h
    rw [List.any_eq_true] at h
    obtain ⟨q, hq, hqn⟩ := h
    have := stateFor_fine ops hok (hfine q hq) (rsm rs user).query
    cases hs : stateFor (run ops) q pos (rsm rs user).query with
    | none => rw [hs] at this; cases this
    | some y => rw [hs] at hqn; cases hqn

/-- **C102.** The `required_state` of a room in the initial data is exactly the wanted part of the state of the room at
the load position, each event once – for a room in whose timeline the position lies, loaded together with rooms whose
state can be determined; provided the last event is a state event or not of a type named in the request, and provided
that with lazy loading and a `*` type no state event that is neither a member event nor selected is keyed by a
sender. -/
theorem C102_partial (ops : List Op) (hok : ∀ o ∈ ops, OkOp o) (invited : String → Bool) (rooms : List String) (room : String) (pos : Nat) (r : Row)
    (hroom : room ∈ rooms) (hinv : invited room = false) (hfine : ∀ q ∈ rooms, invited q = false → Fine (run ops) q pos)
    (hr : LastAt (run ops) room pos r) (hb : r.before ≠ 0) (rs : List (String × String)) (user : String) (hu : user ≠ "*")
    (ht : ∀ q ∈ (run ops).rows, q.room = room → q.ev.type ≠ "*")
    (hk : r.ev.hasKey = true ∨ ∀ e ∈ rs, e.1 ≠ r.ev.type)
    (senders : List String) (users : String → List String) (hn : (users room).Nodup) (hs : ∀ u, u ∈ users room ↔ u ∈ senders)
    (hwild : ("m.room.member", "$LAZY") ∈ rs → (∃ e ∈ rs, e.1 = "*") → ∀ k id, stateAt (run ops) room pos k = some id →
      k.2 ∈ senders → k.1 = "m.room.member" ∨ Selects user rs k.1 k.2) :
    ∃ l, requiredState (run ops) invited rooms pos rs user users room = some l ∧
      IsPart l (stateAt (run ops) room pos) (Wanted user rs senders) := by
  unfold requiredState
  rw [if_neg (by rw [hinv]; decide)]
  refine ⟨_, rfl, ?_⟩
  by_cases hne : rs = []
  · subst hne
    have he : loadRoomState (run ops) (loadRooms invited rooms) pos (rsm [] user) users room = [] := by
      unfold loadRoomState; rw [if_pos ((isEmpty_iff [] user).2 rfl)]
    rw [he]
    refine ⟨fun k id => ⟨fun h => ?_, fun h => ?_⟩, List.Pairwise.nil⟩
    · obtain ⟨x, hx, _⟩ := h; cases hx
    · obtain ⟨_, h | h⟩ := h
      · rcases h with ⟨_, e, he, _⟩ | ⟨⟨e, he, _⟩, _⟩ <;> cases he
      · exact absurd h.1 (by simp)
  · obtain ⟨h1, h2⟩ := loaded_spec ops hok (rooms := loadRooms invited rooms) (List.mem_filter.2 ⟨hroom, by simp [hinv]⟩)
      (fun q hq => by
        obtain ⟨h1, h2⟩ := List.mem_filter.1 hq
        exact hfine q h1 (by simpa using h2)) hr hb rs user hk users hn hne
    refine ⟨fun k id => ?_, h2⟩
    rw [h1]
    refine and_congr_right fun hg => ?_
    have htk : k.1 ≠ "*" := by
      obtain ⟨q, hq, hqr, _, hqk, _⟩ := replay_mem hg
      rw [← hqk]; exact ht q hq hqr
    have hsel := C14_selection rs user k.1 k.2 hu htk
    unfold Wanted
    simp only [← hsel, hs]
    constructor
    · rintro ⟨hf, h | ⟨hl, hk2⟩⟩
      · exact Or.inl h
      · by_cases hw : ∃ e ∈ rs, e.1 = "*"
        · rcases hwild hl hw k id hg hk2 with h | h
          · exact Or.inr ⟨hl, h, hk2⟩
          · exact Or.inl (hsel.2 h)
        · rcases C14_query_tight rs user k.1 k.2 (fun e he h => hw ⟨e, he, h⟩) hne hf with h | h
          · exact Or.inl h
          · exact Or.inr ⟨hl, h.2, hk2⟩
    · rintro (h | ⟨hl, hm, hk2⟩)
      · exact ⟨C14_query rs user k.1 k.2 (Or.inl h), Or.inl h⟩
      · exact ⟨C14_query rs user k.1 k.2 (Or.inr ⟨(lazy_iff rs).2 hl, hm⟩), Or.inr ⟨hl, hk2⟩⟩

/-- **C102.** With `[*,*]` and lazy members – or with no `*` type at all – the last proviso holds if nothing but member
events is restricted to certain state keys. -/
theorem C102_usual_partial (ops : List Op) (hok : ∀ o ∈ ops, OkOp o) (invited : String → Bool) (rooms : List String) (room : String) (pos : Nat) (r : Row)
    (hroom : room ∈ rooms) (hinv : invited room = false) (hfine : ∀ q ∈ rooms, invited q = false → Fine (run ops) q pos)
    (hr : LastAt (run ops) room pos r) (hb : r.before ≠ 0) (rs : List (String × String)) (user : String) (hu : user ≠ "*")
    (ht : ∀ q ∈ (run ops).rows, q.room = room → q.ev.type ≠ "*")
    (hk : r.ev.hasKey = true ∨ ∀ e ∈ rs, e.1 ≠ r.ev.type)
    (senders : List String) (users : String → List String) (hn : (users room).Nodup) (hs : ∀ u, u ∈ users room ↔ u ∈ senders)
    (hrs : (∀ e ∈ rs, e.1 ≠ "*") ∨ (("*", "*") ∈ rs ∧ ∀ e ∈ rs, e.1 = "*" ∨ e.1 = "m.room.member" ∨ e.2 = "*")) :
    ∃ l, requiredState (run ops) invited rooms pos rs user users room = some l ∧
      IsPart l (stateAt (run ops) room pos) (Wanted user rs senders) := by
  refine C102_partial ops hok invited rooms room pos r hroom hinv hfine hr hb rs user hu ht hk senders users hn hs ?_
  rintro - ⟨e, he, hew⟩ k id hg -
  rcases hrs with h | ⟨h1, h2⟩
  · exact absurd hew (h e he)
  · by_cases hm : k.1 = "m.room.member"
    · exact Or.inl hm
    · refine Or.inr (Or.inr ⟨⟨_, h1, rfl⟩, Or.inl ?_⟩)
      rintro x hx ⟨ha, hb', hc⟩
      rcases h2 x hx with h | h | h
      · exact hb' h
      · exact hm (ha ▸ h)
      · refine hc ?_
        unfold resolve
        rw [if_neg (by rw [h]; decide)]
        exact h

/-! ## A concrete room -/

def exCreate : Ev := ⟨"$c", "m.room.create", "", true⟩
def exMember (id user : String) : Ev := ⟨id, "m.room.member", user, true⟩
def exPet (id user : String) : Ev := ⟨id, "org.example.pet", user, true⟩
def exTopic (id : String) : Ev := ⟨id, "m.room.topic", "", true⟩
def exSay (id : String) : Ev := ⟨id, "m.room.message", "", false⟩

/-- Alice and Bob are in the room and have a pet each; a topic is set and something is said. -/
def exOps : List Op :=
  [.init "!r" 0 [some exCreate, some (exMember "$a" "@alice"), some (exMember "$b" "@bob"), some (exPet "$pa" "@alice"), some (exPet "$pb" "@bob")],
   .acc "!r" 0 false [some (exTopic "$t"), some (exSay "$m")]]

theorem exOps_ok : ∀ o ∈ exOps, OkOp o := by
  intro o ho
  rcases List.mem_cons.1 ho with rfl | ho
  · simp only [OkOp]; exact ⟨by decide +kernel, by unfold Clean; decide +kernel⟩
  · rcases List.mem_cons.1 ho with rfl | ho
    · simp only [OkOp]; unfold Clean; decide +kernel
    · simp at ho

/-- Non-vacuity: with `[*,*]` and lazy members everything but Bob's membership is sent if only Alice is in the timeline;
with the create event and lazy members asked for, the create event and Alice's membership. -/
example : ∃ r, LastAt (run exOps) "!r" 7 r ∧ r.before ≠ 0 ∧ r.ev.hasKey = false ∧
    (∀ q ∈ (run exOps).rows, q.room = "!r" → q.ev.type ≠ "*") ∧
    (requiredState (run exOps) (fun _ => false) ["!r"] 7 [("*", "*"), ("m.room.member", "$LAZY")] "@bob" (fun _ => ["@alice"]) "!r").map
      (·.map (·.ev.id)) = some ["$c", "$a", "$pa", "$pb", "$t"] ∧
    (requiredState (run exOps) (fun _ => false) ["!r"] 7 [("m.room.create", ""), ("m.room.member", "$LAZY")] "@bob" (fun _ => ["@alice"]) "!r").map
      (·.map (·.ev.id)) = some ["$c", "$a"] := by
  refine ⟨{ nid := 7, room := "!r", ev := exSay "$m", isState := false, before := 2 }, ⟨?_, rfl, by decide, ?_⟩, by decide, rfl,
    by decide +kernel, by decide +kernel, by decide +kernel⟩
  · decide +kernel
  · decide +kernel

/-- **C102 fails with lazy members and a `*` type**: every state event keyed by a sender is sent, whatever its type.
Asked for are the events with an empty state key and the members; Alice's pet is sent, too. -/
theorem C102_violated_type :
    (requiredState (run exOps) (fun _ => false) ["!r"] 7 [("*", ""), ("m.room.member", "$LAZY")] "@bob" (fun _ => ["@alice"]) "!r").map
      (·.map (·.ev.id)) = some ["$c", "$a", "$pa", "$t"] ∧
    stateAt (run exOps) "!r" 7 ("org.example.pet", "@alice") = some "$pa" ∧
    ¬ Wanted "@bob" [("*", ""), ("m.room.member", "$LAZY")] ["@alice"] ("org.example.pet", "@alice") := by
  refine ⟨by decide +kernel, by decide +kernel, ?_⟩
  unfold Wanted Selects
  simp [AllState, Matches, resolve]

/-- A second room whose create event has no state key: it has events but no state. -/
def exBad : List Op := exOps ++ [.acc "!s" 0 false [some ⟨"$x", "m.room.create", "", false⟩]]

/-- **C102 fails for rooms loaded together with one whose state cannot be determined**: the error for that room (which
has events but no snapshot) leaves all rooms of the call without state. -/
theorem C102_violated_batch : (∀ o ∈ exBad, OkOp o) ∧ (run exBad).cur "!s" = 0 ∧ (run exBad).latest "!s" = 8 ∧
    (requiredState (run exBad) (fun _ => false) ["!r", "!s"] 8 [("*", "*")] "@bob" (fun _ => []) "!r").map (·.map (·.ev.id)) = some [] ∧
    (requiredState (run exBad) (fun _ => false) ["!r"] 8 [("*", "*")] "@bob" (fun _ => []) "!r").map (·.map (·.ev.id)) =
      some ["$c", "$a", "$b", "$pa", "$pb", "$t"] := by
  refine ⟨fun o ho => ?_, by decide +kernel, by decide +kernel, by decide +kernel, by decide +kernel⟩
  rcases List.mem_append.1 ho with ho | ho
  · exact exOps_ok o ho
  · rcases List.mem_cons.1 ho with rfl | ho
    · simp only [OkOp]; unfold Clean; decide +kernel
    · simp at ho

end Verif.RoomState
