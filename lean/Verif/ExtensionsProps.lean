import Verif.Extensions
import Verif.RangesProps
import Verif.Util
/-!
# Extensions: C31, C32, C33, C65
-/
namespace Verif.Extensions

/-! ## C31: scope -/

/-- What a selector names out of all the candidates: absent means all, and so does a wildcard; explicit names
name themselves. -/
def Names (sel : Option (List String)) (all : List String) (x : String) : Prop :=
  match sel with
  | none => x ∈ all
  | some l => x ∈ l ∨ ("*" ∈ l ∧ x ∈ all)

/-- A selector as the protocol writes it: absent, the lone wildcard, or explicit names. -/
def WellFormed (sel : Option (List String)) : Prop :=
  sel = none ∨ sel = some ["*"] ∨ ∃ l, sel = some l ∧ "*" ∉ l

private theorem monitor_mem (sel : Option (List String)) (all : List String) (x : String) (hx : x ≠ "*")
    (hw : WellFormed sel) (hn : sel ≠ none) : x ∈ monitor sel all ↔ Names sel all x := by
  rcases hw with h | h | ⟨l, h, hs⟩
  · exact absurd h hn
  · subst h; simp [monitor, Names, hx]
  · subst h
    cases l with
    | nil => simp [monitor, Names]
    | cons a t =>
      have ha : ¬ a = "*" := fun he => hs (by simp [he])
      simp only [monitor, if_neg ha, Names]
      constructor
      · exact Or.inl
      · rintro (h | ⟨h, _⟩)
        · exact h
        · exact absurd h hs

/-- A subscribed room, an explicit room and a room visible in a list are in scope, another is not. -/
example : let c : Ctx := ⟨fun r => if r = "!v" then ["l"] else [], ["l"], ["!s"]⟩
    let s : Core := interpretAsInitial { rooms := some ["!e"] }
    roomInScope s "!e" c = true ∧ roomInScope s "!v" c = true ∧ roomInScope s "!s" c = false
      ∧ roomInScope (interpretAsInitial {}) "!s" c = true := by decide +kernel

/-- C31 fails when the wildcard is mixed with names: behind a name it is ignored, and in front it hides the
names after it. -/
theorem C31_violated_mixed :
    let c : Ctx := ⟨fun _ => [], [], ["!s"]⟩
    (Names (some ["!e", "*"]) c.allSubs "!s" ∧ roomInScope { rooms := some ["!e", "*"] } "!s" c = false) ∧
    (Names (some ["*", "!e"]) c.allSubs "!e" ∧ roomInScope { rooms := some ["*", "!e"] } "!e" c = false) := by
  refine ⟨⟨?_, by decide +kernel⟩, ⟨?_, by decide +kernel⟩⟩ <;> simp [Names]

/-- Which rooms count as visible: `key` is among the lists of `room` exactly if some list of that name contains
the room at an index inside one of its ranges, or anywhere if all rooms are requested. -/
theorem C31_visible {ls : List LView} {f : String → List String} (hv : ∀ l ∈ ls, Ranges.valid l.ranges = true)
    (h : listsOf ls = some f) (room key : String) :
    key ∈ f room ↔ ∃ l ∈ ls, l.key = key ∧ if l.getAll then room ∈ l.rooms else
      ∃ r ∈ l.ranges, ∃ i : Nat, r.1 ≤ i ∧ (i : Int) ≤ r.2 ∧ l.rooms[i]? = some room := by
  induction ls generalizing f with
  | nil => simp only [listsOf, Option.some.injEq] at h; subst h; simp
  | cons l ls ih =>
    simp only [listsOf] at h
    split at h
    · rename_i v g hvis hrest
      simp only [Option.some.injEq] at h
      subst h
      have ih := ih (fun a ha => hv a (by simp [ha])) hrest
      simp only [List.mem_append, List.mem_cons, exists_eq_or_imp, ih]
      refine or_congr ?_ Iff.rfl
      have hm : room ∈ v ↔ if l.getAll then room ∈ l.rooms else
          ∃ r ∈ l.ranges, ∃ i : Nat, r.1 ≤ i ∧ (i : Int) ≤ r.2 ∧ l.rooms[i]? = some room := by
        unfold visible at hvis
        by_cases hg : l.getAll = true
        · simp only [hg, if_true, Option.some.injEq] at hvis ⊢; rw [hvis]
        · simp only [hg, if_false, Bool.false_eq_true] at hvis ⊢
          obtain ⟨ss, h1, h2⟩ := Ranges.C03_sliceInto l.rooms (hv l (by simp))
          rw [h1] at hvis
          simp only [Option.map_some, Option.some.injEq] at hvis
          rw [← hvis, h2]
          simp only [List.mem_flatMap, Ranges.visibleIn]
          refine exists_congr fun r => and_congr_right fun _ => ?_
          simp only [List.mem_map, List.mem_filter, Prod.exists, List.mem_zipIdx_iff_getElem?, decide_eq_true_eq,
            Bool.and_eq_true]
          constructor
          · rintro ⟨a, b, ⟨hb, hc⟩, rfl⟩
            exact ⟨b, by simpa using hc.1, by simpa using hc.2, hb⟩
          · rintro ⟨i, h1, h2, h3⟩
            exact ⟨room, i, ⟨h3, by simpa using ⟨h1, h2⟩⟩, rfl⟩
      rw [← hm]
      simp only [List.mem_map, List.mem_filter, decide_eq_true_eq]
      constructor
      · rintro ⟨a, ⟨ha, rfl⟩, hk⟩; exact ⟨hk, ha⟩
      · rintro ⟨hk, ha⟩; exact ⟨room, ⟨ha, rfl⟩, hk⟩
    · cases h

/-- Valid ranges never make the computation panic. -/
theorem C31_visible_total {ls : List LView} (hv : ∀ l ∈ ls, Ranges.valid l.ranges = true) : ∃ f, listsOf ls = some f := by
  induction ls with
  | nil => exact ⟨_, rfl⟩
  | cons l ls ih =>
    obtain ⟨g, hg⟩ := ih fun a ha => hv a (by simp [ha])
    have : ∃ v, visible l = some v := by
      unfold visible
      split
      · exact ⟨_, rfl⟩
      · obtain ⟨ss, h1, _⟩ := Ranges.C03_sliceInto l.rooms (hv l (by simp))
        exact ⟨_, by rw [h1]; rfl⟩
    obtain ⟨v, hv'⟩ := this
    exact ⟨_, by simp only [listsOf, hv', hg]; rfl⟩

example : (listsOf [⟨"a", ["!x", "!y", "!z"], [(0, 0), (2, 5)], false⟩, ⟨"b", ["!y"], [], true⟩]).map
    (fun f => (f "!x", f "!y", f "!z")) = some (["a"], ["b"], ["a"]) := by decide +kernel

/-! ## C32: sticky settings -/

/-- The last value given for a field, over the requests that mention the extension. -/
def lastGiven {α} (f : Core → Option α) : List (Option Core) → Option α
  | [] => none
  | r :: rs => match lastGiven f rs with
    | some v => some v
    | none => r.bind f

private theorem lastGiven_snoc {α} (f : Core → Option α) (l : List (Option Core)) (r : Option Core) :
    lastGiven f (l ++ [r]) = match r.bind f with | some v => some v | none => lastGiven f l := by
  induction l with
  | nil => simp only [List.nil_append, lastGiven]; cases r.bind f <;> rfl
  | cons a l ih =>
    simp only [List.cons_append, lastGiven, ih]
    cases r.bind f <;> rfl

/-- C32, all parts: the settings exist once the extension was mentioned; each selector is the last one given,
or the wildcard; `enabled` is the last value given. -/
theorem C32_settings (reqs : List (Option Core)) :
    settings reqs = if reqs.all (· = none) then none else
      some { enabled := lastGiven (·.enabled) reqs,
             lists := some ((lastGiven (·.lists) reqs).getD ["*"]),
             rooms := some ((lastGiven (·.rooms) reqs).getD ["*"]) } := by
  induction reqs using Verif.Util.snocRec with
  | nil => rfl
  | append_singleton l r ih =>
    have e : settings (l ++ [r]) = applyDelta (settings l) r := by simp [settings]
    rw [e, ih]
    simp only [lastGiven_snoc]
    cases r with
    | none =>
      have : (l ++ [none]).all (· = none) = l.all (· = none) := by simp
      rw [this]
      split <;> simp [applyDelta]
    | some n =>
      have : ¬ (l ++ [some n]).all (· = none) = true := by simp
      rw [if_neg this]
      by_cases hl : l.all (· = none) = true
      · rw [if_pos hl]
        have hnone : ∀ {α} (f : Core → Option α), lastGiven f l = none := by
          intro α f
          clear e ih this
          induction l with
          | nil => rfl
          | cons a l ih =>
            simp only [List.all_cons, Bool.and_eq_true, decide_eq_true_eq] at hl
            simp [lastGiven, ih hl.2, hl.1]
        have g1 := hnone (·.enabled)
        have g2 := hnone (·.lists)
        have g3 := hnone (·.rooms)
        simp only [applyDelta, interpretAsInitial, g1, g2, g3, Option.bind_some]
        rcases n with ⟨_ | _, _ | _, _ | _⟩ <;> rfl
      · rw [if_neg hl]
        simp only [applyDelta, coreDelta, Option.bind_some]
        rcases n with ⟨_ | _, _ | _, _ | _⟩ <;> rfl

/-- C32: enabled exactly if the last request that specified `enabled` set it. -/
theorem C32_enabled (reqs : List (Option Core)) :
    isEnabled (settings reqs) = true ↔ lastGiven (·.enabled) reqs = some true := by
  rw [C32_settings]
  split
  · rename_i h
    have : ∀ l : List (Option Core), l.all (· = none) = true → lastGiven (·.enabled) l = none := by
      intro l hl
      induction l with
      | nil => rfl
      | cons a l ih =>
        simp only [List.all_cons, Bool.and_eq_true, decide_eq_true_eq] at hl
        simp [lastGiven, ih hl.2, hl.1]
    simp [isEnabled, this reqs h]
  · simp only [isEnabled]
    cases lastGiven (·.enabled) reqs <;> simp

example : settings [none, some { enabled := some true, lists := some ["a"] }, none, some { lists := some [] },
      some { enabled := some false, rooms := some ["!r"] }]
    = some { enabled := some false, lists := some [], rooms := some ["!r"] } := by decide +kernel
example : isEnabled (settings [some {}]) = false := by decide +kernel

/-! ## C31 for the settings in force -/

/-- C31 (partial: the wildcard must stand alone in its selector).  After any sequence of requests that mention
the extension, a room is in scope exactly if the rooms selector in force names it among the subscriptions, or
the lists selector in force names one of the lists it is visible in; a selector never given names everything. -/
theorem C31_scope_partial (reqs : List (Option Core)) (room : String) (c : Ctx) (hm : ∃ r ∈ reqs, r ≠ none)
    (hr : room ≠ "*") (hl : "*" ∉ c.roomToLists room)
    (hwr : WellFormed (lastGiven (·.rooms) reqs)) (hwl : WellFormed (lastGiven (·.lists) reqs)) :
    ∃ s, settings reqs = some s ∧
      (roomInScope s room c = true ↔
        Names (lastGiven (·.rooms) reqs) c.allSubs room ∨
        ∃ l ∈ c.roomToLists room, Names (lastGiven (·.lists) reqs) c.allLists l) := by
  have hne : ¬ reqs.all (· = none) = true := by
    obtain ⟨r, h1, h2⟩ := hm
    intro h
    exact h2 (by simpa using List.all_eq_true.1 h r h1)
  rw [C32_settings, if_neg hne]
  refine ⟨_, rfl, ?_⟩
  have key : ∀ (sel : Option (List String)) (all : List String) (x : String), x ≠ "*" → WellFormed sel →
      (x ∈ monitor (some (sel.getD ["*"])) all ↔ Names sel all x) := by
    intro sel all x hx hw
    cases sel with
    | none => simp [monitor, Names]
    | some l => exact monitor_mem (some l) all x hx hw (by simp)
  generalize lastGiven (·.rooms) reqs = R at *
  generalize lastGiven (·.lists) reqs = L at *
  unfold roomInScope
  have h1 := key R c.allSubs room hr hwr
  have h2 : ∀ l ∈ c.roomToLists room, (l ∈ monitor (some (L.getD ["*"])) c.allLists ↔ Names L c.allLists l) :=
    fun l hm => key L c.allLists l (fun he => hl (he ▸ hm)) hwl
  have h1' : (monitor (some (R.getD ["*"])) c.allSubs).any (· = room) = true ↔ Names R c.allSubs room := by
    rw [← h1]; simp
  by_cases hA : (monitor (some (R.getD ["*"])) c.allSubs).any (· = room) = true
  · simp only [hA, if_true]; simp [h1'.1 hA]
  · have hA' : ¬ Names R c.allSubs room := fun h => hA (h1'.2 h)
    simp only [hA, if_false, Bool.false_eq_true, hA', false_or, List.any_eq_true, decide_eq_true_eq]
    constructor
    · rintro ⟨l, hm, l', hl', rfl⟩
      exact ⟨l, hm, (h2 l hm).1 hl'⟩
    · rintro ⟨l, hm, hN⟩
      exact ⟨l, hm, l, (h2 l hm).2 hN, rfl⟩

/-! ## C33: attribution of account data -/

private theorem mem_queryRooms (inScope : String → Bool) (rooms : List String) (r : String) :
    r ∈ queryRooms inScope rooms ↔ (r ∈ rooms ∧ inScope r = true) ∨ (r = "" ∧ ∃ x ∈ rooms, inScope x = false) := by
  unfold queryRooms
  rw [List.mem_append, List.mem_filter, List.mem_replicate]
  refine or_congr Iff.rfl ?_
  rw [and_comm]
  refine and_congr_right fun _ => ?_
  have hle := List.length_filter_le inScope rooms
  constructor
  · intro h
    refine Classical.byContradiction fun hc => h ?_
    have : rooms.filter inScope = rooms := List.filter_eq_self.2 fun a ha => by
      cases hs : inScope a
      · exact absurd ⟨a, ha, hs⟩ hc
      · rfl
    rw [this]; omega
  · rintro ⟨x, hx, hs⟩ h0
    have : rooms.filter inScope = rooms := by
      have hl : (rooms.filter inScope).length = rooms.length := by omega
      exact List.filter_sublist.eq_of_length hl
    rw [← this, List.mem_filter, hs] at hx
    simp at hx

/-- C33, exact: what the initial response reports under a room key.  Besides the data of the rooms in scope,
the user's global data is reported under the empty room key as soon as one room is out of scope. -/
theorem C33_exact (db : List Row) (user : String) (inScope : String → Bool) (rooms : List String) (ini : Bool)
    (r : String) (row : Row) :
    row ∈ (processInitial db user inScope rooms ini).rooms r ↔
      row ∈ db ∧ row.user = user ∧ row.room = r ∧
        ((r ∈ rooms ∧ inScope r = true) ∨ (r = "" ∧ ∃ x ∈ rooms, inScope x = false)) := by
  have hlen : (queryRooms inScope rooms).length = rooms.length := by
    have hle := List.length_filter_le inScope rooms
    simp only [queryRooms, List.length_append, List.length_replicate]; omega
  simp only [processInitial, List.mem_filter, decide_eq_true_eq]
  rw [← mem_queryRooms]
  by_cases h0 : (queryRooms inScope rooms).length > 0
  · rw [if_pos h0, selectMany, if_neg (by omega)]
    simp only [List.mem_filter, Bool.and_eq_true, decide_eq_true_eq]
    constructor
    · rintro ⟨⟨h1, h2, h3⟩, rfl⟩; exact ⟨h1, h2, rfl, h3⟩
    · rintro ⟨h1, h2, rfl, h3⟩; exact ⟨⟨h1, h2, h3⟩, rfl⟩
  · rw [if_neg h0]
    have : queryRooms inScope rooms = [] := List.length_eq_zero_iff.1 (by omega)
    simp [this]

/-- C33 (partial: every room of the response is in scope and none has an empty id): under each room exactly
its own rows, and nothing under any other key. -/
theorem C33_initial_partial (db : List Row) (user : String) (inScope : String → Bool) (rooms : List String) (ini : Bool)
    (hs : ∀ x ∈ rooms, inScope x = true) (r : String) (row : Row) :
    row ∈ (processInitial db user inScope rooms ini).rooms r ↔
      row ∈ db ∧ row.user = user ∧ row.room = r ∧ r ∈ rooms := by
  rw [C33_exact]
  constructor
  · rintro ⟨h1, h2, h3, (⟨h4, _⟩ | ⟨_, x, hx, hf⟩)⟩
    · exact ⟨h1, h2, h3, h4⟩
    · rw [hs x hx] at hf; cases hf
  · rintro ⟨h1, h2, h3, h4⟩; exact ⟨h1, h2, h3, Or.inl ⟨h4, hs r h4⟩⟩

/-- C33, the global section: exactly the user's global rows, on the first response only. -/
theorem C33_global (db : List Row) (user : String) (inScope : String → Bool) (rooms : List String) (ini : Bool) (row : Row) :
    row ∈ (processInitial db user inScope rooms ini).global ↔
      ini = true ∧ row ∈ db ∧ row.user = user ∧ row.room = "" := by
  cases ini <;> simp [processInitial, selectMany]

/-- C33 is violated: a response with one room out of scope reports the global account data as the data of a
room with an empty id, even on an incremental request. -/
theorem C33_violated :
    let db : List Row := [⟨"@a", "", "m.push_rules", "x"⟩, ⟨"@a", "!r", "m.tag", "y"⟩]
    (processInitial db "@a" (fun r => r = "!r") ["!r", "!q"] false).rooms "" = [⟨"@a", "", "m.push_rules", "x"⟩] := by
  decide +kernel

/-- A run of live updates. -/
def live (db : List Row) (user : String) (inScope inTimeline : String → Bool) (res : ADRes) (us : List Update) : ADRes :=
  us.foldl (appendLive db user inScope inTimeline) res

/-- A room account data update carries rows of its room; a global one rows without a room.  This is how the
poller builds them (`user_cache.go`, `OnAccountData`). -/
def Honest : Update → Prop
  | .global rows => ∀ x ∈ rows, x.room = ""
  | .roomData r rows => ∀ x ∈ rows, x.room = r
  | .room _ => True

/-- C33, live: starting from nothing, rows under a room belong to the room, which is in scope, and rows in the
global section are global. -/
theorem C33_live (db : List Row) (user : String) (inScope inTimeline : String → Bool) (us : List Update)
    (hu : ∀ u ∈ us, Honest u) :
    let res := live db user inScope inTimeline {} us
    (∀ r, ∀ row ∈ res.rooms r, row.room = r ∧ inScope r = true) ∧ (∀ row ∈ res.global, row.room = "") := by
  induction us using Verif.Util.snocRec with
  | nil => exact ⟨by simp [live], by simp [live]⟩
  | append_singleton us u ih =>
    obtain ⟨h1, h2⟩ := ih fun x hx => hu x (by simp [hx])
    have hh := hu u (by simp)
    have e : live db user inScope inTimeline {} (us ++ [u]) =
        appendLive db user inScope inTimeline (live db user inScope inTimeline {} us) u := by simp [live]
    simp only at h1 h2 ⊢
    rw [e]
    generalize live db user inScope inTimeline {} us = res at h1 h2
    cases u with
    | global rows =>
      refine ⟨h1, fun row hr => ?_⟩
      simp only [appendLive, List.mem_append] at hr
      rcases hr with hr | hr
      · exact h2 row hr
      · exact hh row hr
    | roomData r rows =>
      simp only [appendLive]
      split
      · rename_i hs
        refine ⟨fun x row hr => ?_, h2⟩
        simp only at hr
        split at hr
        · rename_i hx; subst hx
          rcases List.mem_append.1 hr with hr | hr
          · exact h1 x row hr
          · exact ⟨hh row hr, hs⟩
        · exact h1 x row hr
      · exact ⟨h1, h2⟩
    | room r =>
      simp only [appendLive]
      split
      · exact ⟨h1, h2⟩
      split
      · exact ⟨h1, h2⟩
      split
      · exact ⟨h1, h2⟩
      split
      · rename_i hs _ _ _
        refine ⟨fun x row hr => ?_, h2⟩
        simp only at hr
        split at hr
        · rename_i hx; subst hx
          rcases List.mem_append.1 hr with hr | hr
          · exact h1 x row hr
          · simp [selectMany] at hr
            exact ⟨hr.2.2, by simpa using hs⟩
        · exact h1 x row hr
      · exact ⟨h1, h2⟩

/-! ## C65: account data of rooms newly in the response -/

/-- C65 (partial: no account data update of the same room comes before the first other update of the room in
the same response).  If an in-scope room of the response has an update, all its stored account data is sent. -/
theorem C65_complete_partial (db : List Row) (user : String) (inScope inTimeline : String → Bool) (pre post : List Update)
    (r : String) (hs : inScope r = true) (ht : inTimeline r = true) (hp : ∀ u ∈ pre, ∀ rows, u ≠ .roomData r rows)
    (row : Row) (hd : row ∈ db) (hu : row.user = user) (hr : row.room = r) :
    row ∈ (live db user inScope inTimeline {} (pre ++ .room r :: post)).rooms r := by
  have mono : ∀ (us : List Update) (res : ADRes), row ∈ res.rooms r → row ∈ (live db user inScope inTimeline res us).rooms r := by
    intro us
    induction us with
    | nil => exact fun _ h => h
    | cons u us ih =>
      intro res h
      refine ih _ ?_
      cases u with
      | global rows => exact h
      | roomData x rows => simp only [appendLive]; split <;> (try exact h); simp only; split <;> simp [h]
      | room x =>
        simp only [appendLive]
        split <;> (try exact h)
        split <;> (try exact h)
        split <;> (try exact h)
        split <;> (try exact h)
        simp only; split <;> simp [h]
  have hsel : row ∈ selectMany db user [r] := by simp [selectMany, hd, hu, hr]
  have hpre : ∀ (us : List Update) (res : ADRes), (∀ u ∈ us, ∀ rows, u ≠ .roomData r rows) →
      (res.loaded r = true → row ∈ res.rooms r) →
      (live db user inScope inTimeline res us).loaded r = true → row ∈ (live db user inScope inTimeline res us).rooms r := by
    intro us
    induction us with
    | nil => exact fun _ _ h => h
    | cons u us ih =>
      intro res hn h
      refine ih _ (fun x hx => hn x (by simp [hx])) ?_
      cases u with
      | global rows => exact h
      | roomData x rows =>
        have hx : ¬ r = x := fun he => hn (.roomData x rows) (by simp) rows (by rw [he])
        simp only [appendLive]; split <;> (try exact h)
        simp only [if_neg hx]; exact h
      | room x =>
        simp only [appendLive]
        split <;> (try exact h)
        split <;> (try exact h)
        split <;> (try exact h)
        split <;> (try exact h)
        by_cases hx : r = x
        · subst hx; intro _; simp [hsel]
        · simp only [if_neg hx]; exact h
  have e : live db user inScope inTimeline {} (pre ++ .room r :: post) =
      live db user inScope inTimeline (appendLive db user inScope inTimeline (live db user inScope inTimeline {} pre) (.room r)) post := by
    simp [live]
  rw [e]
  refine mono _ _ ?_
  have h0 := hpre pre {} hp (by simp)
  generalize live db user inScope inTimeline {} pre = res at h0
  simp only [appendLive, hs, ht, Bool.not_true, Bool.false_eq_true, if_false]
  by_cases hl : res.loaded r = true
  · rw [if_pos hl]; exact h0 hl
  · rw [if_neg hl]
    have : (selectMany db user [r]).length > 0 := List.length_pos_of_mem hsel
    rw [if_pos this]; simp [hsel]

example : (live [⟨"@a", "!r", "m.tag", "y"⟩] "@a" (fun _ => true) (fun r => r = "!r") {} [.global [], .room "!q", .room "!r"]).rooms "!r"
    = [⟨"@a", "!r", "m.tag", "y"⟩] := by decide +kernel

/-- The account data of updates for a room. -/
def given (inScope : String → Bool) (r : String) : List Update → List Row
  | [] => []
  | .roomData x rows :: us => (if x = r ∧ inScope r = true then rows else []) ++ given inScope r us
  | _ :: us => given inScope r us

theorem live_loaded (db : List Row) (user : String) (inScope inTimeline : String → Bool) (r : String) (us : List Update) :
    ∀ res : ADRes, res.loaded r = true →
      (live db user inScope inTimeline res us).rooms r = res.rooms r ++ given inScope r us := by
  induction us with
  | nil => intro res _; simp [live, given]
  | cons u us ih =>
    intro res h
    have e : live db user inScope inTimeline res (u :: us) = live db user inScope inTimeline (appendLive db user inScope inTimeline res u) us := rfl
    rw [e]
    cases u with
    | global rows => exact ih { res with global := res.global ++ rows } h
    | roomData x rows =>
      simp only [appendLive, given]
      by_cases hx : x = r
      · subst hx
        cases hs : inScope x with
        | true => rw [if_pos rfl, ih _ (by simp)]; simp [hs]
        | false => rw [if_neg (by simp), ih _ h]; simp
      · have hx' : ¬ r = x := fun h => hx h.symm
        cases hs : inScope x with
        | true => rw [if_pos rfl, ih _ (by simp [hx', h])]; simp [hx, hx']
        | false => rw [if_neg (by simp), ih _ h]; simp [hx]
    | room x =>
      simp only [given]
      have : ∃ res', appendLive db user inScope inTimeline res (.room x) = res' ∧ res'.loaded r = true ∧ res'.rooms r = res.rooms r := by
        refine ⟨_, rfl, ?_⟩
        simp only [appendLive]
        split <;> (try exact ⟨h, rfl⟩)
        split <;> (try exact ⟨h, rfl⟩)
        split <;> (try exact ⟨h, rfl⟩)
        rename_i hl
        split <;> (try exact ⟨h, rfl⟩)
        have hx : ¬ r = x := fun he => hl (by rw [← he]; exact h)
        simp [hx, h]
      obtain ⟨res', h1, h2, h3⟩ := this
      rw [h1, ih res' h2, h3]

/-- C65, in part: the stored account data of a room is sent at most once in a response, before that of the updates, and nothing else is
sent for the room. -/
theorem C65_once (db : List Row) (user : String) (inScope inTimeline : String → Bool) (r : String) (us : List Update) :
    (live db user inScope inTimeline {} us).rooms r = given inScope r us ∨
      (live db user inScope inTimeline {} us).rooms r = selectMany db user [r] ++ given inScope r us := by
  have key : ∀ (us : List Update) (res : ADRes), res.loaded r = false → res.rooms r = [] →
      (live db user inScope inTimeline res us).rooms r = given inScope r us ∨
        (live db user inScope inTimeline res us).rooms r = selectMany db user [r] ++ given inScope r us := by
    intro us
    induction us with
    | nil => intro res _ h; exact Or.inl h
    | cons u us ih =>
      intro res hl hr
      have e : live db user inScope inTimeline res (u :: us) = live db user inScope inTimeline (appendLive db user inScope inTimeline res u) us := rfl
      rw [e]
      cases u with
      | global rows => exact ih { res with global := res.global ++ rows } hl hr
      | roomData x rows =>
        simp only [appendLive, given]
        by_cases hx : x = r
        · subst hx
          cases hs : inScope x with
          | true =>
            rw [if_pos rfl, live_loaded _ _ _ _ _ _ _ (by simp)]
            left; simp [hr]
          | false => rw [if_neg (by simp)]; simpa using ih _ hl hr
        · have hx' : ¬ r = x := fun h => hx h.symm
          cases hs : inScope x with
          | true =>
            rw [if_pos rfl]
            simpa [hx] using ih _ (by simp [hx', hl]) (by simp [hx', hr])
          | false => rw [if_neg (by simp)]; simpa [hx] using ih _ hl hr
      | room x =>
        simp only [appendLive, given]
        split
        · exact ih _ hl hr
        · split
          · exact ih _ hl hr
          · split
            · exact ih _ hl hr
            · split
              · by_cases hx : r = x
                · subst hx
                  rw [live_loaded _ _ _ _ _ _ _ (by simp)]
                  right; simp [hr]
                · exact ih _ (by simp [hx, hl]) (by simp [hx, hr])
              · exact ih _ hl hr
  exact key us {} rfl rfl

/-- Two updates of a room, and its account data once. -/
example : (live [⟨"@a", "!r", "m.tag", "y"⟩] "@a" (fun _ => true) (fun r => r = "!r") {} [.room "!r", .room "!r"]).rooms "!r"
    = selectMany [⟨"@a", "!r", "m.tag", "y"⟩] "@a" ["!r"] ++ given (fun _ => true) "!r" [.room "!r", .room "!r"] := by decide +kernel

/-- C65 is violated: an account data update of the room that arrives first in the response marks the room as
loaded, and the account data stored before is never sent. -/
theorem C65_violated :
    let db : List Row := [⟨"@a", "!r", "m.tag", "y"⟩, ⟨"@a", "!r", "m.fully_read", "z"⟩]
    (live db "@a" (fun _ => true) (fun r => r = "!r") {} [.roomData "!r" [⟨"@a", "!r", "m.fully_read", "z"⟩], .room "!r"]).rooms "!r"
      = [⟨"@a", "!r", "m.fully_read", "z"⟩] := by decide +kernel

end Verif.Extensions
