import Verif.Dispatcher
import Verif.TrackerProps
/-! # C22, C23: who receives live events -/
namespace Verif.Dispatcher
open Verif.Tracker (isUserJoined)

/-- The tracker invariant holds in every reachable dispatcher state. -/
theorem inv_event {s : State} (h : Tracker.Inv s.jrt) (room : String) (ev : Event) (nid : Int) :
    Tracker.Inv (onNewEvent s room ev nid).1.jrt := by
  unfold onNewEvent
  split
  · exact h
  · rename_i target _
    simp only
    split
    · exact Tracker.inv_step h (.invite [target] room)
    · split
      · exact Tracker.inv_step h (.join [target] room)
      · split
        · exact Tracker.inv_step h (.leave target room)
        · exact h

theorem events_cons (s : State) (room : String) (evs : List Event) (e : Event) :
    (onNewEvents s room (e :: evs)).1 = (onNewEvents (onNewEvent s room e 0).1 room evs).1 := by
  have gen : ∀ (evs : List Event) (s : State) (ds ds' : List Delivery),
      (evs.foldl (fun (p : State × List Delivery) e => ((onNewEvent p.1 room e 0).1, p.2 ++ (onNewEvent p.1 room e 0).2)) (s, ds)).1 =
      (evs.foldl (fun (p : State × List Delivery) e => ((onNewEvent p.1 room e 0).1, p.2 ++ (onNewEvent p.1 room e 0).2)) (s, ds')).1 := by
    intro evs
    induction evs with
    | nil => intros; rfl
    | cons e evs ih => intro s ds ds'; exact ih _ _ _
  unfold onNewEvents
  rw [List.foldl_cons]
  exact gen _ _ _ _

theorem inv_events {s : State} (h : Tracker.Inv s.jrt) (room : String) (evs : List Event) :
    Tracker.Inv (onNewEvents s room evs).1.jrt := by
  induction evs generalizing s with
  | nil => exact h
  | cons e evs ih => rw [events_cons]; exact ih (inv_event h room e 0)

theorem unregister_jrt (s : State) (us : List String) : (unregister s us).1.jrt = s.jrt := by
  unfold unregister
  suffices ∀ (p : State × List String), (us.foldl (fun (p : State × List String) u =>
      if u ∈ p.1.receivers then ({ p.1 with receivers := p.1.receivers.filter (· ≠ u) }, p.2 ++ [u]) else p) p).1.jrt = p.1.jrt from
    this (s, [])
  induction us with
  | nil => intro p; rfl
  | cons u us ih =>
    intro p
    rw [List.foldl_cons, ih]
    split <;> rfl

theorem inv_step {s : State} (h : Tracker.Inv s.jrt) (o : Op) : Tracker.Inv (step s o).jrt := by
  cases o with
  | register u => exact h
  | unregister us => simp only [step]; rw [unregister_jrt]; exact h
  | event r e n => exact inv_event h r e n
  | initial r es =>
    simp only [step, onNewInitialRoomState]
    split
    · exact inv_events h r es
    · exact Tracker.inv_step (Tracker.inv_step h (.join (members es "join") r)) (.invite (members es "invite") r)
  | invalidate r j i => exact Tracker.inv_step h (.reload r j i)

theorem inv_run (m : List (String × List String)) (hm : (m.map (·.1)).Nodup) (ops : List Op) :
    Tracker.Inv (run m ops).jrt := by
  unfold run
  suffices ∀ s : State, Tracker.Inv s.jrt → Tracker.Inv (ops.foldl step s).jrt from this _ (Tracker.inv_startup m hm)
  induction ops with
  | nil => intro s h; exact h
  | cons o ops ih => intro s h; exact ih _ (inv_step h o)

/-! ## Specification of recipients -/

/-- The user and new membership an event is about, if it is a member event. -/
def about (e : Event) : Option (String × String) :=
  if e.type = "m.room.member" then e.stateKey.map (·, e.membership) else none

/-- May `u` see the event, given whether `u` was joined or invited just before? -/
def MaySee (e : Event) (u : String) (joinedBefore invitedBefore : Prop) : Prop :=
  match about e with
  | none => joinedBefore
  | some (t, m) =>
    if t = u then
      if m = "join" then True
      else if m = "leave" ∨ m = "ban" then joinedBefore ∨ invitedBefore
      else joinedBefore
    else joinedBefore

theorem mem_joined_iff (t : Tracker.State) (u r : String) : u ∈ t.joinedUsers r ↔ isUserJoined t u r = true := by
  simp [isUserJoined]

/-- The recipients other than the global one. -/
theorem event_recipients {s : State} (h : Tracker.Inv s.jrt) (room : String) (ev : Event) (nid : Int) :
    ∃ L : List String,
      (onNewEvent s room ev nid).2.map (·.to) = (if allUsers ∈ s.receivers then [allUsers] else []) ++ L ∧
      L.Nodup ∧
      (∀ u, u ≠ allUsers → (u ∈ L ↔ u ∈ s.receivers ∧
        MaySee ev u (u ∈ s.jrt.joinedUsers room) (u ∈ s.jrt.invited room))) ∧
      (allUsers ∈ L → ∃ m, about ev = some (allUsers, m)) := by
  have hmap : ∀ (s' : State) (jc ic : Nat) (users : List String) (target : String) (force : Bool),
      (notifyListeners s' room ev nid jc ic users target force).map (·.to) =
        (if allUsers ∈ s'.receivers then [allUsers] else []) ++ users.filter (registered s') := by
    intro s' jc ic users target force
    unfold notifyListeners
    rw [List.map_append, List.map_map]
    congr 1
    · simp only [registered, decide_eq_true_eq]
      split <;> rfl
    · rw [show ((fun x : Delivery => x.to) ∘ fun u => (⟨u, room, ev, nid, jc, ic, if target = u then (if force then true else false) else false⟩ : Delivery)) = id from rfl]
      simp
  unfold onNewEvent MaySee about
  by_cases ht : ev.type = "m.room.member"
  rotate_left
  · rw [if_neg ht, if_neg ht]
    simp only
    rw [hmap]
    refine ⟨_, rfl, ?_, ?_, ?_⟩
    · exact ((h.nodupU room).filter _).filter _
    · intro u hu
      simp only [Tracker.joinedUsersForRoom, List.mem_filter, registered, wanted, hu, if_false, decide_eq_true_eq]
      constructor
      · rintro ⟨⟨h1, h2⟩, h3⟩; exact ⟨h2, h1⟩
      · rintro ⟨h2, h1⟩; exact ⟨⟨h1, h2⟩, h2⟩
    · intro hu
      simp [Tracker.joinedUsersForRoom, List.mem_filter, wanted] at hu
  · rw [if_pos ht, if_pos ht]
    cases hk : ev.stateKey with
    | none =>
      simp only [Option.map_none]
      rw [hmap]
      refine ⟨_, rfl, ?_, ?_, ?_⟩
      · exact ((h.nodupU room).filter _).filter _
      · intro u hu
        simp only [Tracker.joinedUsersForRoom, List.mem_filter, registered, wanted, hu, if_false, decide_eq_true_eq]
        constructor
        · rintro ⟨⟨h1, h2⟩, h3⟩; exact ⟨h2, h1⟩
        · rintro ⟨h2, h1⟩; exact ⟨⟨h1, h2⟩, h2⟩
      · intro hu
        simp [Tracker.joinedUsersForRoom, List.mem_filter, wanted] at hu
    | some target =>
      simp only [Option.map_some]
      -- generic facts for a new tracker state and appended users
      have key : ∀ (jrt : Tracker.State), (jrt.joinedUsers room).Nodup → ∀ (extra : List String), extra.Nodup →
          (∀ x ∈ extra, x ∉ jrt.joinedUsers room ∧ x = target) →
          ∀ (P : String → Prop), (∀ u, (u ∈ jrt.joinedUsers room ∨ u ∈ extra) ↔ P u) →
          let s' : State := { s with jrt }
          let L := ((Tracker.joinedUsersForRoom jrt room (wanted s')).1 ++ extra).filter (registered s')
          L.Nodup ∧ (∀ u, u ≠ allUsers → (u ∈ L ↔ u ∈ s.receivers ∧ P u)) ∧
          (allUsers ∈ L → ∃ m, some (target, ev.membership) = some (allUsers, m)) := by
        intro jrt hn extra hne hex P hP
        simp only
        refine ⟨?_, ?_, ?_⟩
        · apply List.Pairwise.filter
          show List.Nodup _
          rw [List.nodup_append]
          refine ⟨hn.filter _, hne, ?_⟩
          intro a ha b hb hab
          subst hab
          exact (hex a hb).1 (List.mem_filter.1 ha).1
        · intro u hu
          rw [← hP]
          simp only [Tracker.joinedUsersForRoom, List.mem_filter, List.mem_append, registered, wanted, hu, if_false, decide_eq_true_eq]
          constructor
          · rintro ⟨h1 | h1, h2⟩
            · exact ⟨h2, Or.inl h1.1⟩
            · exact ⟨h2, Or.inr h1⟩
          · rintro ⟨h1, h2 | h2⟩
            · exact ⟨Or.inl ⟨h2, h1⟩, h1⟩
            · exact ⟨Or.inr h2, h1⟩
        · intro hu
          rcases List.mem_append.1 (List.mem_filter.1 hu).1 with h1 | h1
          · simp [Tracker.joinedUsersForRoom, wanted] at h1
          · exact ⟨ev.membership, by rw [(hex _ h1).2]⟩
      by_cases h1 : ev.membership = "invite"
      · simp only [h1, if_true]
        rw [hmap, if_neg Bool.false_ne_true]
        have k := key (Tracker.usersInvitedToRoom s.jrt [target] room) (h.nodupU room) [] (by simp) (by simp)
          (fun u => u ∈ s.jrt.joinedUsers room) (by intro u; simp [Tracker.usersInvitedToRoom])
        simp only [List.append_nil] at k
        refine ⟨_, rfl, k.1, ?_, ?_⟩
        · intro u hu
          rw [k.2.1 u hu]
          simp
        · intro hu; have := k.2.2 hu; rw [h1] at this; exact this
      · rw [if_neg h1]
        by_cases h2 : ev.membership = "join"
        · simp only [h2, if_true]
          rw [hmap, if_neg Bool.false_ne_true]
          have hj := (Tracker.join_fields [target] room s.jrt).1
          have k := key (Tracker.userJoinedRoom s.jrt target room).1
            ((Tracker.inv_step h (.join [target] room)).nodupU room) [] (by simp) (by simp)
            (fun u => u ∈ s.jrt.joinedUsers room ∨ u = target) (by
              intro u
              simp only [Tracker.userJoinedRoom, List.not_mem_nil, or_false]
              rw [hj]
              simp)
          simp only [List.append_nil] at k
          refine ⟨_, rfl, k.1, ?_, ?_⟩
          · intro u hu
            rw [k.2.1 u hu]
            by_cases htu : target = u
            · simp [htu]
            · have : ¬ u = target := fun h => htu h.symm
              simp [htu, this]
          · intro hu; have := k.2.2 hu; rw [h2] at this; exact this
        · rw [if_neg h2]
          by_cases h3 : ev.membership = "ban" ∨ ev.membership = "leave"
          · rw [if_pos h3]
            simp only
            rw [hmap]
            have hl := (Tracker.leave_fields target room s.jrt).1
            have hnd := (Tracker.inv_step h (.leave target room)).nodupU room
            have hb : (Tracker.userLeftRoom s.jrt target room).2 = true ↔
                (target ∈ s.jrt.joinedUsers room ∨ target ∈ s.jrt.invited room) := by
              simp [Tracker.userLeftRoom]
            have h3' : ev.membership = "leave" ∨ ev.membership = "ban" := h3.symm
            by_cases hc : (Tracker.userLeftRoom s.jrt target room).2 = true
            · rw [if_pos hc]
              have k := key (Tracker.userLeftRoom s.jrt target room).1 hnd [target] (by simp) (by
                intro x hx
                simp only [List.mem_singleton] at hx
                subst hx
                refine ⟨?_, rfl⟩
                rw [hl]; simp)
                (fun u => (u ∈ s.jrt.joinedUsers room ∧ u ≠ target) ∨ u = target) (by
                  intro u; rw [hl]; simp)
              refine ⟨_, rfl, k.1, ?_, k.2.2⟩
              intro u hu
              rw [k.2.1 u hu]
              rw [hb] at hc
              by_cases htu : target = u
              · subst htu; simp [h3', h2, hc]
              · have : ¬ u = target := fun h => htu h.symm
                simp [htu, this]
            · rw [if_neg hc]
              have k := key (Tracker.userLeftRoom s.jrt target room).1 hnd [] (by simp) (by simp)
                (fun u => (u ∈ s.jrt.joinedUsers room ∧ u ≠ target)) (by
                  intro u; rw [hl]; simp)
              simp only [List.append_nil] at k
              refine ⟨_, rfl, k.1, ?_, k.2.2⟩
              intro u hu
              rw [k.2.1 u hu]
              rw [hb] at hc
              by_cases htu : target = u
              · subst htu; simp [h3', h2, hc]
              · have : ¬ u = target := fun h => htu h.symm
                simp [htu, this]
          · rw [if_neg h3]
            simp only
            rw [hmap, if_neg Bool.false_ne_true]
            have k := key s.jrt (h.nodupU room) [] (by simp) (by simp)
              (fun u => u ∈ s.jrt.joinedUsers room) (by intro u; simp)
            simp only [List.append_nil] at k
            have h3' : ¬ (ev.membership = "leave" ∨ ev.membership = "ban") := fun h => h3 h.symm
            refine ⟨_, rfl, k.1, ?_, k.2.2⟩
            intro u hu
            rw [k.2.1 u hu]
            by_cases htu : target = u <;> simp [htu, h2, h3']

/-- C22. In every reachable state a live event is delivered first to the global
listener and then, once each, to exactly the registered users who may see it.
Partial: assumes the event is not a membership event of the pseudo user `-`
(`C22_violated` shows what happens otherwise). -/
theorem C22_recipients_partial (m : List (String × List String)) (hm : (m.map (·.1)).Nodup) (ops : List Op)
    (room : String) (ev : Event) (nid : Int) (hne : ∀ x, about ev ≠ some (allUsers, x)) :
    let s := run m ops
    ∃ users : List String,
      (onNewEvent s room ev nid).2.map (·.to) = (if allUsers ∈ s.receivers then [allUsers] else []) ++ users ∧
      users.Nodup ∧
      ∀ u, u ∈ users ↔ u ≠ allUsers ∧ u ∈ s.receivers ∧
        MaySee ev u (isUserJoined s.jrt u room = true) (u ∈ s.jrt.invited room) := by
  intro s
  obtain ⟨L, h1, h2, h3, h4⟩ := event_recipients (inv_run m hm ops) room ev nid
  have hna : allUsers ∉ L := fun hL => by
    obtain ⟨x, hx⟩ := h4 hL
    exact hne x hx
  refine ⟨L, h1, h2, ?_⟩
  intro u
  constructor
  · intro hu
    have hua : u ≠ allUsers := fun he => hna (he ▸ hu)
    have := (h3 u hua).1 hu
    rw [mem_joined_iff] at this
    exact ⟨hua, this⟩
  · rintro ⟨hua, hrest⟩
    rw [h3 u hua, mem_joined_iff]
    exact hrest

/-- C22. Whatever the event, a user who neither was in the room or invited nor
is now joining it receives nothing. -/
theorem C22_no_leak (m : List (String × List String)) (hm : (m.map (·.1)).Nodup) (ops : List Op)
    (room : String) (ev : Event) (nid : Int) (u : String) (hu : u ≠ allUsers)
    (hj : isUserJoined (run m ops).jrt u room = false) (hi : u ∉ (run m ops).jrt.invited room)
    (hjoin : about ev ≠ some (u, "join")) :
    ∀ d ∈ (onNewEvent (run m ops) room ev nid).2, d.to ≠ u := by
  intro d hd he
  obtain ⟨L, h1, h2, h3, h4⟩ := event_recipients (inv_run m hm ops) room ev nid
  have hmem : u ∈ (onNewEvent (run m ops) room ev nid).2.map (·.to) := List.mem_map.2 ⟨d, hd, he⟩
  rw [h1] at hmem
  rcases List.mem_append.1 hmem with h | h
  · split at h
    · simp at h; exact hu h
    · cases h
  · have := ((h3 u hu).1 h).2
    rw [mem_joined_iff] at this
    unfold MaySee at this
    rw [hj] at this
    split at this
    · cases this
    · rename_i t mm hab
      split at this
      · rename_i htu
        subst htu
        split at this
        · rename_i hmj; subst hmj; exact hjoin hab
        · split at this
          · rcases this with h | h
            · cases h
            · exact hi h
          · cases this
      · cases this

example :
    let s := run [("!r", ["@a", "@b"])] [.register "-", .register "@a", .register "@b", .register "@c"]
    (onNewEvent s "!r" ⟨1, "m.room.member", some "@b", "leave"⟩ 7).2.map (·.to) = ["-", "@a", "@b"] ∧
    (onNewEvent s "!r" ⟨1, "m.room.member", some "@c", "ban"⟩ 7).2.map (·.to) = ["-", "@a", "@b"] := by decide +kernel

/-- C22 is violated for a member event whose state key is the internal name of
the global listener: after an invite of `-` a leave of `-` reaches the global
listener twice. -/
theorem C22_violated : ∃ (ops : List Op) (ev : Event),
    (onNewEvent (run [] ops) "!r" ev 2).2.map (·.to) = [allUsers, allUsers] :=
  ⟨[.register "-", .event "!r" ⟨1, "m.room.member", some "-", "invite"⟩ 1],
    ⟨2, "m.room.member", some "-", "leave"⟩, by decide +kernel⟩

/-- C22 for typing notifications and receipts: exactly the registered users
joined to the room, once each, after the global listener. -/
theorem C22_ephemeral (m : List (String × List String)) (hm : (m.map (·.1)).Nodup) (ops : List Op) (room : String) :
    let s := run m ops
    ∃ users : List String, onEphemeral s room = (if allUsers ∈ s.receivers then [allUsers] else []) ++ users ∧
      users.Nodup ∧ ∀ u, u ∈ users ↔ u ≠ allUsers ∧ u ∈ s.receivers ∧ isUserJoined s.jrt u room = true := by
  intro s
  have h := inv_run m hm ops
  refine ⟨((s.jrt.joinedUsers room).filter (wanted s)).filter (registered s), ?_, ((h.nodupU room).filter _).filter _, ?_⟩
  · simp [onEphemeral, Tracker.joinedUsersForRoom, registered]
  · intro u
    rw [← mem_joined_iff]
    simp only [List.mem_filter, wanted, registered]
    by_cases hu : u = allUsers
    · simp [hu]
    · simp only [hu, if_false, decide_eq_true_eq, ne_eq, not_false_eq_true, true_and]
      constructor
      · rintro ⟨⟨h1, h2⟩, _⟩; exact ⟨h2, h1⟩
      · rintro ⟨h1, h2⟩; exact ⟨⟨h2, h1⟩, h1⟩

/-- C22 for the bulk initial state of a room nobody is joined to: each state
event goes, in order, to the global listener and then to exactly the registered
users the state lists as joined. -/
theorem C22_initial (m : List (String × List String)) (hm : (m.map (·.1)).Nodup) (ops : List Op) (room : String)
    (evs : List Event) (h0 : ∀ u, isUserJoined (run m ops).jrt u room = false) :
    let s := run m ops
    ∃ users : List String, users.Nodup ∧
      (∀ u, u ∈ users ↔ u ≠ allUsers ∧ u ∈ s.receivers ∧
        ∃ e ∈ evs, about e = some (u, "join")) ∧
      (onNewInitialRoomState s room evs).2.map (fun d => (d.to, d.ev)) =
        evs.flatMap fun e => ((if allUsers ∈ s.receivers then [allUsers] else []) ++ users).map fun u => (u, e) := by
  intro s
  have h := inv_run m hm ops
  have hempty : s.jrt.joinedUsers room = [] := by
    cases hl : s.jrt.joinedUsers room with
    | nil => rfl
    | cons x l =>
      have : x ∈ s.jrt.joinedUsers room := by rw [hl]; simp
      rw [mem_joined_iff, h0 x] at this
      cases this
  have hmem : ∀ u, u ∈ members evs "join" ↔ ∃ e ∈ evs, about e = some (u, "join") := by
    intro u
    simp only [members, List.mem_filterMap, about]
    constructor
    · rintro ⟨e, he, hx⟩
      split at hx
      · rename_i hc
        exact ⟨e, he, by rw [if_pos hc.1, hx, hc.2]; rfl⟩
      · cases hx
    · rintro ⟨e, he, hx⟩
      split at hx
      · rename_i hc
        cases hk : e.stateKey with
        | none => rw [hk] at hx; cases hx
        | some k =>
          rw [hk] at hx
          simp only [Option.map_some, Option.some.injEq, Prod.mk.injEq] at hx
          exact ⟨e, he, by rw [if_pos ⟨hc, hx.2⟩, hk, hx.1]⟩
      · cases hx
  have hj := (Tracker.join_fields (members evs "join") room s.jrt).1
  have hnd := (Tracker.inv_step h (.join (members evs "join") room)).nodupU room
  simp only [Tracker.step] at hnd
  have hcond : ¬ (Tracker.joinedUsersForRoom s.jrt room (fun _ => true)).2 > 0 := by
    simp [Tracker.joinedUsersForRoom, hempty]
  unfold onNewInitialRoomState
  rw [if_neg hcond]
  simp only
  let jrt := Tracker.usersInvitedToRoom (Tracker.usersJoinedRoom s.jrt (members evs "join") room).1 (members evs "invite") room
  let s' : State := { s with jrt := jrt }
  refine ⟨((jrt.joinedUsers room).filter (wanted s')).filter (registered s'), ?_, ?_, ?_⟩
  · exact (hnd.filter _).filter _
  · intro u
    rw [← hmem]
    simp only [List.mem_filter, wanted, registered]
    have hju : u ∈ jrt.joinedUsers room ↔ u ∈ members evs "join" := by
      show u ∈ (Tracker.usersJoinedRoom s.jrt (members evs "join") room).1.joinedUsers room ↔ _
      rw [hj, hempty]; simp
    rw [hju]
    by_cases hu : u = allUsers
    · simp [hu]
    · simp only [hu, if_false, decide_eq_true_eq, ne_eq, not_false_eq_true, true_and]
      constructor
      · rintro ⟨⟨h1, h2⟩, _⟩; exact ⟨h2, h1⟩
      · rintro ⟨h1, h2⟩; exact ⟨⟨h2, h1⟩, h1⟩
  · rw [List.map_flatMap]
    congr 1
    funext e
    unfold notifyListeners
    rw [List.map_append, List.map_append, List.map_map]
    congr 1
    simp only [registered, decide_eq_true_eq]
    split <;> rfl

example :
    let s := run [] [.register "@a", .register "@c", .register "-"]
    ((onNewInitialRoomState s "!r" [⟨1, "m.room.member", some "@a", "join"⟩, ⟨2, "m.room.name", some "", ""⟩]).2.map
      fun d => (d.to, d.ev.id)) = [("-", 1), ("@a", 1), ("-", 2), ("@a", 2)] := by decide +kernel

/-! ## Membership as a function of the history of events -/

/-- What an event says about `u` being joined. -/
def saysEvent (u : String) (e : Event) : Option Bool :=
  match about e with
  | some (t, m) => if t = u then (if m = "join" then some true else if m = "leave" ∨ m = "ban" then some false else none) else none
  | none => none

/-- What a dispatcher operation says about `u` being joined to `r`. -/
def says (u r : String) : Op → Option Bool
  | .event r' e _ => if r' = r then saysEvent u e else none
  | .initial r' es => if r' = r then (es.filterMap (saysEvent u)).getLast? else none
  | .invalidate r' j _ => if r' = r then some (decide (u ∈ j)) else none
  | _ => none

/-- No user has two member events in the same state block (room state has one
event per type and state key). -/
def UniqueMembers (es : List Event) : Prop := ((es.filterMap about).map (·.1)).Nodup

theorem says_event (s : State) (room : String) (e : Event) (n : Int) (u r : String) :
    isUserJoined (onNewEvent s room e n).1.jrt u r =
      (if room = r then saysEvent u e else none).getD (isUserJoined s.jrt u r) := by
  rw [Bool.eq_iff_iff, ← mem_joined_iff]
  have hb : isUserJoined s.jrt u r = decide (u ∈ s.jrt.joinedUsers r) := by
    rw [Bool.eq_iff_iff, ← mem_joined_iff]; simp
  rw [hb]
  unfold onNewEvent saysEvent about
  by_cases ht : e.type = "m.room.member"
  rotate_left
  · rw [if_neg ht, if_neg ht]; simp
  · rw [if_pos ht, if_pos ht]
    cases hk : e.stateKey with
    | none => simp
    | some target =>
      simp only [Option.map_some]
      by_cases h1 : e.membership = "invite"
      · have := (Tracker.says_step s.jrt (.invite [target] room) u r).1
        simp only [Tracker.step, Tracker.saysJoined] at this
        simp [h1, Tracker.usersInvitedToRoom]
      · rw [if_neg h1]
        by_cases h2 : e.membership = "join"
        · have := (Tracker.says_step s.jrt (.join [target] room) u r).1
          simp only [Tracker.step, Tracker.saysJoined] at this
          simp only [h2, if_true, Tracker.userJoinedRoom]
          rw [this]
          by_cases hr : room = r <;> by_cases htu : target = u
          · simp [hr, htu]
          · have : ¬ u = target := fun h => htu h.symm
            simp [hr, htu, this]
          · simp [hr]
          · simp [hr]
        · rw [if_neg h2, if_neg h2]
          by_cases h3 : e.membership = "ban" ∨ e.membership = "leave"
          · have h3' : e.membership = "leave" ∨ e.membership = "ban" := h3.symm
            have := (Tracker.says_step s.jrt (.leave target room) u r).1
            simp only [Tracker.step, Tracker.saysJoined] at this
            rw [if_pos h3]
            simp only
            rw [this]
            by_cases hr : room = r <;> by_cases htu : target = u <;> simp [hr, htu, h3']
          · have h3' : ¬ (e.membership = "leave" ∨ e.membership = "ban") := fun h => h3 h.symm
            rw [if_neg h3]
            simp [h3']

theorem says_events (s : State) (room : String) (es : List Event) (u r : String) :
    isUserJoined (onNewEvents s room es).1.jrt u r =
      (if room = r then (es.filterMap (saysEvent u)).getLast? else none).getD (isUserJoined s.jrt u r) := by
  induction es generalizing s with
  | nil => simp [onNewEvents]
  | cons e es ih =>
    rw [events_cons, ih, says_event]
    by_cases hr : room = r
    · rw [if_pos hr, if_pos hr, if_pos hr]
      rw [List.filterMap_cons]
      cases he : saysEvent u e with
      | none => simp
      | some v =>
        simp only [Option.getD_some]
        cases hl : es.filterMap (saysEvent u) with
        | nil => simp
        | cons a l => simp [List.getLast?_cons_cons, List.getLast?_cons]
    · simp [hr]

theorem unique_says {es : List Event} (h : UniqueMembers es) (u : String) :
    (es.filterMap (saysEvent u)).getLast?.getD false = true ↔ u ∈ members es "join" := by
  unfold UniqueMembers at h
  induction es with
  | nil => simp [members]
  | cons e es ih =>
    have hmc : members (e :: es) "join" = (if e.type = "m.room.member" ∧ e.membership = "join" then e.stateKey else none).toList ++ members es "join" := by
      simp only [members, List.filterMap_cons]
      cases (if e.type = "m.room.member" ∧ e.membership = "join" then e.stateKey else none) <;> rfl
    rw [hmc]
    rw [List.filterMap_cons] at h
    cases hab : about e with
    | none =>
      rw [hab] at h
      have hs : saysEvent u e = none := by simp [saysEvent, hab]
      rw [List.filterMap_cons, hs]
      simp only
      rw [ih h]
      have : (if e.type = "m.room.member" ∧ e.membership = "join" then e.stateKey else none) = none := by
        unfold about at hab
        split at hab
        · rename_i ht
          cases hk : e.stateKey with
          | none => simp
          | some k => rw [hk] at hab; cases hab
        · rename_i ht; simp [ht]
      rw [this]; simp
    | some p =>
      obtain ⟨t, mm⟩ := p
      rw [hab] at h
      simp only [List.map_cons, List.nodup_cons] at h
      have hte : e.type = "m.room.member" ∧ e.stateKey = some t ∧ e.membership = mm := by
        unfold about at hab
        split at hab
        · rename_i ht
          cases hk : e.stateKey with
          | none => rw [hk] at hab; cases hab
          | some k => rw [hk] at hab; simp at hab; exact ⟨ht, by rw [hab.1], hab.2⟩
        · cases hab
      by_cases htu : t = u
      · subst htu
        -- no later event is about u
        have hno : es.filterMap (saysEvent t) = [] := by
          rw [List.filterMap_eq_nil_iff]
          intro x hx
          unfold saysEvent
          split
          · rename_i t' m' hab'
            split
            · rename_i h'
              subst h'
              exact absurd (List.mem_map.2 ⟨_, List.mem_filterMap.2 ⟨x, hx, hab'⟩, rfl⟩) h.1
            · rfl
          · rfl
        have hnm : t ∉ members es "join" := by
          intro hm
          simp only [members, List.mem_filterMap] at hm
          obtain ⟨x, hx, hxx⟩ := hm
          split at hxx
          · rename_i hc
            have : about x = some (t, "join") := by simp [about, hc.1, hxx, hc.2]
            exact h.1 (List.mem_map.2 ⟨_, List.mem_filterMap.2 ⟨x, hx, this⟩, rfl⟩)
          · cases hxx
        rw [List.filterMap_cons, hno]
        have hs : saysEvent t e = if mm = "join" then some true else if mm = "leave" ∨ mm = "ban" then some false else none := by
          simp [saysEvent, hab]
        rw [hs, hte.1, hte.2.1, hte.2.2]
        by_cases hm : mm = "join"
        · simp [hm]
        · by_cases hm2 : mm = "leave" ∨ mm = "ban" <;> simp [hm, hm2, hnm]
      · have hs : saysEvent u e = none := by simp [saysEvent, hab, htu]
        rw [List.filterMap_cons, hs]
        simp only
        rw [ih h.2, hte.2.1]
        have : ¬ u = t := fun h => htu h.symm
        split <;> simp [this]

/-- C22. In every reachable state, joined means: the last dispatched event (or
reload, or startup) concerning that user and room says joined. -/
theorem C22_membership_history (m : List (String × List String)) (hm : (m.map (·.1)).Nodup) (ops : List Op)
    (huniq : ∀ r es, Op.initial r es ∈ ops → UniqueMembers es) (u r : String) :
    isUserJoined (run m ops).jrt u r =
      ((ops.filterMap (says u r)).getLast?).getD (decide (Tracker.listed m u r)) := by
  have hrev : ∃ l : List Op, l.reverse = ops := ⟨ops.reverse, by simp⟩
  obtain ⟨l, rfl⟩ := hrev
  induction l with
  | nil =>
    obtain ⟨h1, _⟩ := Tracker.startup_fields m hm
    rw [Bool.eq_iff_iff, ← mem_joined_iff]
    simp only [run, List.reverse_nil, List.foldl_nil, h1]
    simp
  | cons o l ih =>
    have e : run m (o :: l).reverse = step (run m l.reverse) o := by
      simp [run, List.foldl_append]
    have ih := ih (fun r es h => huniq r es (by simp at h ⊢; exact Or.inl h))
    have hstep : isUserJoined (step (run m l.reverse) o).jrt u r =
        (says u r o).getD (isUserJoined (run m l.reverse).jrt u r) := by
      cases o with
      | register x => simp [step, says, register]
      | unregister us => simp only [step, says]; rw [unregister_jrt]; simp
      | event r' ev n => exact says_event _ _ _ _ _ _
      | invalidate r' j i =>
        have := (Tracker.says_step (run m l.reverse).jrt (.reload r' j i) u r).1
        simp only [Tracker.step, Tracker.saysJoined] at this
        rw [Bool.eq_iff_iff, ← mem_joined_iff]
        simp only [step, onInvalidateRoom, says]
        rw [this]
        by_cases hr : r' = r
        · simp [hr]
        · rw [if_neg hr]; simp [isUserJoined]
      | initial r' es =>
        have hu := huniq r' es (by simp)
        simp only [step, onNewInitialRoomState, says]
        split
        · exact says_events _ _ _ _ _
        · rename_i hc
          have hemp : (run m l.reverse).jrt.joinedUsers r' = [] := by
            simpa [Tracker.joinedUsersForRoom] using hc
          have := (Tracker.join_fields (members es "join") r' (run m l.reverse).jrt).1 u r
          rw [Bool.eq_iff_iff, ← mem_joined_iff]
          simp only
          show u ∈ (Tracker.usersJoinedRoom (run m l.reverse).jrt (members es "join") r').1.joinedUsers r ↔ _
          rw [this]
          by_cases hr : r' = r
          · subst hr
            have hf : isUserJoined (run m l.reverse).jrt u r' = false := by
              simp [isUserJoined, hemp]
            rw [hemp, hf, if_pos rfl, unique_says hu]
            simp
          · have : ¬ r = r' := fun h => hr h.symm
            rw [if_neg hr]
            simp [this, isUserJoined]
    rw [e, hstep, ih, List.reverse_cons, List.filterMap_append]
    cases hs : says u r o with
    | none => simp [hs]
    | some v => simp [hs]

example : UniqueMembers [⟨1, "m.room.member", some "@a", "join"⟩, ⟨2, "m.room.member", some "@b", "leave"⟩] := by
  unfold UniqueMembers; decide +kernel

/-! ## C23 -/

/-- C23. A live event forces full room data for a recipient exactly if it is the
recipient's own join event and the recipient was not joined before. -/
theorem C23_force_iff (m : List (String × List String)) (ops : List Op) (room : String) (ev : Event) (nid : Int) :
    let s := run m ops
    ∀ d ∈ (onNewEvent s room ev nid).2, d.to ≠ allUsers →
      (d.force = true ↔ about ev = some (d.to, "join") ∧ isUserJoined s.jrt d.to room = false) := by
  intro s d hd hu
  have hn : ∀ (s' : State) (jc ic : Nat) (users : List String) (target : String) (force : Bool),
      d ∈ notifyListeners s' room ev nid jc ic users target force →
      (d.force = true ↔ target = d.to ∧ force = true) := by
    intro s' jc ic users target force h
    unfold notifyListeners at h
    rcases List.mem_append.1 h with h | h
    · split at h
      · simp only [List.mem_singleton] at h
        rw [h] at hu; exact absurd rfl hu
      · cases h
    · obtain ⟨u, _, rfl⟩ := List.mem_map.1 h
      simp only
      by_cases ht : target = u <;> cases force <;> simp [ht]
  unfold onNewEvent at hd
  unfold about
  by_cases ht : ev.type = "m.room.member"
  rotate_left
  · rw [if_neg ht] at hd ⊢
    rw [hn _ _ _ _ _ _ hd]; simp
  · rw [if_pos ht] at hd ⊢
    cases hk : ev.stateKey with
    | none =>
      rw [hk] at hd
      rw [hn _ _ _ _ _ _ hd]; simp
    | some target =>
      rw [hk] at hd
      simp only at hd
      rw [hn _ _ _ _ _ _ hd]
      simp only [Option.map_some, Option.some.injEq, Prod.mk.injEq]
      by_cases h1 : ev.membership = "invite"
      · simp [h1]
      · rw [if_neg h1]
        by_cases h2 : ev.membership = "join"
        · simp only [h2, if_true, and_true]
          constructor
          · rintro ⟨rfl, h⟩
            refine ⟨rfl, ?_⟩
            simp only [Tracker.userJoinedRoom, Tracker.usersJoinedRoom, List.all_cons, List.all_nil, Bool.and_true,
              Bool.not_eq_true', decide_eq_false_iff_not] at h
            rw [mem_joined_iff] at h
            simpa using h
          · rintro ⟨rfl, h⟩
            refine ⟨rfl, ?_⟩
            simp only [Tracker.userJoinedRoom, Tracker.usersJoinedRoom, List.all_cons, List.all_nil, Bool.and_true,
              Bool.not_eq_true', decide_eq_false_iff_not]
            rw [mem_joined_iff]
            simpa using h
        · rw [if_neg h2]
          by_cases h3 : ev.membership = "ban" ∨ ev.membership = "leave"
          · rw [if_pos h3]; simp [h2]
          · rw [if_neg h3]; simp [h2]

/-- C23. A newly joined registered user does get a delivery that is forced. -/
theorem C23_forced_delivery (m : List (String × List String)) (hm : (m.map (·.1)).Nodup) (ops : List Op)
    (room : String) (ev : Event) (nid : Int) (u : String) (hu : u ≠ allUsers) (hr : u ∈ (run m ops).receivers)
    (hj : about ev = some (u, "join")) (hb : isUserJoined (run m ops).jrt u room = false) :
    ∃ d ∈ (onNewEvent (run m ops) room ev nid).2, d.to = u ∧ d.ev = ev ∧ d.room = room ∧ d.nid = nid ∧ d.force = true := by
  obtain ⟨L, h1, h2, h3, h4⟩ := event_recipients (inv_run m hm ops) room ev nid
  have hL : u ∈ L := by
    rw [h3 u hu]
    refine ⟨hr, ?_⟩
    unfold MaySee
    rw [hj]
    simp
  have hmem : u ∈ (onNewEvent (run m ops) room ev nid).2.map (·.to) := by
    rw [h1]; exact List.mem_append_right _ hL
  obtain ⟨d, hd, hdu⟩ := List.mem_map.1 hmem
  have hfields : d.ev = ev ∧ d.room = room ∧ d.nid = nid := by
    have hn : ∀ (s' : State) (jc ic : Nat) (users : List String) (target : String) (force : Bool),
        d ∈ notifyListeners s' room ev nid jc ic users target force → d.ev = ev ∧ d.room = room ∧ d.nid = nid := by
      intro s' jc ic users target force h
      unfold notifyListeners at h
      rcases List.mem_append.1 h with h | h
      · split at h
        · simp only [List.mem_singleton] at h
          subst h; exact ⟨rfl, rfl, rfl⟩
        · cases h
      · obtain ⟨u, _, rfl⟩ := List.mem_map.1 h
        exact ⟨rfl, rfl, rfl⟩
    unfold onNewEvent at hd
    split at hd
    · exact hn _ _ _ _ _ _ hd
    · exact hn _ _ _ _ _ _ hd
  refine ⟨d, hd, hdu, hfields.1, hfields.2.1, hfields.2.2, ?_⟩
  exact (C23_force_iff m ops room ev nid d hd (hdu ▸ hu)).2 ⟨by rw [hdu]; exact hj, by rw [hdu]; exact hb⟩

/-- C23. The bulk initial state path forces nothing for any real user (the empty
string is not a user ID). -/
theorem C23_initial_never_forces (m : List (String × List String)) (ops : List Op) (room : String)
    (evs : List Event) (h0 : ∀ u, isUserJoined (run m ops).jrt u room = false) :
    ∀ d ∈ (onNewInitialRoomState (run m ops) room evs).2, d.to ≠ "" → d.force = false := by
  intro d hd hne
  have hempty : (run m ops).jrt.joinedUsers room = [] := by
    cases hl : (run m ops).jrt.joinedUsers room with
    | nil => rfl
    | cons x l =>
      have : x ∈ (run m ops).jrt.joinedUsers room := by rw [hl]; simp
      rw [mem_joined_iff, h0 x] at this
      cases this
  have hcond : ¬ (Tracker.joinedUsersForRoom (run m ops).jrt room (fun _ => true)).2 > 0 := by
    simp [Tracker.joinedUsersForRoom, hempty]
  unfold onNewInitialRoomState at hd
  rw [if_neg hcond] at hd
  obtain ⟨e, _, hd⟩ := List.mem_flatMap.1 hd
  unfold notifyListeners at hd
  rcases List.mem_append.1 hd with h | h
  · split at h
    · simp only [List.mem_singleton] at h
      subst h; rfl
    · cases h
  · obtain ⟨u, _, rfl⟩ := List.mem_map.1 h
    simp only at hne ⊢
    rw [if_neg (fun h => hne h.symm)]

example :
    let s := run [("!r", ["@a"])] [.register "@a", .register "@b"]
    (onNewEvent s "!r" ⟨1, "m.room.member", some "@b", "join"⟩ 3).2.map (fun d => (d.to, d.force)) =
      [("@a", false), ("@b", true)] := by decide +kernel

end Verif.Dispatcher
