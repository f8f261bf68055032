import Verif.Poller
/-! C50 (the since token), C67 (to-device messages are handed over once), C68 (E2EE deltas). -/
namespace Verif.Poller

/-! ### Specification -/

/-- The room a call is about. -/
def Call.about : Call → Option String
  | .e2ee .. => none
  | .account r _ => some r
  | .initialise r _ => some r
  | .typing r _ => some r
  | .receipt r _ => some r
  | .accumulate r _ => some r
  | .unread r _ => some r
  | .leftRoom r _ => some r
  | .invite r _ => some r
  | .toDevice _ => none

/-- The state and timeline passed on for a joined room: those of the response, or, if there is state, with a create event
moved from the timeline to the front of the state. -/
def Shape (r : JoinRoom) (st tl : List Ev) : Prop :=
  (st = r.state ∧ tl = r.timeline) ∨
  (r.state ≠ [] ∧ ∃ a c b, c.type = "m.room.create" ∧ c.stateKey = some "" ∧ r.timeline = a ++ c :: b ∧
    tl = a ++ b ∧ st = c :: r.state)

def ephCalls (room : String) : Eph → List Call
  | .typing b => [.typing room b]
  | .receipt b => [.receipt room b]
  | .other => []

/-- The calls for a joined room: state, ephemeral events, account data, timeline, unread counts. -/
def wanted (r : JoinRoom) (st tl : List Ev) : List Call :=
  (if st = [] then [] else [.initialise r.id st]) ++
  r.ephemeral.flatMap (ephCalls r.id) ++
  (if r.account = [] then [] else [.account r.id r.account]) ++
  (if tl = [] then [] else [.accumulate r.id tl]) ++
  (if r.unread = (none, none) then [] else [.unread r.id r.unread])

/-- A data error was returned for a call about the room. -/
def BadData (room : String) (log : List (Call × Err)) : Prop := ∃ c, c.about = some room ∧ (c, Err.data) ∈ log

/-- All of the room's data was passed on, in order and with success, or it was rejected as bad data. -/
def JoinHanded (r : JoinRoom) (log : List (Call × Err)) : Prop :=
  BadData r.id log ∨ ∃ st tl, Shape r st tl ∧ ((wanted r st tl).map (·, Err.nil)).Sublist log

def IsLeave (user : String) (e : Ev) : Prop :=
  e.membership = "leave" ∧ (e.stateKey = some user ∨ (e.stateKey = none ∧ user = ""))

def LeaveHanded (user : String) (r : LeaveRoom) (log : List (Call × Err)) : Prop :=
  BadData r.id log ∨
  ((r.timeline ≠ [] → (Call.accumulate r.id r.timeline, Err.nil) ∈ log) ∧
   ∀ a e b, r.timeline = a ++ e :: b → IsLeave user e → (∀ x ∈ a, ¬ IsLeave user x) →
    (Call.leftRoom r.id e, Err.nil) ∈ log)

def InviteHanded (r : InviteRoom) (log : List (Call × Err)) : Prop :=
  BadData r.id log ∨ (Call.invite r.id r.state, Err.nil) ∈ log

/-- Passed on, and the receiver did not ask for a retry. -/
def Done (c : Call) (log : List (Call × Err)) : Prop := ∃ e, (c, e) ∈ log ∧ e ≠ .other

/-- Everything in the response was passed on. (Key counts and fallback keys are passed on when they change: C68.) -/
structure FullyHanded (user : String) (res : Resp) (log : List (Call × Err)) : Prop where
  lists : res.changed ≠ [] ∨ res.left ≠ [] → ∃ o f, Done (.e2ee o f res.changed res.left) log
  account : res.account ≠ [] → Done (.account "" res.account) log
  join : ∀ r ∈ res.join, JoinHanded r log
  leave : ∀ r ∈ res.leave, LeaveHanded user r log
  invite : ∀ r ∈ res.invite, InviteHanded r log
  toDevice : res.toDevice ≠ [] → Done (.toDevice res.toDevice) log

/-! ### Monotonicity -/

theorem BadData.mono {room : String} {a b : List (Call × Err)} (h : a.Sublist b) (hb : BadData room a) : BadData room b := by
  obtain ⟨c, h1, h2⟩ := hb; exact ⟨c, h1, h.subset h2⟩

theorem JoinHanded.mono {r : JoinRoom} {a b : List (Call × Err)} (h : a.Sublist b) (hb : JoinHanded r a) :
    JoinHanded r b := by
  rcases hb with hb | ⟨st, tl, h1, h2⟩
  · exact Or.inl (hb.mono h)
  · exact Or.inr ⟨st, tl, h1, h2.trans h⟩

theorem LeaveHanded.mono {user : String} {r : LeaveRoom} {a b : List (Call × Err)} (h : a.Sublist b)
    (hb : LeaveHanded user r a) : LeaveHanded user r b := by
  rcases hb with hb | ⟨h1, h2⟩
  · exact Or.inl (hb.mono h)
  · exact Or.inr ⟨fun hh => h.subset (h1 hh), fun x e y p q s => h.subset (h2 x e y p q s)⟩

theorem InviteHanded.mono {r : InviteRoom} {a b : List (Call × Err)} (h : a.Sublist b) (hb : InviteHanded r a) :
    InviteHanded r b := by
  rcases hb with hb | h1
  · exact Or.inl (hb.mono h)
  · exact Or.inr (h.subset h1)

theorem Done.mono {c : Call} {a b : List (Call × Err)} (h : a.Sublist b) (hb : Done c a) : Done c b := by
  obtain ⟨e, h1, h2⟩ := hb; exact ⟨e, h.subset h1, h2⟩

/-! ### The rooms -/

variable {σ : Type}

theorem call_log (rcv : Rcv σ) (m : M σ) (c : Call) :
    (call rcv m c).1.log = m.log ++ [(c, (call rcv m c).2)] := rfl

theorem takeCreate_spec {tl : List Ev} {c : Ev} {rest : List Ev} (h : takeCreate tl = some (c, rest)) :
    ∃ a b, tl = a ++ c :: b ∧ rest = a ++ b ∧ c.isCreate = true := by
  induction tl generalizing rest with
  | nil => cases h
  | cons e t ih =>
    simp only [takeCreate] at h
    split at h
    · rename_i he
      cases h
      exact ⟨[], t, rfl, rfl, he⟩
    · cases ht : takeCreate t with
      | none => rw [ht] at h; cases h
      | some x =>
        rw [ht] at h
        cases h
        obtain ⟨a, b, h1, h2, h3⟩ := ih ht
        exact ⟨e :: a, b, by rw [h1]; rfl, by rw [h2]; rfl, h3⟩

/-- The state section. -/
theorem initJoin_spec (rcv : Rcv σ) (m : M σ) (r : JoinRoom) :
    ∃ new, (initJoin rcv m r).1.log = m.log ++ new ∧
      ((initJoin rcv m r).2.2 = .nil → ∃ st, Shape r st (initJoin rcv m r).2.1 ∧
        ((if st = [] then [] else [Call.initialise r.id st]).map (·, Err.nil)).Sublist new) ∧
      ((initJoin rcv m r).2.2 = .data → BadData r.id new) := by
  unfold initJoin
  by_cases hs : r.state.length > 0
  · rw [if_pos hs]
    have hne : r.state ≠ [] := fun h => by rw [h] at hs; simp at hs
    simp only
    by_cases hd : (call rcv m (.initialise r.id r.state)).2 = .data
    · rw [if_pos hd]
      split
      · refine ⟨[(.initialise r.id r.state, .data)], by rw [call_log, hd], ?_, ?_⟩
        · intro h; simp only at h; rw [hd] at h; cases h
        · intro _; exact ⟨.initialise r.id r.state, rfl, by simp⟩
      · rename_i c tl htc
        obtain ⟨a, b, h1, h2, h3⟩ := takeCreate_spec htc
        simp only
        refine ⟨[(.initialise r.id r.state, .data), (.initialise r.id (c :: r.state),
          (call rcv (call rcv m (.initialise r.id r.state)).1 (.initialise r.id (c :: r.state))).2)], ?_, ?_, ?_⟩
        · rw [call_log, call_log, hd]; simp
        · intro h
          refine ⟨c :: r.state, Or.inr ⟨hne, a, c, b, ?_, ?_, h1, h2, rfl⟩, ?_⟩
          · simp only [Ev.isCreate, Bool.and_eq_true, decide_eq_true_eq] at h3; exact h3.1
          · simp only [Ev.isCreate, Bool.and_eq_true, decide_eq_true_eq] at h3; exact h3.2
          · rw [h]; simp
        · intro _; exact ⟨.initialise r.id r.state, rfl, by simp⟩
    · rw [if_neg hd]
      refine ⟨_, call_log .., ?_, ?_⟩
      · intro h
        simp only at h
        exact ⟨r.state, Or.inl ⟨rfl, rfl⟩, by rw [h]; simp [hne]⟩
      · intro h; exact absurd h hd
  · rw [if_neg hs]
    have hnil : r.state = [] := List.length_eq_zero_iff.1 (by omega)
    refine ⟨[], by simp, ?_, by simp⟩
    intro _
    exact ⟨[], Or.inl ⟨hnil.symm, rfl⟩, by simp⟩

theorem eph_spec (rcv : Rcv σ) (room : String) (l : List Eph) (m : M σ) :
    (l.foldl (eph rcv room) m).log = m.log ++ (l.flatMap (ephCalls room)).map (·, Err.nil) := by
  induction l generalizing m with
  | nil => simp
  | cons e l ih =>
    rw [List.foldl_cons, ih]
    cases e <;> simp [eph, call, Call.silent, ephCalls]

theorem restJoin_spec (rcv : Rcv σ) (m : M σ) (r : JoinRoom) (tl : List Ev) :
    ∃ new, (restJoin rcv m r tl).1.log = m.log ++ new ∧
      ((restJoin rcv m r tl).2 = .nil → new = ((if r.account = [] then [] else [Call.account r.id r.account]) ++
        (if tl = [] then [] else [Call.accumulate r.id tl]) ++
        (if r.unread = (none, none) then [] else [Call.unread r.id r.unread])).map (·, Err.nil)) ∧
      ((restJoin rcv m r tl).2 = .data → BadData r.id new) := by
  unfold restJoin
  -- account data
  obtain ⟨na, ha1, ha2, ha3⟩ : ∃ na,
      (if r.account.length > 0 then call rcv m (.account r.id r.account) else (m, .nil)).1.log = m.log ++ na ∧
      ((if r.account.length > 0 then call rcv m (.account r.id r.account) else (m, .nil)).2 = .nil →
        na = (if r.account = [] then [] else [Call.account r.id r.account]).map (·, Err.nil)) ∧
      ((if r.account.length > 0 then call rcv m (.account r.id r.account) else (m, .nil)).2 = .data →
        BadData r.id na) := by
    by_cases hl : r.account.length > 0
    · have hne : r.account ≠ [] := fun h => by rw [h] at hl; simp at hl
      rw [if_pos hl]
      refine ⟨_, call_log .., ?_, ?_⟩
      · intro h; rw [h]; simp [hne]
      · intro h; rw [h]; exact ⟨.account r.id r.account, rfl, by simp⟩
    · have hnil : r.account = [] := List.length_eq_zero_iff.1 (by omega)
      rw [if_neg hl]
      exact ⟨[], by simp, by simp [hnil], by simp⟩
  generalize (if r.account.length > 0 then call rcv m (.account r.id r.account) else (m, .nil)) = a at *
  simp only
  by_cases ha : a.2 = .nil
  · rw [if_neg (fun h => h ha)]
    obtain ⟨nb, hb1, hb2, hb3⟩ : ∃ nb,
        (if tl.length > 0 then call rcv a.1 (.accumulate r.id tl) else (a.1, .nil)).1.log = a.1.log ++ nb ∧
        ((if tl.length > 0 then call rcv a.1 (.accumulate r.id tl) else (a.1, .nil)).2 = .nil →
          nb = (if tl = [] then [] else [Call.accumulate r.id tl]).map (·, Err.nil)) ∧
        ((if tl.length > 0 then call rcv a.1 (.accumulate r.id tl) else (a.1, .nil)).2 = .data →
          BadData r.id nb) := by
      by_cases hl : tl.length > 0
      · have hne : tl ≠ [] := fun h => by rw [h] at hl; simp at hl
        rw [if_pos hl]
        refine ⟨_, call_log .., ?_, ?_⟩
        · intro h; rw [h]; simp [hne]
        · intro h; rw [h]; exact ⟨.accumulate r.id tl, rfl, by simp⟩
      · have hnil : tl = [] := List.length_eq_zero_iff.1 (by omega)
        rw [if_neg hl]
        exact ⟨[], by simp, by simp [hnil], by simp⟩
    generalize (if tl.length > 0 then call rcv a.1 (.accumulate r.id tl) else (a.1, .nil)) = b at *
    by_cases hb : b.2 = .nil
    · rw [if_neg (fun h => h hb)]
      by_cases hu : (r.unread.1.isSome || r.unread.2.isSome) = true
      · rw [if_pos hu]
        have hne : r.unread ≠ (none, none) := by
          intro h; rw [h] at hu; simp at hu
        refine ⟨na ++ nb ++ [(.unread r.id r.unread, .nil)], ?_, ?_, ?_⟩
        · rw [call_log, hb1, ha1]; simp [call, Call.silent]
        · intro _; rw [ha2 ha, hb2 hb]; simp [hne]
        · intro h; simp [call, Call.silent] at h
      · rw [if_neg hu]
        have he : r.unread = (none, none) := by
          obtain ⟨⟨x, y⟩, hxy⟩ : ∃ p, r.unread = p := ⟨_, rfl⟩
          rw [hxy] at hu
          cases x <;> cases y <;> simp at hu
          exact hxy
        refine ⟨na ++ nb, by rw [hb1, ha1]; simp, ?_, ?_⟩
        · intro _; rw [ha2 ha, hb2 hb]; simp [he]
        · intro h; rw [hb] at h; cases h
    · rw [if_pos hb]
      refine ⟨na ++ nb, by rw [hb1, ha1]; simp, fun h => absurd h hb, ?_⟩
      intro h; exact (hb3 h).mono (List.sublist_append_right _ _)
  · rw [if_pos ha]
    exact ⟨na, ha1, fun h => absurd h ha, ha3⟩

theorem joinRoom_spec (rcv : Rcv σ) (m : M σ) (r : JoinRoom) :
    ∃ new, (joinRoom rcv m r).1.log = m.log ++ new ∧ ((joinRoom rcv m r).2 ≠ .other → JoinHanded r new) := by
  unfold joinRoom
  obtain ⟨n1, h1, h2, h3⟩ := initJoin_spec rcv m r
  simp only
  by_cases he : (initJoin rcv m r).2.2 = .nil
  · rw [if_neg (fun h => h he)]
    obtain ⟨n2, k1, k2, k3⟩ :=
      restJoin_spec rcv (r.ephemeral.foldl (eph rcv r.id) (initJoin rcv m r).1) r (initJoin rcv m r).2.1
    rw [eph_spec, h1] at k1
    refine ⟨_, by rw [k1, List.append_assoc, List.append_assoc], ?_⟩
    intro hne
    cases hr : (restJoin rcv (r.ephemeral.foldl (eph rcv r.id) (initJoin rcv m r).1) r (initJoin rcv m r).2.1).2 with
    | other => exact absurd hr hne
    | data =>
      exact Or.inl ((k3 hr).mono ((List.sublist_append_right _ _).trans (List.sublist_append_right _ _)))
    | nil =>
      obtain ⟨st, s1, s2⟩ := h2 he
      refine Or.inr ⟨st, _, s1, ?_⟩
      rw [k2 hr, wanted]
      simp only [List.map_append, List.append_assoc]
      exact s2.append (List.Sublist.refl _)
  · rw [if_pos he]
    refine ⟨n1, h1, ?_⟩
    intro hne
    cases hr : (initJoin rcv m r).2.2 with
    | nil => exact absurd hr he
    | data => exact Or.inl (h3 hr)
    | other => exact absurd hr hne

theorem leaveEvent_iff {user : String} {a b : List Ev} {e : Ev} (hl : IsLeave user e) (hn : ∀ x ∈ a, ¬ IsLeave user x) :
    leaveEvent user (a ++ e :: b) = some e := by
  have hp : ∀ x : Ev, (decide (x.membership = "leave") &&
      decide (x.stateKeyStr = user)) = true ↔ IsLeave user x := by
    intro x
    rw [Bool.and_eq_true, decide_eq_true_eq, decide_eq_true_eq, IsLeave, Ev.stateKeyStr]
    cases x.stateKey with
    | none => simp [eq_comm]
    | some k => simp
  unfold leaveEvent
  rw [List.find?_append]
  have h1 : a.find? (fun e => decide (e.membership = "leave") &&
      decide (e.stateKeyStr = user)) = none := by
    rw [List.find?_eq_none]
    intro x hx h
    exact hn x hx ((hp x).1 h)
  rw [h1, Option.none_or, List.find?_cons]
  rw [show (decide (e.membership = "leave") &&
      decide (e.stateKeyStr = user)) = true from (hp e).2 hl]

theorem leaveRoom_spec (rcv : Rcv σ) (user : String) (m : M σ) (r : LeaveRoom) :
    ∃ new, (leaveRoom rcv user m r).1.log = m.log ++ new ∧
      ((leaveRoom rcv user m r).2 ≠ .other → LeaveHanded user r new) := by
  unfold leaveRoom
  obtain ⟨na, ha1, ha2, ha3⟩ : ∃ na,
      (if r.timeline.length > 0 then call rcv m (.accumulate r.id r.timeline) else (m, .nil)).1.log = m.log ++ na ∧
      ((if r.timeline.length > 0 then call rcv m (.accumulate r.id r.timeline) else (m, .nil)).2 = .nil →
        r.timeline ≠ [] → (Call.accumulate r.id r.timeline, Err.nil) ∈ na) ∧
      ((if r.timeline.length > 0 then call rcv m (.accumulate r.id r.timeline) else (m, .nil)).2 = .data →
        BadData r.id na) := by
    by_cases hl : r.timeline.length > 0
    · rw [if_pos hl]
      refine ⟨_, call_log .., ?_, ?_⟩
      · intro h _; rw [h]; simp
      · intro h; rw [h]; exact ⟨.accumulate r.id r.timeline, rfl, by simp⟩
    · have hnil : r.timeline = [] := List.length_eq_zero_iff.1 (by omega)
      rw [if_neg hl]
      exact ⟨[], by simp, by simp [hnil], by simp⟩
  generalize (if r.timeline.length > 0 then call rcv m (.accumulate r.id r.timeline) else (m, .nil)) = a at *
  simp only
  by_cases ha : a.2 = .nil
  · rw [if_neg (fun h => h ha)]
    cases hl : leaveEvent user r.timeline with
    | none =>
      refine ⟨na, ha1, fun _ => Or.inr ⟨ha2 ha, ?_⟩⟩
      intro x e y hxy h1 h2
      rw [hxy, leaveEvent_iff h1 h2] at hl; cases hl
    | some e =>
      refine ⟨na ++ [(.leftRoom r.id e, (call rcv a.1 (.leftRoom r.id e)).2)], by simp only; rw [call_log, ha1]; simp, ?_⟩
      intro hne
      cases hr : (call rcv a.1 (.leftRoom r.id e)).2 with
      | other => exact absurd hr hne
      | data => exact Or.inl ⟨.leftRoom r.id e, rfl, by simp⟩
      | nil =>
        refine Or.inr ⟨fun h => by simp [ha2 ha h], ?_⟩
        intro x e' y hxy h1 h2
        rw [hxy, leaveEvent_iff h1 h2] at hl
        cases hl
        simp
  · rw [if_pos ha]
    refine ⟨na, ha1, fun hne => ?_⟩
    cases hr : a.2 with
    | nil => exact absurd hr ha
    | data => exact Or.inl (ha3 hr)
    | other => exact absurd hr hne

theorem inviteRoom_spec (rcv : Rcv σ) (m : M σ) (r : InviteRoom) :
    ∃ new, (inviteRoom rcv m r).1.log = m.log ++ new ∧ ((inviteRoom rcv m r).2 ≠ .other → InviteHanded r new) := by
  refine ⟨_, call_log .., ?_⟩
  intro hne
  cases hr : (inviteRoom rcv m r).2 with
  | other => exact absurd hr hne
  | data => exact Or.inl ⟨.invite r.id r.state, rfl, by
      rw [show (call rcv m (.invite r.id r.state)).2 = .data from hr]; simp⟩
  | nil => exact Or.inr (by rw [show (call rcv m (.invite r.id r.state)).2 = .nil from hr]; simp)

theorem loop_spec {α : Type} (f : M σ → α → M σ × Err) (P : α → List (Call × Err) → Prop)
    (hmono : ∀ r a b, a.Sublist b → P r a → P r b)
    (hf : ∀ m r, ∃ new, (f m r).1.log = m.log ++ new ∧ ((f m r).2 ≠ .other → P r new)) (m : M σ) (rooms : List α) :
    ∃ new, (loop f m rooms).1.log = m.log ++ new ∧
      (Err.other ∉ (loop f m rooms).2 → ∀ r ∈ rooms, P r new) := by
  induction rooms using Verif.Util.snocRec with
  | nil => exact ⟨[], by simp [loop], by simp⟩
  | append_singleton rooms r ih =>
    have hs : loop f m (rooms ++ [r]) =
        ((f (loop f m rooms).1 r).1, if (f (loop f m rooms).1 r).2 ≠ .nil then (loop f m rooms).2 ++ [(f (loop f m rooms).1 r).2]
          else (loop f m rooms).2) := by
      unfold loop; rw [List.foldl_append]; rfl
    obtain ⟨n1, h1, h2⟩ := ih
    obtain ⟨n2, k1, k2⟩ := hf (loop f m rooms).1 r
    rw [hs]
    refine ⟨n1 ++ n2, by simp only; rw [k1, h1]; simp, ?_⟩
    intro hno x hx
    simp only at hno
    have hno1 : Err.other ∉ (loop f m rooms).2 := by
      intro h
      apply hno
      split
      · simp [h]
      · exact h
    have hno2 : (f (loop f m rooms).1 r).2 ≠ .other := by
      intro h
      apply hno
      rw [h]; simp
    rcases List.mem_append.1 hx with hx | hx
    · exact hmono _ _ _ (List.sublist_append_left _ _) (h2 hno1 x hx)
    · rw [List.mem_singleton.1 hx]
      exact hmono _ _ _ (List.sublist_append_right _ _) (k2 hno2)

theorem joinErrs_other {errs : List Err} (h : shouldRetry (joinErrs errs) = false) : Err.other ∉ errs := by
  intro hm
  match errs, h, hm with
  | [], _, hm => cases hm
  | [e], h, hm =>
    rw [← List.mem_singleton.1 hm] at h
    simp [joinErrs, shouldRetry] at h
  | e1 :: e2 :: es, h, hm =>
    have : ((e1 :: e2 :: es).filter shouldRetry).length > 0 :=
      List.length_pos_of_mem (List.mem_filter.2 ⟨hm, rfl⟩)
    simp only [joinErrs] at h
    rw [if_pos this] at h
    simp [shouldRetry] at h

/-- The rooms: if no retry is asked for then every room was handed over completely or was bad data, whatever the
other rooms did. -/
theorem C50_rooms (rcv : Rcv σ) (user : String) (m : M σ) (res : Resp)
    (h : shouldRetry (parseRooms rcv user m res).2 = false) :
    ∃ new, (parseRooms rcv user m res).1.log = m.log ++ new ∧
      (∀ r ∈ res.join, JoinHanded r new) ∧ (∀ r ∈ res.leave, LeaveHanded user r new) ∧
      (∀ r ∈ res.invite, InviteHanded r new) := by
  simp only [parseRooms] at h ⊢
  have hno := joinErrs_other h
  obtain ⟨n1, a1, a2⟩ := loop_spec (joinRoom rcv) JoinHanded (fun _ _ _ h => JoinHanded.mono h) (joinRoom_spec rcv) m res.join
  obtain ⟨n2, b1, b2⟩ := loop_spec (leaveRoom rcv user) (LeaveHanded user) (fun _ _ _ h => LeaveHanded.mono h)
    (leaveRoom_spec rcv user) (loop (joinRoom rcv) m res.join).1 res.leave
  obtain ⟨n3, c1, c2⟩ := loop_spec (inviteRoom rcv) InviteHanded (fun _ _ _ h => InviteHanded.mono h) (inviteRoom_spec rcv)
    (loop (leaveRoom rcv user) (loop (joinRoom rcv) m res.join).1 res.leave).1 res.invite
  simp only [List.mem_append, not_or] at hno
  refine ⟨n1 ++ n2 ++ n3, by rw [c1, b1, a1]; simp, ?_, ?_, ?_⟩
  · intro r hr
    exact (a2 hno.1.1 r hr).mono ((List.sublist_append_left _ _).trans (List.sublist_append_left _ _))
  · intro r hr
    exact (b2 hno.1.2 r hr).mono ((List.sublist_append_right _ _).trans (List.sublist_append_left _ _))
  · intro r hr
    exact (c2 hno.2 r hr).mono (List.sublist_append_right _ _)

/-- A log only grows. -/
theorem parseRooms_log (rcv : Rcv σ) (user : String) (m : M σ) (res : Resp) :
    ∃ new, (parseRooms rcv user m res).1.log = m.log ++ new := by
  simp only [parseRooms]
  obtain ⟨n1, a1, _⟩ := loop_spec (joinRoom rcv) JoinHanded (fun _ _ _ h => JoinHanded.mono h) (joinRoom_spec rcv) m res.join
  obtain ⟨n2, b1, _⟩ := loop_spec (leaveRoom rcv user) (LeaveHanded user) (fun _ _ _ h => LeaveHanded.mono h)
    (leaveRoom_spec rcv user) (loop (joinRoom rcv) m res.join).1 res.leave
  obtain ⟨n3, c1, _⟩ := loop_spec (inviteRoom rcv) InviteHanded (fun _ _ _ h => InviteHanded.mono h) (inviteRoom_spec rcv)
    (loop (leaveRoom rcv user) (loop (joinRoom rcv) m res.join).1 res.leave).1 res.invite
  exact ⟨n1 ++ n2 ++ n3, by rw [c1, b1, a1]; simp⟩

/-! ### The other sections -/

theorem parseE2EE_spec (rcv : Rcv σ) (m : M σ) (mem : Mem) (res : Resp) :
    ∃ new, (parseE2EE rcv m mem res).1.log = m.log ++ new ∧
      (shouldRetry (parseE2EE rcv m mem res).2.2 = false → (res.changed ≠ [] ∨ res.left ≠ []) →
        ∃ o f, Done (.e2ee o f res.changed res.left) new) := by
  simp only [parseE2EE]
  generalize changedFallback mem.fallback res.fallback = fb
  generalize changedOtk mem.otk res.otk = otk
  by_cases hc : ((!res.changed.isEmpty || !res.left.isEmpty) || fb.1.isSome || otk.isSome) = true
  · rw [if_pos hc]
    refine ⟨[(.e2ee otk fb.1 res.changed res.left, (call rcv m (.e2ee otk fb.1 res.changed res.left)).2)], ?_, ?_⟩
    · split <;> exact call_log ..
    · intro hr _
      refine ⟨otk, fb.1, _, List.mem_singleton.2 rfl, ?_⟩
      intro he
      rw [if_pos (by rw [he]; simp)] at hr
      simp only at hr
      rw [he] at hr
      cases hr
  · rw [if_neg hc]
    refine ⟨[], by simp, ?_⟩
    intro _ hne
    exfalso
    apply hc
    rcases hne with hne | hne
    · cases hx : res.changed with
      | nil => exact absurd hx hne
      | cons => simp
    · cases hx : res.left with
      | nil => exact absurd hx hne
      | cons => simp

theorem parseAccount_spec (rcv : Rcv σ) (m : M σ) (res : Resp) :
    ∃ new, (parseAccount rcv m res).1.log = m.log ++ new ∧
      (shouldRetry (parseAccount rcv m res).2 = false → res.account ≠ [] → Done (.account "" res.account) new) := by
  simp only [parseAccount]
  by_cases h : res.account.length = 0
  · rw [if_pos h]
    exact ⟨[], by simp, fun _ hne => absurd (List.length_eq_zero_iff.1 h) hne⟩
  · rw [if_neg h]
    refine ⟨_, call_log .., fun hr _ => ⟨_, List.mem_singleton.2 rfl, ?_⟩⟩
    intro he; rw [he] at hr; cases hr

theorem parseToDevice_spec (rcv : Rcv σ) (m : M σ) (res : Resp) :
    ∃ new, (parseToDevice rcv m res).1.log = m.log ++ new ∧
      (shouldRetry (parseToDevice rcv m res).2 = false → res.toDevice ≠ [] → Done (.toDevice res.toDevice) new) := by
  simp only [parseToDevice]
  by_cases h : res.toDevice.length = 0
  · rw [if_pos h]
    exact ⟨[], by simp, fun _ hne => absurd (List.length_eq_zero_iff.1 h) hne⟩
  · rw [if_neg h]
    refine ⟨_, call_log .., fun hr _ => ⟨_, List.mem_singleton.2 rfl, ?_⟩⟩
    intro he; rw [he] at hr; cases hr

/-- The four sections: all done means all handed over. -/
theorem sections_spec (rcv : Rcv σ) (user : String) (m : M σ) (mem : Mem) (res : Resp) :
    ∃ new, (sections rcv user m mem res).1.log = m.log ++ new ∧
      ((sections rcv user m mem res).2.2 = true → FullyHanded user res new) := by
  simp only [sections]
  obtain ⟨n1, a1, a2⟩ := parseE2EE_spec rcv m mem res
  by_cases h1 : shouldRetry (parseE2EE rcv m mem res).2.2 = true
  · rw [if_pos h1]; exact ⟨n1, a1, by simp⟩
  rw [if_neg h1]
  obtain ⟨n2, b1, b2⟩ := parseAccount_spec rcv (parseE2EE rcv m mem res).1 res
  by_cases h2 : shouldRetry (parseAccount rcv (parseE2EE rcv m mem res).1 res).2 = true
  · rw [if_pos h2]; exact ⟨n1 ++ n2, by simp only; rw [b1, a1]; simp, by simp⟩
  rw [if_neg h2]
  by_cases h3 : shouldRetry (parseRooms rcv user (parseAccount rcv (parseE2EE rcv m mem res).1 res).1 res).2 = true
  · rw [if_pos h3]
    obtain ⟨n3, c1⟩ := parseRooms_log rcv user (parseAccount rcv (parseE2EE rcv m mem res).1 res).1 res
    exact ⟨n1 ++ n2 ++ n3, by simp only; rw [c1, b1, a1]; simp, by simp⟩
  rw [if_neg h3]
  obtain ⟨n3, c1, c2, c3, c4⟩ :=
    C50_rooms rcv user (parseAccount rcv (parseE2EE rcv m mem res).1 res).1 res (by simpa using h3)
  obtain ⟨n4, d1, d2⟩ :=
    parseToDevice_spec rcv (parseRooms rcv user (parseAccount rcv (parseE2EE rcv m mem res).1 res).1 res).1 res
  have hlog : (parseToDevice rcv (parseRooms rcv user (parseAccount rcv (parseE2EE rcv m mem res).1 res).1 res).1 res).1.log
      = m.log ++ (n1 ++ n2 ++ n3 ++ n4) := by rw [d1, c1, b1, a1]; simp
  by_cases h4 : shouldRetry (parseToDevice rcv
      (parseRooms rcv user (parseAccount rcv (parseE2EE rcv m mem res).1 res).1 res).1 res).2 = true
  · rw [if_pos h4]; exact ⟨_, hlog, by simp⟩
  · rw [if_neg h4]
    refine ⟨_, hlog, fun _ => ?_⟩
    have s1 : n1.Sublist (n1 ++ n2 ++ n3 ++ n4) := by
      rw [List.append_assoc, List.append_assoc]; exact List.sublist_append_left _ _
    have s2 : n2.Sublist (n1 ++ n2 ++ n3 ++ n4) :=
      ((List.sublist_append_right _ _).trans (List.sublist_append_left _ _)).trans (List.sublist_append_left _ _)
    have s3 : n3.Sublist (n1 ++ n2 ++ n3 ++ n4) :=
      (List.sublist_append_right _ _).trans (List.sublist_append_left _ _)
    have s4 : n4.Sublist (n1 ++ n2 ++ n3 ++ n4) := List.sublist_append_right _ _
    refine ⟨?_, ?_, ?_, ?_, ?_, ?_⟩
    · intro hne
      obtain ⟨o, f, hd⟩ := a2 (by simpa using h1) hne
      exact ⟨o, f, hd.mono s1⟩
    · intro hne; exact (b2 (by simpa using h2) hne).mono s2
    · intro r hr; exact (c2 r hr).mono s3
    · intro r hr; exact (c3 r hr).mono s3
    · intro r hr; exact (c4 r hr).mono s3
    · intro hne; exact (d2 (by simpa using h4) hne).mono s4

/-! ### C50 -/

/-- One turn: the since token stays, in memory and in the database, or everything in the response was handed over and it
becomes the response's token. -/
theorem C50_turn (rcv : Rcv σ) (user : String) (w : World σ) (t : Turn) :
    ∃ new, (poll rcv user w t).1.m.log = w.m.log ++ new ∧
      (((poll rcv user w t).1.lp.since = w.lp.since ∧ (poll rcv user w t).1.persisted = w.persisted) ∨
       ∃ res, t.reply = .ok res ∧ FullyHanded user res new ∧ (poll rcv user w t).1.lp.since = res.nextBatch ∧
        ((poll rcv user w t).1.persisted = w.persisted ∨ (poll rcv user w t).1.persisted = res.nextBatch)) := by
  unfold poll
  by_cases h1 : w.lp.failCount > 1000
  · rw [if_pos h1]; exact ⟨[], by simp, Or.inl ⟨rfl, rfl⟩⟩
  rw [if_neg h1]
  by_cases h2 : (w.lp.terminated || t.killedBefore) = true
  · rw [if_pos h2]; exact ⟨[], by simp, Or.inl ⟨rfl, rfl⟩⟩
  rw [if_neg h2]
  by_cases h3 : t.killedAfter = true
  · rw [if_pos h3]; exact ⟨[], by simp, Or.inl ⟨rfl, rfl⟩⟩
  rw [if_neg h3]
  cases hr : t.reply with
  | err status =>
    simp only
    split
    · exact ⟨[], by simp, Or.inl ⟨rfl, rfl⟩⟩
    · exact ⟨[], by simp, Or.inl ⟨rfl, rfl⟩⟩
  | ok res =>
    simp only
    obtain ⟨new, k1, k2⟩ := sections_spec rcv user w.m w.lp.mem res
    by_cases h4 : (sections rcv user w.m w.lp.mem res).2.2 = true
    · rw [if_pos h4]
      refine ⟨new, k1, Or.inr ⟨res, rfl, k2 h4, rfl, ?_⟩⟩
      simp only [advance]
      split
      · exact Or.inr rfl
      · exact Or.inl rfl
    · rw [if_neg h4]
      exact ⟨new, k1, Or.inl ⟨rfl, rfl⟩⟩

/-- What happened in a turn that got a response: the token asked with, the response and the calls made. -/
structure Rec where
  asked : String
  res : Resp
  calls : List (Call × Err)

/-- Histories: turns of the loop, new pollers for the device, and crashes at any moment. A crash leaves the receiver in any
state, loses everything in memory, and leaves the persisted token. -/
inductive Hist (rcv : Rcv σ) (user start : String) : World σ → List Rec → Prop
  | start (m : M σ) (b : Bool) : Hist rcv user start ⟨m, { since := start, toDeviceOnly := b }, start⟩ []
  | turn {w : World σ} {h : List Rec} (t : Turn) (new : List (Call × Err)) : Hist rcv user start w h →
      (poll rcv user w t).1.m.log = w.m.log ++ new →
      Hist rcv user start (poll rcv user w t).1
        (h ++ match t.reply with | .ok res => [⟨w.lp.since, res, new⟩] | .err _ => [])
  | restart {w : World σ} {h : List Rec} (b : Bool) : Hist rcv user start w h → Hist rcv user start (restart w b) h
  | crash {w : World σ} {h : List Rec} (m : M σ) (b : Bool) : Hist rcv user start w h →
      Hist rcv user start (restart { w with m := m } b) h

/-- The token is reached by responses which were all handed over completely. -/
inductive Covered (user start : String) (h : List Rec) : String → Prop
  | start : Covered user start h start
  | next {r : Rec} : Covered user start h r.asked → r ∈ h → FullyHanded user r.res r.calls →
      Covered user start h r.res.nextBatch

theorem Covered.mono {user start : String} {h h' : List Rec} (hs : ∀ r ∈ h, r ∈ h') {t : String}
    (hc : Covered user start h t) : Covered user start h' t := by
  induction hc with
  | start => exact .start
  | next _ hm hf ih => exact .next ih (hs _ hm) hf

/-- Whatever happens upstream, in the receiver and to the process: the since token, in memory and persisted, is only ever
reached through responses that were completely handed over. So what was not is asked for again. -/
theorem C50_covered {rcv : Rcv σ} {user start : String} {w : World σ} {h : List Rec} (hh : Hist rcv user start w h) :
    Covered user start h w.lp.since ∧ Covered user start h w.persisted := by
  induction hh with
  | start m b => exact ⟨.start, .start⟩
  | @turn w h t new _ hlog ih =>
    obtain ⟨new', k1, k2⟩ := C50_turn rcv user w t
    have hnew : new' = new := by rw [k1] at hlog; exact List.append_cancel_left hlog
    subst hnew
    have hsub : ∀ r ∈ h, r ∈ h ++ (match t.reply with | .ok res => [⟨w.lp.since, res, new'⟩] | .err _ => []) :=
      fun r hr => List.mem_append_left _ hr
    rcases k2 with ⟨e1, e2⟩ | ⟨res, hr, hf, e1, e2⟩
    · rw [e1, e2]; exact ⟨ih.1.mono hsub, ih.2.mono hsub⟩
    · have hcov : Covered user start (h ++ (match t.reply with | .ok res => [⟨w.lp.since, res, new'⟩] | .err _ => []))
          res.nextBatch := by
        refine Covered.next (r := ⟨w.lp.since, res, new'⟩) (ih.1.mono hsub) ?_ hf
        rw [hr]; simp
      rw [e1]
      refine ⟨hcov, ?_⟩
      rcases e2 with e2 | e2
      · rw [e2]; exact ih.2.mono hsub
      · rw [e2]; exact hcov
  | restart b _ ih => exact ⟨ih.2, ih.2⟩
  | crash m b _ ih => exact ⟨ih.2, ih.2⟩

/-! ### C67 -/

/-- C67 as stated: in any history, messages asked for with one token are handed over with success once. -/
def HandedOnce : Prop := ∀ (σ : Type) (rcv : Rcv σ) (user start : String) (w : World σ) (h a b c : List Rec) (r1 r2 : Rec),
  Hist rcv user start w h → h = a ++ r1 :: b ++ r2 :: c → r1.asked = r2.asked → r1.res = r2.res →
  (Call.toDevice r1.res.toDevice, Err.nil) ∈ r1.calls → (Call.toDevice r2.res.toDevice, Err.nil) ∉ r2.calls

/-- In a turn, if the messages of a response were handed over with success, the since token moves past the response in
that very turn, and so does the persisted one if the database takes it: the response is not asked for again. What is missing from C67: the database
may not take it (`C67_violated`). -/
theorem C67_acknowledged_partial (rcv : Rcv σ) (user : String) (w : World σ) (t : Turn) (res : Resp) (hr : t.reply = .ok res)
    (new : List (Call × Err)) (hlog : (poll rcv user w t).1.m.log = w.m.log ++ new) (msgs : List String) (e : Err)
    (hm : (Call.toDevice msgs, e) ∈ new) (he : e ≠ .other) :
    msgs = res.toDevice ∧ (poll rcv user w t).1.lp.since = res.nextBatch ∧
      (t.persistOk = true → (poll rcv user w t).1.persisted = res.nextBatch) := by
  -- no section but the last makes such a call
  have hno : ∀ (m : M σ) (mem : Mem), (∀ n, (parseE2EE rcv m mem res).1.log = m.log ++ n → (Call.toDevice msgs, e) ∉ n) := by
    intro m mem n hn hmem
    obtain ⟨n', h1, _⟩ := parseE2EE_spec rcv m mem res
    simp only [parseE2EE] at hn
    split at hn
    · split at hn
      · rw [call_log] at hn
        have := List.append_cancel_left hn
        rw [← this] at hmem; simp at hmem
      · rw [call_log] at hn
        have := List.append_cancel_left hn
        rw [← this] at hmem; simp at hmem
    · have : n = [] := by simpa using hn
      rw [this] at hmem; cases hmem
  have hno2 : ∀ (m : M σ) n, (parseAccount rcv m res).1.log = m.log ++ n → (Call.toDevice msgs, e) ∉ n := by
    intro m n hn hmem
    simp only [parseAccount] at hn
    split at hn
    · have : n = [] := by simpa using hn
      rw [this] at hmem; cases hmem
    · rw [call_log] at hn
      have := List.append_cancel_left hn
      rw [← this] at hmem; simp at hmem
  have hno3 : ∀ (m : M σ) n, (parseRooms rcv user m res).1.log = m.log ++ n → (Call.toDevice msgs, e) ∉ n := by
    intro m n hn hmem
    have hloop : ∀ {α : Type} (f : M σ → α → M σ × Err),
        (∀ m r, ∃ new, (f m r).1.log = m.log ++ new ∧ (Call.toDevice msgs, e) ∉ new) → ∀ m rooms,
        ∃ new, (loop f m rooms).1.log = m.log ++ new ∧ (Call.toDevice msgs, e) ∉ new := by
      intro α f hf m rooms
      induction rooms using Verif.Util.snocRec with
      | nil => exact ⟨[], by simp [loop], by simp⟩
      | append_singleton rooms r ih =>
        obtain ⟨n1, h1, h2⟩ := ih
        obtain ⟨n2, k1, k2⟩ := hf (loop f m rooms).1 r
        refine ⟨n1 ++ n2, ?_, by simp [h2, k2]⟩
        have hs : (loop f m (rooms ++ [r])).1 = (f (loop f m rooms).1 r).1 := by
          simp only [loop, List.foldl_append, List.foldl_cons, List.foldl_nil]
        rw [hs, k1, h1]; simp
    have hj : ∀ (m : M σ) r, ∃ new, (joinRoom rcv m r).1.log = m.log ++ new ∧ (Call.toDevice msgs, e) ∉ new := by
      intro m r
      have hi : ∃ new, (initJoin rcv m r).1.log = m.log ++ new ∧ (Call.toDevice msgs, e) ∉ new := by
        unfold initJoin
        split
        · simp only
          split
          · split
            · exact ⟨_, call_log .., by simp⟩
            · exact ⟨[_, _], by simp only; rw [call_log, call_log, List.append_assoc]; rfl, by simp⟩
          · exact ⟨_, call_log .., by simp⟩
        · exact ⟨[], by simp, by simp⟩
      obtain ⟨n1, h1, h2⟩ := hi
      unfold joinRoom
      simp only
      split
      · exact ⟨n1, h1, h2⟩
      · have hr : ∀ m tl, ∃ new, (restJoin rcv m r tl).1.log = m.log ++ new ∧ (Call.toDevice msgs, e) ∉ new := by
          intro m tl
          unfold restJoin
          simp only
          have ha : ∃ n, (if r.account.length > 0 then call rcv m (.account r.id r.account) else (m, .nil)).1.log = m.log ++ n
              ∧ (Call.toDevice msgs, e) ∉ n := by
            split
            · exact ⟨_, call_log .., by simp⟩
            · exact ⟨[], by simp, by simp⟩
          generalize (if r.account.length > 0 then call rcv m (.account r.id r.account) else (m, .nil)) = a at *
          obtain ⟨na, ha1, ha2⟩ := ha
          split
          · exact ⟨na, ha1, ha2⟩
          · have hb : ∃ n, (if tl.length > 0 then call rcv a.1 (.accumulate r.id tl) else (a.1, .nil)).1.log = a.1.log ++ n
                ∧ (Call.toDevice msgs, e) ∉ n := by
              split
              · exact ⟨_, call_log .., by simp⟩
              · exact ⟨[], by simp, by simp⟩
            generalize (if tl.length > 0 then call rcv a.1 (.accumulate r.id tl) else (a.1, .nil)) = b at *
            obtain ⟨nb, hb1, hb2⟩ := hb
            split
            · exact ⟨na ++ nb, by rw [hb1, ha1]; simp, by simp [ha2, hb2]⟩
            · split
              · exact ⟨_, (call_log ..).trans (by rw [hb1, ha1, List.append_assoc, List.append_assoc]), by simp [ha2, hb2]⟩
              · exact ⟨na ++ nb, by rw [hb1, ha1]; simp, by simp [ha2, hb2]⟩
        obtain ⟨n2, k1, k2⟩ := hr (r.ephemeral.foldl (eph rcv r.id) (initJoin rcv m r).1) (initJoin rcv m r).2.1
        rw [eph_spec, h1] at k1
        refine ⟨_, by rw [k1, List.append_assoc, List.append_assoc], ?_⟩
        simp only [List.mem_append, not_or]
        refine ⟨h2, ?_, k2⟩
        simp only [List.mem_map, List.mem_flatMap, Prod.mk.injEq, not_exists, not_and]
        rintro c ⟨x, _, hx⟩ hc
        cases x <;> simp [ephCalls] at hx
        · rw [hx] at hc; cases hc
        · rw [hx] at hc; cases hc
    have hl : ∀ (m : M σ) r, ∃ new, (leaveRoom rcv user m r).1.log = m.log ++ new ∧ (Call.toDevice msgs, e) ∉ new := by
      intro m r
      unfold leaveRoom
      simp only
      have ha : ∃ n, (if r.timeline.length > 0 then call rcv m (.accumulate r.id r.timeline) else (m, .nil)).1.log = m.log ++ n
          ∧ (Call.toDevice msgs, e) ∉ n := by
        split
        · exact ⟨_, call_log .., by simp⟩
        · exact ⟨[], by simp, by simp⟩
      generalize (if r.timeline.length > 0 then call rcv m (.accumulate r.id r.timeline) else (m, .nil)) = a at *
      obtain ⟨na, ha1, ha2⟩ := ha
      split
      · exact ⟨na, ha1, ha2⟩
      · split
        · exact ⟨na, ha1, ha2⟩
        · exact ⟨_, (call_log ..).trans (by rw [ha1, List.append_assoc]), by simp [ha2]⟩
    have hv : ∀ (m : M σ) r, ∃ new, (inviteRoom rcv m r).1.log = m.log ++ new ∧ (Call.toDevice msgs, e) ∉ new := by
      intro m r; exact ⟨_, call_log .., by simp⟩
    simp only [parseRooms] at hn
    obtain ⟨n1, a1, a2⟩ := hloop (joinRoom rcv) hj m res.join
    obtain ⟨n2, b1, b2⟩ := hloop (leaveRoom rcv user) hl (loop (joinRoom rcv) m res.join).1 res.leave
    obtain ⟨n3, c1, c2⟩ := hloop (inviteRoom rcv) hv
      (loop (leaveRoom rcv user) (loop (joinRoom rcv) m res.join).1 res.leave).1 res.invite
    have : n = n1 ++ n2 ++ n3 := by
      rw [c1, b1, a1] at hn
      simpa using hn.symm
    rw [this] at hmem
    simp [a2, b2, c2] at hmem
  -- so the message call was made by the last section, and it did not ask for a retry
  unfold poll at hlog ⊢
  by_cases h1 : w.lp.failCount > 1000
  · rw [if_pos h1] at hlog
    have : new = [] := by simpa using hlog
    rw [this] at hm; cases hm
  rw [if_neg h1] at hlog ⊢
  by_cases h2 : (w.lp.terminated || t.killedBefore) = true
  · rw [if_pos h2] at hlog
    have : new = [] := by simpa using hlog
    rw [this] at hm; cases hm
  rw [if_neg h2] at hlog ⊢
  by_cases h3 : t.killedAfter = true
  · rw [if_pos h3] at hlog
    have : new = [] := by simpa using hlog
    rw [this] at hm; cases hm
  rw [if_neg h3] at hlog ⊢
  rw [hr] at hlog ⊢
  simp only at hlog ⊢
  have hlog' : (sections rcv user w.m w.lp.mem res).1.log = w.m.log ++ new := by
    split at hlog <;> exact hlog
  have hsec : (sections rcv user w.m w.lp.mem res).2.2 = true ∧ msgs = res.toDevice ∧ res.toDevice.length > 0 := by
    simp only [sections] at hlog' ⊢
    obtain ⟨n1, a1, _⟩ := parseE2EE_spec rcv w.m w.lp.mem res
    have m1 := hno w.m w.lp.mem n1 a1
    by_cases g1 : shouldRetry (parseE2EE rcv w.m w.lp.mem res).2.2 = true
    · rw [if_pos g1] at hlog'
      simp only at hlog'
      rw [a1] at hlog'
      rw [← List.append_cancel_left hlog'] at hm
      exact absurd hm m1
    rw [if_neg g1] at hlog' ⊢
    obtain ⟨n2, b1, _⟩ := parseAccount_spec rcv (parseE2EE rcv w.m w.lp.mem res).1 res
    have m2 := hno2 _ n2 b1
    by_cases g2 : shouldRetry (parseAccount rcv (parseE2EE rcv w.m w.lp.mem res).1 res).2 = true
    · rw [if_pos g2] at hlog'
      simp only at hlog'
      rw [b1, a1, List.append_assoc] at hlog'
      rw [← List.append_cancel_left hlog'] at hm
      simp [m1, m2] at hm
    rw [if_neg g2] at hlog' ⊢
    obtain ⟨n3, c1⟩ := parseRooms_log rcv user (parseAccount rcv (parseE2EE rcv w.m w.lp.mem res).1 res).1 res
    have m3 := hno3 _ n3 c1
    by_cases g3 : shouldRetry (parseRooms rcv user (parseAccount rcv (parseE2EE rcv w.m w.lp.mem res).1 res).1 res).2 = true
    · rw [if_pos g3] at hlog'
      simp only at hlog'
      rw [c1, b1, a1, List.append_assoc, List.append_assoc] at hlog'
      rw [← List.append_cancel_left hlog'] at hm
      simp [m1, m2, m3] at hm
    rw [if_neg g3] at hlog' ⊢
    generalize hmm : (parseRooms rcv user (parseAccount rcv (parseE2EE rcv w.m w.lp.mem res).1 res).1 res).1 = m4 at *
    have hpd : (parseToDevice rcv m4 res).1.log = w.m.log ++ new := by
      split at hlog' <;> exact hlog'
    have hm4 : m4.log = w.m.log ++ (n1 ++ (n2 ++ n3)) := by rw [c1, b1, a1]; simp
    by_cases g4 : res.toDevice.length = 0
    · have : (parseToDevice rcv m4 res) = (m4, .nil) := by simp only [parseToDevice]; rw [if_pos g4]
      rw [this] at hpd
      simp only at hpd
      rw [hm4] at hpd
      rw [← List.append_cancel_left hpd] at hm
      simp [m1, m2, m3] at hm
    · have hpd2 : (parseToDevice rcv m4 res) = call rcv m4 (.toDevice res.toDevice) := by
        simp only [parseToDevice]; rw [if_neg g4]
      rw [hpd2, call_log, hm4, List.append_assoc] at hpd
      rw [← List.append_cancel_left hpd] at hm
      simp only [List.mem_append, List.mem_singleton, m1, m2, m3, false_or, Prod.mk.injEq, Call.toDevice.injEq] at hm
      have hret : ¬ shouldRetry (parseToDevice rcv m4 res).2 = true := by
        rw [hpd2, ← hm.2]
        cases e with
        | nil => simp [shouldRetry]
        | data => simp [shouldRetry]
        | other => exact absurd rfl he
      rw [if_neg hret]
      exact ⟨rfl, hm.1, by omega⟩
  rw [if_pos hsec.1]
  refine ⟨hsec.2.1, rfl, ?_⟩
  intro hp
  simp only [advance, hsec.2.2, decide_true, Bool.or_true, Bool.true_and, hp, if_true]

/-- A response with a message. -/
def exRes : Resp := ⟨"s1", [], none, [], [], [], [], [], [], ["msg"]⟩

def exTurn (ok : Bool) : Turn := { killedBefore := false, killedAfter := false, reply := .ok exRes, now := 0, persistOk := ok }

/-- The since token is not stored, as the database fails, then a new poller is started: the messages are handed over twice. -/
theorem C67_violated : ¬ HandedOnce := by
  intro hall
  have h0 := Hist.start (rcv := fun (_ : Unit) _ => ((), Err.nil)) (user := "u") (start := "s0") ⟨(), []⟩ false
  have h1 := Hist.turn (exTurn false) [(.toDevice ["msg"], .nil)] h0 (by rfl)
  have h2 := Hist.restart false h1
  have h3 := Hist.turn (exTurn true) [(.toDevice ["msg"], .nil)] h2 (by rfl)
  exact hall Unit _ "u" "s0" _ _ [] [] [] ⟨"s0", exRes, [(.toDevice ["msg"], .nil)]⟩
    ⟨"s0", exRes, [(.toDevice ["msg"], .nil)]⟩ h3 rfl rfl rfl (by simp [exRes]) (by simp [exRes])

/-- A room whose create event is in the timeline, next to a room the receiver wants retried: the since token stays. Without
the retry it moves. -/
def exRcv (retry : Bool) : Rcv Unit := fun _ c => ((), match c with
  | .initialise "!a" [_] => .data
  | .accumulate "!b" _ => if retry then .other else .nil
  | _ => .nil)

def exRooms : Resp :=
  let name : Ev := ⟨"$n", "m.room.name", some "", ""⟩
  let create : Ev := ⟨"$c", "m.room.create", some "", ""⟩
  let msg : Ev := ⟨"$m", "m.room.message", none, ""⟩
  { exRes with
    toDevice := []
    join := [⟨"!b", [], [.typing "t"], [], [msg], (none, some 1)⟩, ⟨"!a", [name], [], ["tag"], [create, msg], (none, none)⟩] }

def exW : World Unit := ⟨⟨(), []⟩, { since := "s0" }, "s0"⟩

example : (poll (exRcv true) "u" exW { exTurn true with reply := .ok exRooms }).1.lp.since = "s0" := by decide
example : (poll (exRcv false) "u" exW { exTurn true with reply := .ok exRooms }).1.lp.since = "s1" ∧
    (poll (exRcv false) "u" exW { exTurn true with reply := .ok exRooms }).1.persisted = "s1" ∧
    (poll (exRcv false) "u" exW { exTurn true with reply := .ok exRooms }).1.m.log.map (·.1) =
      [.typing "!b" "t", .accumulate "!b" [⟨"$m", "m.room.message", none, ""⟩], .unread "!b" (none, some 1),
       .initialise "!a" [⟨"$n", "m.room.name", some "", ""⟩],
       .initialise "!a" [⟨"$c", "m.room.create", some "", ""⟩, ⟨"$n", "m.room.name", some "", ""⟩], .account "!a" ["tag"],
       .accumulate "!a" [⟨"$m", "m.room.message", none, ""⟩]] := by decide

/-! ### C68 -/

/-- The key counts the receiver was last told with success. -/
def toldOtk (log : List (Call × Err)) : List (String × Nat) :=
  log.foldl (fun acc x => match x with | (.e2ee (some o) _ _ _, .nil) => o | _ => acc) []

/-- The fallback key types the receiver was last told with success. -/
def toldFallback (log : List (Call × Err)) : Option (List String) :=
  log.foldl (fun acc x => match x with | (.e2ee _ (some f) _ _, .nil) => some f | _ => acc) none

/-- Responses given to a poller; those for which the receiver returns an error are dropped. With the last counts, and the last
fallback key types present in a response, of those that were not. `P` restricts the responses. -/
inductive Fed (rcv : Rcv σ) (P : List (String × Nat) → Resp → Prop) :
    M σ → Mem → List (String × Nat) → Option (List String) → Prop
  | start (s : σ) : Fed rcv P ⟨s, []⟩ {} [] none
  | ok {m : M σ} {mem : Mem} {o : List (String × Nat)} {f : Option (List String)} (res : Resp) : Fed rcv P m mem o f →
      P o res → (parseE2EE rcv m mem res).2.2 = .nil →
      Fed rcv P (parseE2EE rcv m mem res).1 (parseE2EE rcv m mem res).2.1 (if res.otk = [] then o else res.otk)
        (res.fallback.or f)
  | fail {m : M σ} {mem : Mem} {o : List (String × Nat)} {f : Option (List String)} (res : Resp) : Fed rcv P m mem o f →
      (parseE2EE rcv m mem res).2.2 ≠ .nil →
      Fed rcv P (parseE2EE rcv m mem res).1 (parseE2EE rcv m mem res).2.1 o f

/-- What one response does to what was told and what is remembered. -/
theorem told_step (rcv : Rcv σ) (m : M σ) (mem : Mem) (res : Resp) :
    ((parseE2EE rcv m mem res).2.2 = .nil →
      toldOtk (parseE2EE rcv m mem res).1.log = (match changedOtk mem.otk res.otk with | some o => o | none => toldOtk m.log) ∧
      toldFallback (parseE2EE rcv m mem res).1.log =
        (changedFallback mem.fallback res.fallback).1.or (toldFallback m.log) ∧
      (parseE2EE rcv m mem res).2.1 =
        { otk := if res.otk = [] then mem.otk else res.otk
          fallback := if (changedFallback mem.fallback res.fallback).2 then res.fallback else mem.fallback }) ∧
    ((parseE2EE rcv m mem res).2.2 ≠ .nil →
      toldOtk (parseE2EE rcv m mem res).1.log = toldOtk m.log ∧
      toldFallback (parseE2EE rcv m mem res).1.log = toldFallback m.log ∧
      (parseE2EE rcv m mem res).2.1 = mem) := by
  have hotk : (if res.otk.length > 0 then res.otk else mem.otk) = if res.otk = [] then mem.otk else res.otk := by
    cases res.otk <;> simp
  simp only [parseE2EE]
  rw [hotk]
  generalize changedFallback mem.fallback res.fallback = fb
  generalize changedOtk mem.otk res.otk = otk
  by_cases hc : ((!res.changed.isEmpty || !res.left.isEmpty) || fb.1.isSome || otk.isSome) = true
  · rw [if_pos hc]
    by_cases he : (call rcv m (.e2ee otk fb.1 res.changed res.left)).2 = .nil
    · rw [if_neg (fun h => h he)]
      refine ⟨fun _ => ⟨?_, ?_, rfl⟩, fun h => absurd rfl h⟩
      · simp only [call_log, he, toldOtk, List.foldl_append, List.foldl_cons, List.foldl_nil]
        cases otk <;> rfl
      · simp only [call_log, he, toldFallback, List.foldl_append, List.foldl_cons, List.foldl_nil]
        cases fb.1 <;> rfl
    · rw [if_pos he]
      refine ⟨fun h => absurd h he, fun _ => ⟨?_, ?_, rfl⟩⟩
      · simp only [call_log, toldOtk, List.foldl_append, List.foldl_cons, List.foldl_nil]
        cases hr : (call rcv m (.e2ee otk fb.1 res.changed res.left)).2 with
        | nil => exact absurd hr he
        | data => cases otk <;> rfl
        | other => cases otk <;> rfl
      · simp only [call_log, toldFallback, List.foldl_append, List.foldl_cons, List.foldl_nil]
        cases hr : (call rcv m (.e2ee otk fb.1 res.changed res.left)).2 with
        | nil => exact absurd hr he
        | data => cases fb.1 <;> rfl
        | other => cases fb.1 <;> rfl
  · rw [if_neg hc]
    simp only [Bool.or_eq_true, not_or] at hc
    have h1 : fb.1 = none := by cases h : fb.1 <;> simp_all
    have h2 : otk = none := by cases h : otk <;> simp_all
    refine ⟨fun _ => ⟨by rw [h2], by rw [h1]; rfl, rfl⟩, fun h => absurd rfl h⟩

/-- The receiver always has the fallback key types of the last response that had any. -/
theorem C68_fallback {rcv : Rcv σ} {P : List (String × Nat) → Resp → Prop} {m : M σ} {mem : Mem} {o : List (String × Nat)}
    {f : Option (List String)} (h : Fed rcv P m mem o f) : toldFallback m.log = f := by
  suffices hs : toldFallback m.log = f ∧ (∀ x, mem.fallback = some x → f = some x) from hs.1
  induction h with
  | start s => exact ⟨rfl, fun x hx => by cases hx⟩
  | @ok m mem o f res _ _ hn ih =>
    obtain ⟨_, k2, k3⟩ := (told_step rcv m mem res).1 hn
    rw [k2, k3, ih.1]
    simp only
    cases hmf : mem.fallback with
    | none =>
      cases hrf : res.fallback with
      | none => simp [changedFallback, len]
      | some y =>
        cases y with
        | nil => simp [changedFallback, len]
        | cons a y => simp [changedFallback, len]
    | some x =>
      have hfx := ih.2 x hmf
      subst hfx
      cases hrf : res.fallback with
      | none =>
        cases x with
        | nil => simp [changedFallback, len]
        | cons a x => simp [changedFallback, len]
      | some y =>
        by_cases hxy : y = x
        · subst hxy
          cases y with
          | nil => simp [changedFallback, len]
          | cons a y => simp [changedFallback, len]
        · have : changedFallback (some x) (some y) = (some y, true) := by
            unfold changedFallback
            by_cases hl : len (some x) = len (some y)
            · rw [if_neg (fun h => h hl)]
              have hy : len (some y) ≠ 0 := by
                intro h0
                rw [h0] at hl
                rw [List.length_eq_zero_iff.1 h0, List.length_eq_zero_iff.1 hl] at hxy
                exact hxy rfl
              rw [if_neg hy, if_pos (by simpa using hxy)]
            · rw [if_pos hl]
          rw [this]; simp
  | @fail m mem o f res _ hn ih =>
    obtain ⟨_, k2, k3⟩ := (told_step rcv m mem res).2 hn
    rw [k2, k3]; exact ih

/-- C68 for the key counts, as stated: for every algorithm the receiver has the count of the last response that had counts. -/
def CountsFollow : Prop := ∀ (σ : Type) (rcv : Rcv σ) (m : M σ) (mem : Mem) (o : List (String × Nat)) (f : Option (List String)),
  Fed rcv (fun _ _ => True) m mem o f → ∀ k, count (toldOtk m.log) k = count o k

/-- A response with a zero count for another algorithm, in place of a non-zero count, is taken for no change. -/
theorem C68_violated : ¬ CountsFollow := by
  intro h
  have h0 := Fed.start (rcv := fun (_ : Unit) _ => ((), Err.nil)) (P := fun _ _ => True) ()
  have h1 := Fed.ok { exRes with otk := [("b", 5)] } h0 trivial (by decide)
  have h2 := Fed.ok { exRes with otk := [("a", 0)] } h1 trivial (by decide)
  have := h Unit _ _ _ _ _ h2 "b"
  exact absurd this (by decide)

/-- Algorithms do not disappear from the counts. -/
def KeepsKeys (o : List (String × Nat)) (res : Resp) : Prop :=
  res.otk ≠ [] → ∀ k ∈ o.map (·.1), k ∈ res.otk.map (·.1)

/-- The counts are right if algorithms do not disappear from one response to the next. -/
theorem C68_counts_partial {rcv : Rcv σ} {m : M σ} {mem : Mem} {o : List (String × Nat)} {f : Option (List String)}
    (h : Fed rcv KeepsKeys m mem o f) : ∀ k, count (toldOtk m.log) k = count o k := by
  suffices hs : (∀ k, count (toldOtk m.log) k = count o k) ∧ mem.otk = o from hs.1
  induction h with
  | start s => exact ⟨fun _ => rfl, rfl⟩
  | @ok m mem o f res _ hp hn ih =>
    obtain ⟨k1, _, k3⟩ := (told_step rcv m mem res).1 hn
    obtain ⟨ih1, ih2⟩ := ih
    subst ih2
    rw [k1, k3]
    refine ⟨?_, rfl⟩
    intro k
    by_cases he : res.otk = []
    · rw [if_pos he]
      have : changedOtk mem.otk res.otk = none := by rw [he]; rfl
      rw [this]; exact ih1 k
    · rw [if_neg he]
      cases hco : changedOtk mem.otk res.otk with
      | some x =>
        simp only [changedOtk] at hco
        split at hco
        · split at hco
          · cases hco; rfl
          · split at hco
            · cases hco; rfl
            · cases hco
        · cases hco
      | none =>
        simp only
        rw [ih1]
        -- no difference was seen
        have hall : ∀ e ∈ res.otk, e.2 = count mem.otk e.1 := by
          intro e hem
          simp only [changedOtk] at hco
          rw [if_pos (by cases h : res.otk with | nil => exact absurd h he | cons => simp)] at hco
          split at hco
          · cases hco
          · split at hco
            · cases hco
            · rename_i hany
              simp only [List.any_eq_true, decide_eq_true_eq, not_exists, not_and] at hany
              exact Classical.byContradiction fun hc => hany e hem hc
        by_cases hk : k ∈ res.otk.map (·.1)
        · have : ∃ e, res.otk.find? (fun e => decide (e.1 = k)) = some e := by
            obtain ⟨e, hem, hek⟩ := List.mem_map.1 hk
            exact Option.isSome_iff_exists.1 (List.find?_isSome.2 ⟨e, hem, by simp [hek]⟩)
          obtain ⟨e, hfe⟩ := this
          have hek : e.1 = k := by simpa using List.find?_some hfe
          have : count res.otk k = e.2 := by simp only [count, hfe]
          rw [this, hall e (List.mem_of_find?_eq_some hfe), hek]
        · have hk' : k ∉ mem.otk.map (·.1) := fun h => hk (hp he k h)
          have hz : ∀ l : List (String × Nat), k ∉ l.map (·.1) → count l k = 0 := by
            intro l hl
            have : l.find? (fun e => decide (e.1 = k)) = none := by
              rw [List.find?_eq_none]
              intro e hem hek
              simp only [decide_eq_true_eq] at hek
              exact hl (List.mem_map.2 ⟨e, hem, hek⟩)
            simp only [count, this]
          rw [hz _ hk, hz _ hk']
  | @fail m mem o f res _ hn ih =>
    obtain ⟨k1, _, k3⟩ := (told_step rcv m mem res).2 hn
    rw [k1, k3]; exact ih

/-- The receiver fails once; the same counts are then passed on at the retry. -/
example : ∃ m mem, Fed (fun (n : Nat) _ => (n + 1, if n = 1 then Err.other else Err.nil)) KeepsKeys m mem [("b", 6), ("c", 1)]
    (some []) ∧ toldOtk m.log = [("b", 6), ("c", 1)] := by
  have h0 := Fed.start (rcv := fun (n : Nat) _ => (n + 1, if n = 1 then Err.other else Err.nil)) (P := KeepsKeys) 0
  have h1 := Fed.ok { exRes with otk := [("b", 5)], fallback := some ["x"] } h0 (by intro _ k hk; cases hk) (by decide)
  have h2 := Fed.fail { exRes with otk := [("b", 6), ("c", 1)], fallback := some [] } h1 (by decide)
  have h3 := Fed.ok { exRes with otk := [("b", 6), ("c", 1)], fallback := some [] } h2 (by intro _ k hk; simp_all) (by decide)
  exact ⟨_, _, h3, by decide⟩

end Verif.Poller
