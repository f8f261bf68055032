import Verif.Poller
/-! What a response does to the receiver's state: it is the result of the logged calls, and nothing else. -/
namespace Verif.Poller

variable {σ : Type}

/-- The receiver's state after the calls. -/
def after (rcv : Rcv σ) (s : σ) (calls : List Call) : σ := calls.foldl (fun s c => (rcv s c).1) s

theorem after_append (rcv : Rcv σ) (s : σ) (a b : List Call) : after rcv s (a ++ b) = after rcv (after rcv s a) b := by
  simp [after]

/-- From `m` to `m'` only calls satisfying `Q` were made. -/
def Made (rcv : Rcv σ) (Q : Call → Prop) (m m' : M σ) : Prop :=
  ∃ calls : List Call, (∀ c ∈ calls, Q c) ∧ m'.s = after rcv m.s calls

variable {rcv : Rcv σ} {Q : Call → Prop}

theorem Made.refl (m : M σ) : Made rcv Q m m := ⟨[], by simp, rfl⟩

theorem Made.trans {a b c : M σ} (h : Made rcv Q a b) (k : Made rcv Q b c) : Made rcv Q a c := by
  obtain ⟨x, hx, hx'⟩ := h
  obtain ⟨y, hy, hy'⟩ := k
  refine ⟨x ++ y, fun c hc => ?_, by rw [hy', hx', after_append]⟩
  rcases List.mem_append.1 hc with h | h
  · exact hx c h
  · exact hy c h

theorem Made.call (m : M σ) {c : Call} (h : Q c) : Made rcv Q m (call rcv m c).1 :=
  ⟨[c], by simpa using h, rfl⟩

theorem Made.mono {Q' : Call → Prop} (hq : ∀ c, Q c → Q' c) {a b : M σ} (h : Made rcv Q a b) : Made rcv Q' a b := by
  obtain ⟨x, hx, hx'⟩ := h
  exact ⟨x, fun c hc => hq c (hx c hc), hx'⟩

/-- A property of the state kept by these calls. -/
theorem Made.keep {P : σ → Prop} (hP : ∀ s c, Q c → P s → P (rcv s c).1) {a b : M σ} (h : Made rcv Q a b)
    (ha : P a.s) : P b.s := by
  obtain ⟨x, hx, hx'⟩ := h
  rw [hx']
  clear hx'
  generalize a.s = s at ha
  induction x generalizing s with
  | nil => exact ha
  | cons c x ih => exact ih (fun d hd => hx d (by simp [hd])) _ (hP _ _ (hx c (by simp)) ha)

/-- A call about a room of the response. -/
inductive RoomCall : Call → Prop
  | account (r : String) (l : List String) : RoomCall (.account r l)
  | initialise (r : String) (l : List Ev) : RoomCall (.initialise r l)
  | typing (r b : String) : RoomCall (.typing r b)
  | receipt (r b : String) : RoomCall (.receipt r b)
  | accumulate (r : String) (l : List Ev) : RoomCall (.accumulate r l)
  | unread (r : String) (c : Option Nat × Option Nat) : RoomCall (.unread r c)
  | leftRoom (r : String) (e : Ev) : RoomCall (.leftRoom r e)
  | invite (r : String) (l : List Ev) : RoomCall (.invite r l)

theorem initJoin_made (m : M σ) (r : JoinRoom) : Made rcv RoomCall m (initJoin rcv m r).1 := by
  unfold initJoin
  split
  · simp only
    split
    · split
      · exact Made.call m (.initialise _ _)
      · exact (Made.call m (.initialise _ _)).trans (Made.call _ (.initialise _ _))
    · exact Made.call m (.initialise _ _)
  · exact Made.refl m

theorem eph_made (room : String) (l : List Eph) (m : M σ) : Made rcv RoomCall m (l.foldl (eph rcv room) m) := by
  induction l generalizing m with
  | nil => exact Made.refl m
  | cons e l ih =>
    rw [List.foldl_cons]
    refine Made.trans ?_ (ih _)
    cases e with
    | typing b => exact Made.call m (.typing _ _)
    | receipt b => exact Made.call m (.receipt _ _)
    | other => exact Made.refl m

theorem restJoin_made (m : M σ) (r : JoinRoom) (tl : List Ev) : Made rcv RoomCall m (restJoin rcv m r tl).1 := by
  have ha : Made rcv RoomCall m
      (if r.account.length > 0 then call rcv m (.account r.id r.account) else (m, .nil)).1 := by
    split
    · exact Made.call m (.account _ _)
    · exact Made.refl m
  unfold restJoin
  generalize (if r.account.length > 0 then call rcv m (.account r.id r.account) else (m, .nil)) = a at *
  simp only
  split
  · exact ha
  · have hb : Made rcv RoomCall a.1
        (if tl.length > 0 then call rcv a.1 (.accumulate r.id tl) else (a.1, .nil)).1 := by
      split
      · exact Made.call _ (.accumulate _ _)
      · exact Made.refl _
    generalize (if tl.length > 0 then call rcv a.1 (.accumulate r.id tl) else (a.1, .nil)) = b at *
    split
    · exact ha.trans hb
    · split
      · exact (ha.trans hb).trans (Made.call _ (.unread _ _))
      · exact ha.trans hb

theorem joinRoom_made (m : M σ) (r : JoinRoom) : Made rcv RoomCall m (joinRoom rcv m r).1 := by
  unfold joinRoom
  simp only
  split
  · exact initJoin_made m r
  · exact ((initJoin_made m r).trans (eph_made _ _ _)).trans (restJoin_made _ _ _)

theorem leaveRoom_made (user : String) (m : M σ) (r : LeaveRoom) : Made rcv RoomCall m (leaveRoom rcv user m r).1 := by
  unfold leaveRoom
  have ha : Made rcv RoomCall m
      (if r.timeline.length > 0 then call rcv m (.accumulate r.id r.timeline) else (m, .nil)).1 := by
    split
    · exact Made.call m (.accumulate _ _)
    · exact Made.refl m
  generalize (if r.timeline.length > 0 then call rcv m (.accumulate r.id r.timeline) else (m, .nil)) = a at *
  simp only
  split
  · exact ha
  · cases leaveEvent user r.timeline with
    | none => exact ha
    | some e => exact ha.trans (Made.call _ (.leftRoom _ _))

theorem loop_made {α : Type} {f : M σ → α → M σ × Err} (hf : ∀ m r, Made rcv Q m (f m r).1) (rooms : List α) (m : M σ) :
    Made rcv Q m (loop f m rooms).1 := by
  unfold loop
  have : ∀ (acc : M σ × List Err), Made rcv Q acc.1 (rooms.foldl (fun acc r => let x := f acc.1 r;
      (x.1, if x.2 ≠ .nil then acc.2 ++ [x.2] else acc.2)) acc).1 := by
    induction rooms with
    | nil => exact fun acc => Made.refl _
    | cons r rooms ih => exact fun acc => (hf acc.1 r).trans (ih _)
  exact this (m, [])

theorem parseRooms_made (user : String) (m : M σ) (res : Resp) : Made rcv RoomCall m (parseRooms rcv user m res).1 :=
  ((loop_made joinRoom_made _ _).trans (loop_made (leaveRoom_made user) _ _)).trans
    (loop_made (fun m _ => Made.call m (.invite _ _)) _ _)

theorem parseAccount_made (m : M σ) (res : Resp) : Made rcv RoomCall m (parseAccount rcv m res).1 := by
  unfold parseAccount
  split
  · exact Made.refl m
  · exact Made.call m (.account _ _)

/-- Any call but the hand-over of to-device messages. -/
def NotToDevice (c : Call) : Prop := ∀ l, c ≠ .toDevice l

theorem RoomCall.notToDevice {c : Call} (h : RoomCall c) : NotToDevice c := by cases h <;> (intro l; exact Call.noConfusion)

theorem parseE2EE_made (m : M σ) (mem : Mem) (res : Resp) : Made rcv NotToDevice m (parseE2EE rcv m mem res).1 := by
  unfold parseE2EE
  simp only
  split
  · split <;> exact Made.call m (fun l => Call.noConfusion)
  · exact Made.refl m

/-- The sections: other calls, then the to-device messages, unless an error stopped it before. -/
theorem sections_made (rcv : Rcv σ) (user : String) (m : M σ) (mem : Mem) (res : Resp) :
    ∃ m1, Made rcv NotToDevice m m1 ∧
      (((sections rcv user m mem res).1 = m1 ∧ (sections rcv user m mem res).2.2 = false) ∨
       ((sections rcv user m mem res).1 = (parseToDevice rcv m1 res).1 ∧
        (sections rcv user m mem res).2.2 = !shouldRetry (parseToDevice rcv m1 res).2)) := by
  unfold sections
  simp only
  have h1 : Made rcv NotToDevice m (parseE2EE rcv m mem res).1 := parseE2EE_made m mem res
  have h2 : Made rcv NotToDevice m (parseAccount rcv (parseE2EE rcv m mem res).1 res).1 :=
    h1.trans ((parseAccount_made _ res).mono fun _ => RoomCall.notToDevice)
  have h3 := h2.trans ((parseRooms_made user (parseAccount rcv (parseE2EE rcv m mem res).1 res).1 res).mono
    fun _ => RoomCall.notToDevice)
  split
  · exact ⟨_, h1, Or.inl ⟨rfl, rfl⟩⟩
  · split
    · exact ⟨_, h2, Or.inl ⟨rfl, rfl⟩⟩
    · split
      · exact ⟨_, h3, Or.inl ⟨rfl, rfl⟩⟩
      · refine ⟨_, h3, Or.inr ?_⟩
        split
        · rename_i h; exact ⟨rfl, by rw [h]; rfl⟩
        · rename_i h; exact ⟨rfl, by simp only [Bool.not_eq_true] at h; rw [h]; rfl⟩

end Verif.Poller
