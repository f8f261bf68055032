import Verif.EndToEndPrivacyProps
/-!
# Examples and counterexamples for C127
-/
namespace Verif.EndToEnd
open Verif.Store (Ev Row DB)

instance (cfg : Cfg) (r : String) (x : Row) : Decidable (Member cfg r x) := by unfold Member; infer_instance
instance (cfg : Cfg) (db : DB) (r : String) (n : Nat) : Decidable (JoinedThen cfg db r n) := by unfold JoinedThen; infer_instance
instance (cfg : Cfg) (db : DB) (r : String) (n : Nat) : Decidable (InRoom cfg db r n) := by unfold InRoom; infer_instance
instance (cfg : Cfg) (db : DB) (r : String) (n : Nat) : Decidable (Own cfg db r n) := by unfold Own; infer_instance
instance (cfg : Cfg) (db : DB) (r : String) : Decidable (NoneMissed cfg db r) := by unfold NoneMissed; infer_instance

/-- The hypotheses on the input. -/
def InputOk (cfg : Cfg) (ops : List Op) : Prop :=
  cfg.user ≠ Dispatcher.allUsers ∧ (∀ o ∈ polls ops, Store.OkOp o) ∧ (∀ o ∈ polls ops, KeyOk o) ∧
    ∀ x ∈ (run cfg {} ops).db.rows, x.ev.stateKey = cfg.user → x.ev.hasKey = true

/-- The first message that is received, if it is to read the members of the room anew, is followed by no event of the room. -/
def calmNow (r : String) : List Msg → Bool
  | .inval x :: rest => decide (x ≠ r) || rest.all fun m => match m with | .acc y _ => decide (y ≠ r) | _ => true
  | _ => true

def calmFrom (cfg : Cfg) (r : String) : State → List Op → Bool
  | _, [] => true
  | s, .recv :: ops => calmNow r s.bus && calmFrom cfg r (step cfg s .recv) ops
  | s, o :: ops => calmFrom cfg r (step cfg s o) ops

theorem calmFrom_at {cfg : Cfg} {r : String} (pre : List Op) : ∀ {s : State} {post : List Op},
    calmFrom cfg r s (pre ++ .recv :: post) = true → calmNow r (run cfg s pre).bus = true := by
  induction pre with
  | nil => intro s post h; simp only [List.nil_append, calmFrom, Bool.and_eq_true] at h; exact h.1
  | cons o pre ih =>
    intro s post h
    have : calmFrom cfg r (step cfg s o) (pre ++ .recv :: post) = true := by
      cases o <;> simp only [List.cons_append, calmFrom, Bool.and_eq_true] at h <;> first | exact h | exact h.2
    exact ih this

theorem calm_of {cfg : Cfg} {r : String} {ops : List Op} (h : calmFrom cfg r {} ops = true) : Calm cfg r ops := by
  intro pre post rest nids he hb hm
  subst he
  have := calmFrom_at pre h
  rw [hb] at this
  simp only [calmNow, ne_eq, not_true_eq_false, decide_false, Bool.false_or, List.all_eq_true] at this
  simpa using this _ hm

def pvCfg : Cfg :=
  { user := "@u", mem := fun i => if i = "$l" then "leave" else if i = "$i" then "invite" else "join", maxLimit := 50 }
def pvCreate : Ev := { id := "$c", type := "m.room.create", hasKey := true }
def pvMem (i u : String) : Ev := { id := i, type := "m.room.member", stateKey := u, hasKey := true }
def pvMsg (i : String) : Ev := { id := i, type := "m.room.message" }

/-- Another user writes, the user joins, reads the room, a message comes; the user leaves, and there is another message. -/
def pvGood : List Op :=
  [.poll (.init "!r" 0 [some pvCreate, some (pvMem "$v" "@v")]), .recv,
   .poll (.acc "!r" 0 false [some (pvMsg "$1")]), .recv,
   .poll (.acc "!r" 0 false [some (pvMem "$u" "@u"), some (pvMsg "$2")]), .recv,
   .open, .request [("!r", 10)], .poll (.acc "!r" 0 false [some (pvMsg "$3")]), .recv, .take true [],
   .poll (.acc "!r" 0 false [some (pvMem "$l" "@u"), some (pvMsg "$4")]), .recv, .take true [], .take true []]

/-- The hypotheses of `C127_partial` hold, and the client has the join, two messages and the leave: not the message before the join, nor the one
after the leave. -/
example : InputOk pvCfg pvGood ∧ Calm pvCfg "!r" pvGood ∧ NoneMissed pvCfg (run pvCfg {} pvGood).db "!r" ∧
    (run pvCfg {} pvGood).conn.map (fun c => (c.view "!r", c.queue)) = some (some [4, 5, 6, 7], []) ∧
    posOf (run pvCfg {} pvGood).db "!r" = [3, 4, 5, 6, 7, 8] := by
  refine ⟨⟨by decide, ?_, ?_, by decide +kernel⟩, calm_of (by decide +kernel), by decide +kernel, by decide +kernel, by decide +kernel⟩
  · intro o ho
    simp only [pvGood, polls, List.filterMap_cons, List.filterMap_nil, List.mem_cons, List.not_mem_nil, or_false] at ho
    rcases ho with rfl | rfl | rfl | rfl | rfl <;> simp [Store.OkOp, Store.Clean, pvCreate, pvMem, pvMsg]
  · intro o ho
    simp only [pvGood, polls, List.filterMap_cons, List.filterMap_nil, List.mem_cons, List.not_mem_nil, or_false] at ho
    rcases ho with rfl | rfl | rfl | rfl | rfl <;> simp [KeyOk, pvCreate, pvMem]

/-- The user joins; the leave and what follows are in a gap of the timeline, and the next thing that is stored is an invite of the user, by a poller
of another user; then there is a message. -/
def pvMissed : List Op :=
  [.poll (.init "!r" 0 [some pvCreate, some (pvMem "$v" "@v"), some (pvMem "$u" "@u")]), .recv, .open, .request [("!r", 10)],
   .poll (.acc "!r" 0 true [some (pvMem "$i" "@u"), some (pvMsg "$1")]), .recv, .take true [], .take true []]

/-- If the leave of the user was in a gap of the timeline (or in no poller's response) and the user is invited again, the user is still thought to be
joined: neither `joined_rooms_tracker` nor `visibleEventNIDs` take an invite for a leave. So an invited user who has not joined reads the messages
of the room. -/
theorem C127_violated_missed : ∃ (cfg : Cfg) (ops : List Op) (r : String) (c : Conn) (l : List Nat) (n : Nat), InputOk cfg ops ∧ Calm cfg r ops ∧
    (run cfg {} ops).conn = some c ∧ c.view r = some l ∧ n ∈ l ∧ ¬ InRoom cfg (run cfg {} ops).db r n ∧ ¬ Own cfg (run cfg {} ops).db r n := by
  have hv : (run pvCfg {} pvMissed).conn.bind (fun c => c.view "!r") = some [4, 5] := by decide +kernel
  obtain ⟨c, hc, hl⟩ := Option.bind_eq_some_iff.1 hv
  refine ⟨pvCfg, pvMissed, "!r", c, [4, 5], 5, ⟨by decide, ?_, ?_, by decide +kernel⟩, calm_of (by decide +kernel), hc, hl, by simp, by decide +kernel, by decide +kernel⟩
  · intro o ho
    simp only [pvMissed, polls, List.filterMap_cons, List.filterMap_nil, List.mem_cons, List.not_mem_nil, or_false] at ho
    rcases ho with rfl | rfl <;> simp [Store.OkOp, Store.Clean, pvCreate, pvMem, pvMsg]
  · intro o ho
    simp only [pvMissed, polls, List.filterMap_cons, List.filterMap_nil, List.mem_cons, List.not_mem_nil, or_false] at ho
    rcases ho with rfl | rfl <;> simp [KeyOk, pvCreate, pvMem]

/-- The state of the room is given again (with another user's join), a message is written, and the state is given again with the user's join; only then
is the first of these messages received. -/
def pvReload : List Op :=
  [.poll (.init "!r" 0 [some pvCreate, some (pvMem "$v" "@v")]), .recv,
   .poll (.init "!r" 0 [some pvCreate, some (pvMem "$v" "@v"), some (pvMem "$w" "@w")]),
   .poll (.acc "!r" 0 false [some (pvMsg "$1")]),
   .poll (.init "!r" 0 [some pvCreate, some (pvMem "$v" "@v"), some (pvMem "$w" "@w"), some (pvMem "$u" "@u")]),
   .recv, .open, .request [("!r", 10)], .recv, .take true []]

/-- `OnInvalidateRoom` reads the members of the room from the database as it is when the message is received, not as it was when it was sent. Events
stored in between are then given to users who joined after them: here a client is sent a message that was stored before its user joined. -/
theorem C127_violated_reload : ∃ (cfg : Cfg) (ops : List Op) (r : String) (c : Conn) (l : List Nat) (n : Nat), InputOk cfg ops ∧
    NoneMissed cfg (run cfg {} ops).db r ∧
    (run cfg {} ops).conn = some c ∧ c.view r = some l ∧ n ∈ l ∧ ¬ JoinedThen cfg (run cfg {} ops).db r n ∧ ¬ Own cfg (run cfg {} ops).db r n := by
  have hv : (run pvCfg {} pvReload).conn.bind (fun c => c.view "!r") = some [6] := by decide +kernel
  obtain ⟨c, hc, hl⟩ := Option.bind_eq_some_iff.1 hv
  refine ⟨pvCfg, pvReload, "!r", c, [6], 6, ⟨by decide, ?_, ?_, by decide +kernel⟩, by decide +kernel, hc, hl, by simp, by decide +kernel, by decide +kernel⟩
  · intro o ho
    simp only [pvReload, polls, List.filterMap_cons, List.filterMap_nil, List.mem_cons, List.not_mem_nil, or_false] at ho
    rcases ho with rfl | rfl | rfl | rfl <;> simp [Store.OkOp, Store.Clean, pvCreate, pvMem, pvMsg]
  · intro o ho
    simp only [pvReload, polls, List.filterMap_cons, List.filterMap_nil, List.mem_cons, List.not_mem_nil, or_false] at ho
    rcases ho with rfl | rfl | rfl | rfl <;> simp [KeyOk, pvCreate, pvMem]

end Verif.EndToEnd
