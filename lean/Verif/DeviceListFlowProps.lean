import Verif.DeviceListFlow
import Verif.ConnProps
import Verif.PollerState
/-! C119: device list changes from the homeserver to the client. -/
namespace Verif.DeviceListFlow
open Verif.Poller (Call Err World Turn Reply Resp Rcv)
open Verif.E2EE (Change Out)

/-! ### Specification -/

/-- The poller has not fetched this change yet: it follows its token. -/
def Ahead (tok : Nat → String) (s : State) (u : String) (x : Change) : Prop :=
  ∃ n, s.w.lp.since = tok n ∧ lastOf u (s.hs.drop n) = some x

/-- On its way from the proxy to the client: in the request in progress, in a response the client has not had, or, if the
client has to connect again, in the bucket of what was sent. -/
def flight (srv : E2EE.State) (c : Client) : String → Option Change :=
  match c.busy, c.conn with
  | some b, _ => b.out.lists
  | none, some k =>
    if c.pos = 0 then srv.sent
    else match k.buf.find? (fun r => decide (c.pos < r.pos)) with
      | some r => r.data.lists
      | none => fun _ => none
  | none, none => srv.sent

/-- Somewhere on the way. -/
def Waiting (tok : Nat → String) (s : State) (u : String) (x : Change) : Prop :=
  Ahead tok s u x ∨ s.w.m.s.srv.new u = some x ∨ flight s.w.m.s.srv s.c u = some x

/-- Every change the client was not told of since is on its way. -/
def Kept (tok : Nat → String) (user : String) (ok : Mode) : Prop :=
  ∀ s, Run tok user ok s → ∀ u x, s.c.due u = some x → Waiting tok s u x

/-- Writing the token never fails, no request fails after reading the tables, the client repeats a request unchanged until
it has the response, and has the extension in the first request of a connection. -/
def Mode.good : Mode := ⟨fun t => t.persistOk = true, False, False, False⟩

/-! ### The last change of a user -/

theorem lastOf_append (u : String) (a b : List (String × Change)) : lastOf u (a ++ b) = (lastOf u b).or (lastOf u a) := by
  unfold lastOf
  rw [List.filter_append, List.getLast?_append]
  cases (b.filter fun e => decide (e.1 = u)).getLast? <;> rfl

theorem lastOf_drop {u : String} {l : List (String × Change)} {p n : Nat} (h : p ≤ n) {x : Change}
    (hx : lastOf u (l.drop n) = some x) : lastOf u (l.drop p) = some x := by
  have : l.drop p = (l.drop p).take (n - p) ++ l.drop n := by
    have := (List.take_append_drop (n - p) (l.drop p)).symm
    rwa [List.drop_drop, show p + (n - p) = n by omega] at this
  rw [this, lastOf_append, hx]; rfl

theorem lastOf_split (u : String) (l : List (String × Change)) {n m : Nat} (h : n ≤ m) :
    lastOf u (l.drop n) = (lastOf u (l.drop m)).or (lastOf u ((l.take m).drop n)) := by
  rw [← lastOf_append]
  congr 1
  have := (List.take_append_drop (m - n) (l.drop n)).symm
  rw [List.drop_drop, show n + (m - n) = m by omega] at this
  rwa [List.drop_take]

theorem lastOf_single (u v : String) (x : Change) : lastOf u [(v, x)] = if u = v then some x else none := by
  unfold lastOf
  by_cases h : u = v
  · subst h; simp
  · simp [h, Ne.symm h]

/-! ### One turn of the poller -/

/-- What the homeserver reports is what is written. -/
def Wrote (srv srv' : E2EE.State) (res : Resp) : Prop :=
  srv'.row = true ∧ srv'.sent = srv.sent ∧ ∀ u, srv'.new u = (E2EE.toChanges res.changed res.left u).or (srv.new u)

def NotE2EE (c : Call) : Prop := ∀ o f a b, c ≠ .e2ee o f a b

theorem recv_other (s : Db) (c : Call) (h : NotE2EE c) : (recv s c).1.srv = s.srv := by
  unfold recv
  cases c with
  | e2ee o f a b => exact absurd rfl (h o f a b)
  | _ => rfl

theorem roomCall_notE2EE {c : Call} (h : Poller.RoomCall c) : NotE2EE c := by
  cases h <;> (intro a b c d; exact Call.noConfusion)

theorem made_srv {m m' : Poller.M Db} (h : Poller.Made recv NotE2EE m m') : m'.s.srv = m.s.srv :=
  h.keep (P := fun s => s.srv = m.s.srv) (fun s c hc h => (recv_other s c hc).trans h) rfl

theorem parseE2EE_effect (m : Poller.M Db) (mem : Poller.Mem) (res : Resp) :
    let r := Poller.parseE2EE recv m mem res
    (r.1.s.srv = m.s.srv ∧ (r.2.2 = .nil → res.changed = [] ∧ res.left = [])) ∨ Wrote m.s.srv r.1.s.srv res := by
  simp only [Poller.parseE2EE]
  generalize Poller.changedFallback mem.fallback res.fallback = fb
  generalize Poller.changedOtk mem.otk res.otk = otk
  by_cases hc : ((!res.changed.isEmpty || !res.left.isEmpty) || fb.1.isSome || otk.isSome) = true
  · rw [if_pos hc]
    by_cases hf : m.s.fate = .nil
    · right
      have : (Poller.call recv m (.e2ee otk fb.1 res.changed res.left)).1.s.srv =
          E2EE.upsert m.s.srv (otk.map fun m => m.map fun e => (e.1, (e.2 : Int))) fb.1
            (E2EE.toChanges res.changed res.left) := by simp [Poller.call, recv, hf]
      have hw : Wrote m.s.srv (Poller.call recv m (.e2ee otk fb.1 res.changed res.left)).1.s.srv res := by
        rw [this]
        refine ⟨rfl, rfl, fun u => ?_⟩
        simp only [E2EE.upsert]
        cases E2EE.toChanges res.changed res.left u <;> rfl
      split <;> exact hw
    · left
      have h1 : (Poller.call recv m (.e2ee otk fb.1 res.changed res.left)).1.s.srv = m.s.srv := by
        simp [Poller.call, recv, hf]
      have h2 : (Poller.call recv m (.e2ee otk fb.1 res.changed res.left)).2 = .other := by
        simp [Poller.call, recv, hf, Call.silent]
      rw [if_pos (by rw [h2]; simp)]
      exact ⟨h1, fun h => by simp only [h2] at h; cases h⟩
  · rw [if_neg hc]
    left
    refine ⟨rfl, fun _ => ?_⟩
    simp only [Bool.or_eq_true, Bool.not_eq_true', not_or, Bool.not_eq_false, List.isEmpty_iff] at hc
    exact hc.1.1

/-- A turn writes nothing, or what the answer reports; it takes the token of the answer only if it is written. -/
theorem poll_effect (user : String) (w : World Db) (t : Turn) :
    let w' := (Poller.poll recv user w t).1
    (w'.m.s.srv = w.m.s.srv ∧ w'.lp.since = w.lp.since ∧ w'.persisted = w.persisted ∧ w'.lp.lastStored = w.lp.lastStored) ∨
    ∃ res, t.reply = .ok res ∧
      (Wrote w.m.s.srv w'.m.s.srv res ∨ w'.m.s.srv = w.m.s.srv ∧ res.changed = [] ∧ res.left = []) ∧
      ((w'.lp.since = w.lp.since ∧ w'.persisted = w.persisted ∧ w'.lp.lastStored = w.lp.lastStored) ∨
        (w'.lp.since = res.nextBatch ∧ (w'.persisted = w.persisted ∨ w'.persisted = res.nextBatch) ∧
          (t.persistOk = true → w.lp.lastStored = none → w'.persisted = res.nextBatch))) := by
  intro w'
  simp only [show w' = (Poller.poll recv user w t).1 from rfl, Poller.poll]
  split
  · exact Or.inl ⟨rfl, rfl, rfl, rfl⟩
  split
  · exact Or.inl ⟨rfl, rfl, rfl, rfl⟩
  split
  · exact Or.inl ⟨rfl, rfl, rfl, rfl⟩
  split
  · split <;> exact Or.inl ⟨rfl, rfl, rfl, rfl⟩
  · rename_i res hres
    have hs : (Poller.sections recv user w.m w.lp.mem res).1.s.srv =
          (Poller.parseE2EE recv w.m w.lp.mem res).1.s.srv ∧
        ((Poller.sections recv user w.m w.lp.mem res).2.2 = true →
          Poller.shouldRetry (Poller.parseE2EE recv w.m w.lp.mem res).2.2 = false) := by
      unfold Poller.sections
      simp only
      have h2 := made_srv ((Poller.parseAccount_made (rcv := recv) (Poller.parseE2EE recv w.m w.lp.mem res).1 res).mono
        fun _ => roomCall_notE2EE)
      have h3 := made_srv ((Poller.parseRooms_made (rcv := recv) user
        (Poller.parseAccount recv (Poller.parseE2EE recv w.m w.lp.mem res).1 res).1 res).mono fun _ => roomCall_notE2EE)
      have h4 : ∀ m : Poller.M Db, (Poller.parseToDevice recv m res).1.s.srv = m.s.srv := by
        intro m
        unfold Poller.parseToDevice
        split
        · rfl
        · exact recv_other _ _ (fun _ _ _ _ => Call.noConfusion)
      split
      · exact ⟨rfl, fun h => by cases h⟩
      · rename_i h1
        split
        · exact ⟨h2, fun h => by cases h⟩
        · split
          · exact ⟨h3.trans h2, fun h => by cases h⟩
          · split
            · exact ⟨(h4 _).trans (h3.trans h2), fun h => by cases h⟩
            · exact ⟨(h4 _).trans (h3.trans h2), fun _ => by simpa using h1⟩
    have hnil : Poller.shouldRetry (Poller.parseE2EE recv w.m w.lp.mem res).2.2 = false →
        (Poller.parseE2EE recv w.m w.lp.mem res).2.2 = .nil := by
      simp only [Poller.parseE2EE]
      split
      · intro h
        by_cases hf : w.m.s.fate = .nil
        · simp [Poller.call, recv, hf, Call.silent]
        · exfalso
          have : (Poller.call recv w.m (.e2ee (Poller.changedOtk w.lp.mem.otk res.otk)
              (Poller.changedFallback w.lp.mem.fallback res.fallback).1 res.changed res.left)).2 = .other := by
            simp [Poller.call, recv, hf, Call.silent]
          rw [if_pos (by rw [this]; simp)] at h
          simp only [this] at h
          cases h
      · intro _; rfl
    have he := parseE2EE_effect w.m w.lp.mem res
    simp only [← hs.1] at he
    by_cases hok : (Poller.sections recv user w.m w.lp.mem res).2.2 = true
    · rw [if_pos hok]
      refine Or.inr ⟨res, hres, ?_, Or.inr ⟨rfl, ?_, ?_⟩⟩
      · rcases he with ⟨h1, h2⟩ | h
        · exact Or.inr ⟨h1, h2 (hnil (hs.2 hok))⟩
        · exact Or.inl h
      · simp only [Poller.advance]
        split
        · exact Or.inr rfl
        · exact Or.inl rfl
      · intro hp hl
        simp [Poller.advance, hp, hl]
    · rw [if_neg hok]
      rcases he with ⟨h1, h2⟩ | h
      · exact Or.inl ⟨h1, rfl, rfl, rfl⟩
      · exact Or.inr ⟨res, hres, Or.inl h, Or.inl ⟨rfl, rfl, rfl⟩⟩

/-! ### The connection -/

theorem find_none {k : Conn.State Nat Out} (h : Conn.Inv k) {p : Int} (hp : k.lastPos ≤ p) :
    k.buf.find? (fun r => decide (p < r.pos)) = none := by
  rw [List.find?_eq_none]
  intro r hr
  have := Conn.consec_pos h.consec r hr
  simp only [decide_eq_true_eq]; omega

theorem flight_synced {srv : E2EE.State} {c : Client} {k : Conn.State Nat Out} (hb : c.busy = none) (hk : c.conn = some k)
    (hp : c.pos ≠ 0) (h : Conn.Inv k) (hl : k.lastPos ≤ c.pos) : flight srv c = fun _ => none := by
  unfold flight
  rw [hb, hk]
  simp only [if_neg hp, find_none h hl]

theorem flight_next {srv : E2EE.State} {c : Client} {k : Conn.State Nat Out} {r : Conn.Resp Out} (hb : c.busy = none)
    (hk : c.conn = some k) (hp : c.pos ≠ 0) (h : k.buf.find? (fun r => decide (c.pos < r.pos)) = some r) :
    flight srv c = r.data.lists := by
  unfold flight
  rw [hb, hk]
  simp only [if_neg hp, h]

theorem flight_zero {srv : E2EE.State} {c : Client} (hb : c.busy = none) (h : c.pos = 0 ∨ c.conn = none) :
    flight srv c = srv.sent := by
  unfold flight
  rw [hb]
  rcases h with h | h
  · cases hc : c.conn <;> simp [h]
  · rw [h]

theorem flight_busy {srv : E2EE.State} {c : Client} {b : Busy} (hb : c.busy = some b) : flight srv c = b.out.lists := by
  unfold flight
  rw [hb]

/-- Between the tables, the connection and the client. -/
structure CI (srv : E2EE.State) (c : Client) : Prop where
  row : srv.row = false → (∀ u, srv.new u = none) ∧ ∀ u, srv.sent u = none
  conn : ∀ k, c.conn = some k → Conn.Inv k
  nonneg : 0 ≤ c.pos
  busy : ∀ b, c.busy = some b → ∃ k, c.conn = some k ∧ (Conn.step k ⟨c.pos, b.body⟩ none).2 = .failed ∧
    k.lastPos = c.pos ∧ c.wants = some b.body
  idle : c.busy = none → c.pos ≠ 0 → ∀ k, c.conn = some k →
    k.lastPos = c.pos ∨ (k.lastPos = c.pos + 1 ∧ k.last.pos = c.pos ∧ c.wants = some k.last.body)
  sub : ∀ u x, flight srv c u = some x → srv.sent u = some x
  told : ∀ u x, srv.sent u = some x → flight srv c u = some x ∨ (flight srv c u = none ∧ c.told u = some x)

/-- What the client will know once everything in the proxy has reached it. -/
def view (srv : E2EE.State) (c : Client) (u : String) : Option Change :=
  (srv.new u).or ((flight srv c u).or (c.told u))

/-- A step of the connection or the client: nothing is lost. -/
structure Keeps (srv : E2EE.State) (c : Client) (srv' : E2EE.State) (c' : Client) : Prop where
  ci : CI srv' c'
  view : ∀ u, view srv' c' u = view srv c u
  due : ∀ u x, c'.due u = some x → c.due u = some x ∧
    (srv.new u = some x ∨ flight srv c u = some x → srv'.new u = some x ∨ flight srv' c' u = some x)
  last : c'.last = c.last

theorem Keeps.same {srv : E2EE.State} {c c' : Client} (hci : CI srv c') (hf : flight srv c' = flight srv c)
    (ht : c'.told = c.told) (hd : c'.due = c.due) (hl : c'.last = c.last) : Keeps srv c srv c' :=
  ⟨hci, fun u => by unfold DeviceListFlow.view; rw [hf, ht], fun u x h => ⟨by rw [← hd]; exact h, fun h => by rw [hf]; exact h⟩, hl⟩

/-- The connection is gone, or the client has to connect again. -/
theorem Keeps.sent {srv : E2EE.State} {c c' : Client} (h : CI srv c) (hb : c'.busy = none) (hz : c'.pos = 0 ∨ c'.conn = none)
    (hp : 0 ≤ c'.pos) (hk : ∀ k, c'.conn = some k → Conn.Inv k) (ht : c'.told = c.told) (hd : c'.due = c.due)
    (hl : c'.last = c.last) : Keeps srv c srv c' := by
  have hf := flight_zero (srv := srv) hb hz
  refine ⟨⟨h.row, hk, hp, (by rw [hb]; intro b hb; cases hb), ?_, by rw [hf]; exact fun u x h => h,
    by rw [hf]; exact fun u x h => Or.inl h⟩, ?_, ?_, hl⟩
  · intro _ hne k hc
    rcases hz with hz | hz
    · exact absurd hz hne
    · rw [hz] at hc; cases hc
  · intro u
    unfold DeviceListFlow.view
    rw [hf, ht]
    cases hs : srv.sent u with
    | none =>
      cases hfl : flight srv c u with
      | none => rfl
      | some x => rw [h.sub u x hfl] at hs; cases hs
    | some x =>
      rcases h.told u x hs with h1 | ⟨h1, h2⟩
      · rw [h1]
      · rw [h1, h2]; rfl
  · intro u x hx
    rw [hd] at hx
    refine ⟨hx, fun hh => hh.imp_right fun hh => ?_⟩
    rw [hf]; exact h.sub u x hh

/-- A response arrives which is what was in flight, and there is no further. -/
theorem Keeps.get {srv : E2EE.State} {c c1 : Client} (h : CI srv c) {r : Conn.Resp Out} {k : Conn.State Nat Out}
    (hr : r.data.lists = flight srv c) (hb : c1.busy = none) (hk : c1.conn = some k) (hi : Conn.Inv k) (hp : 0 < r.pos)
    (hl : k.lastPos = r.pos) (ht : c1.told = c.told) (hd : c1.due = c.due) (hla : c1.last = c.last) :
    Keeps srv c srv (c1.get r) := by
  have hf : flight srv (c1.get r) = fun _ => none :=
    flight_synced (k := k) hb hk (by simp only [Client.get]; omega) hi (by simp only [Client.get]; omega)
  refine ⟨⟨h.row, ?_, by simp only [Client.get]; omega, ?_, ?_, by simp [hf], ?_⟩, ?_, ?_, hla⟩
  · intro k' hk'
    rw [show (c1.get r).conn = c1.conn from rfl, hk] at hk'
    cases hk'; exact hi
  · rw [show (c1.get r).busy = c1.busy from rfl, hb]; intro b hb; cases hb
  · intro _ _ k' hk'
    rw [show (c1.get r).conn = c1.conn from rfl, hk] at hk'
    cases hk'; exact Or.inl hl
  · intro u x hx
    refine Or.inr ⟨by rw [hf], ?_⟩
    simp only [Client.get, hr, ht]
    rcases h.told u x hx with h1 | ⟨h1, h2⟩
    · rw [h1]; rfl
    · rw [h1, h2]; rfl
  · intro u
    unfold DeviceListFlow.view
    rw [hf]
    simp only [Client.get, hr, ht, Option.none_or]
  · intro u x hx
    simp only [Client.get, hr, hd] at hx
    split at hx
    · cases hx
    · rename_i hne
      refine ⟨hx, fun hh => ?_⟩
      rcases hh with hh | hh
      · exact Or.inl hh
      · exact absurd (hh.trans hx.symm) hne

/-- The tables are read with nothing in flight. -/
theorem Keeps.read {srv : E2EE.State} {c c' : Client} (h : CI srv c) {b : Busy} {k : Conn.State Nat Out}
    (hf : flight srv c = fun _ => none) (hb : c'.busy = some b) (ho : b.out = (E2EE.read srv false).2)
    (hk : c'.conn = some k) (hi : Conn.Inv k) (hs : (Conn.step k ⟨c'.pos, b.body⟩ none).2 = .failed)
    (hp : k.lastPos = c'.pos) (h0 : 0 ≤ c'.pos) (hw : c'.wants = some b.body)
    (ht : c'.told = c.told) (hd : c'.due = c.due) (hl : c'.last = c.last) :
    Keeps srv c (E2EE.read srv false).1 c' := by
  have hfl : flight (E2EE.read srv false).1 c' = srv.new := by
    rw [flight_busy hb, ho]
    unfold E2EE.read
    cases hr : srv.row with
    | false => funext u; simp [(h.row hr).1 u]
    | true => simp
  have hsent : ∀ u, (E2EE.read srv false).1.sent u = srv.new u := by
    intro u
    unfold E2EE.read
    cases hr : srv.row with
    | false => simp [(h.row hr).1 u, (h.row hr).2 u]
    | true => simp
  have hnew : ∀ u, (E2EE.read srv false).1.new u = none := by
    intro u
    unfold E2EE.read
    cases hr : srv.row with
    | false => simp [(h.row hr).1 u]
    | true => simp
  refine ⟨⟨?_, ?_, h0, ?_, (by rw [hb]; intro hh; cases hh), ?_, ?_⟩, ?_, ?_, hl⟩
  · intro hr
    refine ⟨hnew, fun u => ?_⟩
    have : srv.row = false := by
      unfold E2EE.read at hr
      cases hr' : srv.row with
      | false => rfl
      | true => simp [hr'] at hr
    rw [hsent, (h.row this).1 u]
  · intro k' hk'; rw [hk] at hk'; cases hk'; exact hi
  · intro b' hb'; rw [hb] at hb'; cases hb'; exact ⟨k, hk, hs, hp, hw⟩
  · intro u x hx; rw [hfl] at hx; rw [hsent]; exact hx
  · intro u x hx; rw [hsent] at hx; rw [hfl]; exact Or.inl hx
  · intro u
    unfold DeviceListFlow.view
    rw [hnew, hfl, hf, ht]; simp
  · intro u x hx
    rw [hd] at hx
    refine ⟨hx, fun hh => Or.inr ?_⟩
    rw [hfl]
    rw [hf] at hh
    simpa using hh

theorem begin_keeps {srv : E2EE.State} {c : Client} (h : CI srv c) (body : Nat) (on arrives : Bool) (hb : c.busy = none)
    (hw : c.pos ≠ 0 → ∀ b, c.wants = some b → body = b) (hl : c.pos = 0 → on = true) :
    Keeps srv c (begin srv c body on arrives).1 (begin srv c body on arrives).2 := by
  unfold begin
  by_cases h0 : c.pos = 0
  · have hon := hl h0
    subst hon
    have hstep : Conn.step (Conn.init 0 : Conn.State Nat Out) ⟨c.pos, body⟩ none = (Conn.init 0, .failed) := by
      simp [Conn.step, h0, Conn.init, Conn.scan]
    rw [if_pos h0]
    simp only [hstep, if_true]
    have hr1 : (E2EE.read srv (decide (c.pos = 0))).1 = srv := by
      simp only [h0, decide_true]
      unfold E2EE.read
      cases srv.row <;> rfl
    have hr2 : (E2EE.read srv (decide (c.pos = 0))).2.lists = srv.sent := by
      simp only [h0, decide_true]
      unfold E2EE.read
      cases hr : srv.row with
      | false => funext u; simp [(h.row hr).2 u]
      | true => rfl
    rw [hr1]
    have hf : flight srv c = srv.sent := flight_zero hb (Or.inl h0)
    have hf' : ∀ c' : Client, ∀ b, c'.busy = some b → b.out = (E2EE.read srv (decide (c.pos = 0))).2 →
        flight srv c' = srv.sent := by
      intro c' b hb ho; rw [flight_busy hb, ho, hr2]
    refine Keeps.same ⟨h.row, ?_, h.nonneg, ?_, ?_, ?_, ?_⟩ ((hf' _ _ rfl rfl).trans hf.symm) rfl rfl rfl
    · intro k hk; cases hk; exact Conn.inv_init 0
    · intro b hb
      cases hb
      exact ⟨_, rfl, by rw [hstep], by simp [Conn.init, h0], rfl⟩
    · intro hh; cases hh
    · rw [hf' _ _ rfl rfl]; exact fun u x hx => hx
    · rw [hf' _ _ rfl rfl]; exact fun u x hx => Or.inl hx
  · rw [if_neg h0]
    cases hc : c.conn with
    | none =>
      simp only
      cases arrives with
      | true =>
        exact Keeps.sent h hb (Or.inl rfl) (Int.le_refl 0) (by simp [hc]) rfl rfl rfl
      | false =>
        simp only [Bool.false_eq_true, if_false]
        exact Keeps.sent h hb (Or.inr rfl) h.nonneg (by simp) rfl rfl rfl
    | some k =>
      have hi := h.conn k hc
      simp only
      rcases Conn.step_cases hi ⟨c.pos, body⟩ none with ⟨e, h1, h2, h3⟩ | ⟨h1, h2, h3, d, hd1, hd2, hd3, hcase⟩
      · rw [e]
        simp only
        cases arrives with
        | true => exact Keeps.sent h hb (Or.inl rfl) (Int.le_refl 0) (by simp [hi]) rfl rfl rfl
        | false =>
          simp only [Bool.false_eq_true, if_false]
          have hf : flight srv { c with conn := some k, wants := some body } = flight srv c := by
            unfold flight; rw [hc]
          refine Keeps.same ⟨h.row, by simp [hi], h.nonneg, (by simp [hb]), ?_, by rw [hf]; exact h.sub,
            by rw [hf]; exact h.told⟩ hf rfl rfl rfl
          intro _ _ k' hk'
          cases hk'
          rcases h.idle hb h0 k hc with hh | ⟨_, hh, _⟩
          · exact Or.inl hh
          · exact absurd hh h2
      · rcases hcase with ⟨r, h4, h5, h6, e⟩ | ⟨h4, ⟨_, e⟩ | ⟨dta, h5, _⟩⟩
        · rw [e]
          simp only
          have hlp : k.lastPos = c.pos + 1 ∧ k.last.pos = c.pos ∧ c.wants = some k.last.body := by
            rcases h.idle hb h0 k hc with hh | hh
            · rw [find_none hi (by simp only; omega)] at h6; cases h6
            · exact hh
          have hr := List.find?_some h6
          have hrm := Conn.consec_pos hi.consec r (List.mem_of_find?_eq_some h6)
          simp only [decide_eq_true_eq] at hr
          have hrp : r.pos = c.pos + 1 := by omega
          have hfl : flight srv c = r.data.lists := flight_next hb hc h0 h6
          have hi' : Conn.Inv { k with buf := k.buf.drop d } := Conn.inv_purge hi hd1 hd2
          have h0' := h.nonneg
          cases arrives with
          | true =>
            exact Keeps.get h hfl.symm hb rfl hi' (by omega) (by simp only; omega) rfl rfl rfl
          | false =>
            simp only [Bool.false_eq_true, if_false]
            have hf : flight srv { c with conn := some { k with buf := k.buf.drop d }, wants := some body } = flight srv c := by
              rw [hfl]
              refine flight_next (k := { k with buf := k.buf.drop d }) hb rfl h0 ?_
              simp only
              rw [hd3, List.find?_filter]
              rw [← h6]
              congr 1
              funext x
              simp only [Bool.and_eq_true, decide_eq_true_eq, ← Bool.decide_and]
              exact decide_eq_decide.2 ⟨fun h => h.2, fun h => ⟨by omega, h⟩⟩
            refine Keeps.same ⟨h.row, by simp [hi'], h.nonneg, (by simp [hb]), ?_, by rw [hf]; exact h.sub,
              by rw [hf]; exact h.told⟩ hf rfl rfl rfl
            intro _ _ k' hk'
            cases hk'
            exact Or.inr ⟨hlp.1, hlp.2.1, by simp only [h5]⟩
        · have hst : (Conn.step k ⟨c.pos, body⟩ none).2 = .failed := by rw [e]
          rw [e]
          simp only
          have hlp : k.lastPos = c.pos := by
            rcases h.idle hb h0 k hc with hh | ⟨hh1, hh2, hh3⟩
            · exact hh
            · exfalso
              have := hw h0 _ hh3
              rcases h4 with h4 | h4 | ⟨h4, _⟩
              · exact h0 h4
              · exact h4 this.symm
              · exact h4 hh2
          have hf : flight srv c = fun _ => none := flight_synced hb hc h0 hi (by omega)
          cases on with
          | true =>
            simp only [if_true, h0, decide_false]
            exact Keeps.read h hf rfl rfl rfl hi hst hlp h.nonneg rfl rfl rfl rfl
          | false =>
            simp only [Bool.false_eq_true, if_false]
            have hf' : flight srv { c with conn := some k, wants := some body, busy := some ⟨body, false, {}⟩ } =
                flight srv c := by rw [hf]; rfl
            refine Keeps.same ⟨h.row, by simp [hi], h.nonneg, ?_, ?_, by rw [hf']; exact h.sub,
              by rw [hf']; exact h.told⟩ hf' rfl rfl rfl
            · intro b hb; cases hb; exact ⟨k, rfl, hst, hlp, rfl⟩
            · intro hh; cases hh
        · cases h5

theorem finish_keeps {srv : E2EE.State} {c : Client} (h : CI srv c) {b : Busy} (hb : c.busy = some b) (arrives : Bool) :
    Keeps srv c srv (finish c b false arrives) := by
  obtain ⟨k, hc, hst, hlp, hw⟩ := h.busy b hb
  have hi := h.conn k hc
  have hfl : flight srv c = b.out.lists := flight_busy hb
  have h0 := h.nonneg
  unfold finish
  rw [hc]
  simp only [Bool.false_eq_true, if_false]
  have hne : ¬ (((⟨c.pos, b.body⟩ : Conn.Req Nat).pos ≠ 0 ∧ k.last.pos ≠ c.pos ∧ ∀ r ∈ k.buf, r.pos ≠ c.pos)) := by
    rintro ⟨g1, g2, g3⟩
    rcases Conn.step_cases hi ⟨c.pos, b.body⟩ none with ⟨e, _⟩ | ⟨h1, _⟩
    · rw [e] at hst; cases hst
    · rcases h1 with h1 | h1 | ⟨r, hr, h1⟩
      · exact g1 h1
      · exact g2 h1
      · exact g3 r hr h1
  rcases Conn.step_cases hi ⟨c.pos, b.body⟩ (some b.out) with ⟨e, h1, h2, h3⟩ | ⟨h1, h2, h3, d, hd1, hd2, hd3, hcase⟩
  · exact absurd ⟨h1, h2, h3⟩ hne
  · rcases hcase with ⟨r, _, _, h6, _⟩ | ⟨_, ⟨h5, _⟩ | ⟨dta, h5, e⟩⟩
    · rw [find_none hi (by simp only; omega)] at h6; cases h6
    · cases h5
    · have hi' := Conn.inv_step hi ⟨c.pos, b.body⟩ (some b.out)
      rw [e] at hi' ⊢
      rw [find_none hi (by simp only; omega)] at hi' ⊢
      cases h5
      simp only [Option.getD_none] at hi' ⊢
      cases arrives with
      | true =>
        exact Keeps.get h hfl.symm rfl rfl hi' (by simp only; omega) rfl rfl rfl rfl
      | false =>
        simp only [Bool.false_eq_true, if_false]
        by_cases hz : c.pos = 0
        · exact Keeps.sent h rfl (Or.inl hz) h.nonneg (by intro k' hk'; cases hk'; exact hi') rfl rfl rfl
        · have hf : flight srv { c with
              conn := some ⟨⟨c.pos, b.body⟩, k.buf.drop d ++ [⟨k.lastPos + 1, b.out⟩], k.lastPos + 1⟩, busy := none } =
              flight srv c := by
            rw [hfl]
            refine flight_next (r := ⟨k.lastPos + 1, b.out⟩) rfl rfl hz ?_
            simp only
            rw [List.find?_append, hd3]
            have : (k.buf.filter fun r => decide (c.pos ≤ r.pos)).find? (fun r => decide (c.pos < r.pos)) = none := by
              rw [List.find?_eq_none]
              intro r hr
              have := Conn.consec_pos hi.consec r (List.mem_filter.1 hr).1
              simp only [decide_eq_true_eq]; omega
            simp only [this, Option.none_or, List.find?_cons]
            rw [show decide (c.pos < k.lastPos + 1) = true from decide_eq_true (by omega)]
          refine Keeps.same ⟨h.row, (by intro k' hk'; cases hk'; exact hi'), h.nonneg, (by intro b hb; cases hb), ?_,
            by rw [hf]; exact h.sub, by rw [hf]; exact h.told⟩ hf rfl rfl rfl
          intro _ _ k' hk'
          cases hk'
          exact Or.inr ⟨by simp only; omega, rfl, hw⟩

/-! ### The whole -/

structure Ok (tok : Nat → String) (s : State) : Prop where
  ci : CI s.w.m.s.srv s.c
  toks : (s.w.lp.since = "" ∧ s.w.persisted = "" ∧ s.w.lp.lastStored = none ∧ ∀ u, s.c.due u = none ∧ s.c.last u = none) ∨
    ∃ n p, s.w.lp.since = tok n ∧ s.w.persisted = tok p ∧ p ≤ n ∧ n ≤ s.hs.length
  due : ∀ u x, s.c.due u = some x → lastOf u s.hs = some x ∧ Waiting tok s u x
  last : ∀ u x, s.c.last u = some x → lastOf u s.hs = some x ∧ (Ahead tok s u x ∨ view s.w.m.s.srv s.c u = some x)

/-- A step of the connection or the client. -/
theorem Ok.client {tok : Nat → String} {s : State} (h : Ok tok s) {srv' : E2EE.State} {c' : Client}
    (hk : Keeps s.w.m.s.srv s.c srv' c') :
    Ok tok { s with w := { s.w with m := { s.w.m with s := { s.w.m.s with srv := srv' } } }, c := c' } := by
  refine ⟨hk.ci, ?_, fun u x hx => ?_, fun u x hx => ?_⟩
  · rcases h.toks with ⟨h1, h2, h3, h4⟩ | hh
    · refine Or.inl ⟨h1, h2, h3, fun u => ⟨?_, by simp only [hk.last]; exact (h4 u).2⟩⟩
      cases hd : c'.due u with
      | none => rfl
      | some x => rw [(h4 u).1.symm.trans (hk.due u x hd).1]
    · exact Or.inr hh
  · obtain ⟨h1, h2⟩ := hk.due u x hx
    obtain ⟨h3, h4⟩ := h.due u x h1
    exact ⟨h3, h4.imp_right h2⟩
  · simp only [hk.last] at hx
    obtain ⟨h1, h2⟩ := h.last u x hx
    refine ⟨h1, h2.imp_right fun hv => ?_⟩
    rw [← hv]; exact hk.view u

/-- A write by the poller. -/
theorem CI.wrote {srv srv' : E2EE.State} {c : Client} {res : Resp} (h : CI srv c) (hw : Wrote srv srv' res) :
    CI srv' c ∧ flight srv' c = flight srv c := by
  obtain ⟨h1, h2, h3⟩ := hw
  have hf : flight srv' c = flight srv c := by unfold flight; rw [h2]
  exact ⟨⟨fun hr => (by rw [h1] at hr; cases hr), h.conn, h.nonneg, h.busy, h.idle, by rw [hf, h2]; exact h.sub,
    by rw [hf, h2]; exact h.told⟩, hf⟩

theorem toChanges_last {l : List (String × Change)} {res : Resp}
    (h : ∀ u, (u ∈ res.changed ↔ lastOf u l = some .changed) ∧ (u ∈ res.left ↔ lastOf u l = some .left)) (u : String) :
    E2EE.toChanges res.changed res.left u = lastOf u l := by
  obtain ⟨h1, h2⟩ := h u
  unfold E2EE.toChanges
  by_cases hl : u ∈ res.left
  · rw [if_pos hl, h2.1 hl]
  · rw [if_neg hl]
    by_cases hc : u ∈ res.changed
    · rw [if_pos hc, h1.1 hc]
    · rw [if_neg hc]
      cases hx : lastOf u l with
      | none => rfl
      | some x =>
        cases x with
        | changed => exact absurd (h1.2 hx) hc
        | left => exact absurd (h2.2 hx) hl

theorem ok_run {tok : Nat → String} (hinj : ∀ m n, tok m = tok n → m = n) (hne : ∀ n, tok n ≠ "") {user : String} {s : State}
    (h : Run tok user Mode.good s) : Ok tok s := by
  induction h with
  | start hs =>
    refine ⟨⟨fun _ => ⟨fun _ => rfl, fun _ => rfl⟩, by simp, by simp, by simp, by simp, fun u x h => h, fun u x h => Or.inl h⟩,
      Or.inl ⟨rfl, rfl, rfl, fun _ => ⟨rfl, rfl⟩⟩, by simp, by simp⟩
  | @change s u x _ ih =>
    by_cases h0 : s.w.lp.since = ""
    · simp only [if_pos h0]
      rcases ih.toks with ⟨h1, h2, h3, h4⟩ | ⟨n, p, h1, _⟩
      · exact ⟨ih.ci, Or.inl ⟨h1, h2, h3, h4⟩, fun v y hy => (by rw [(h4 v).1] at hy; cases hy),
          fun v y hy => (by rw [(h4 v).2] at hy; cases hy)⟩
      · exact absurd (h1.symm.trans h0) (hne n)
    · simp only [if_neg h0]
      obtain ⟨n, p, h1, h2, h3, h4⟩ : ∃ n p, s.w.lp.since = tok n ∧ s.w.persisted = tok p ∧ p ≤ n ∧ n ≤ s.hs.length := by
        rcases ih.toks with ⟨h1, _⟩ | hh
        · exact absurd h1 h0
        · exact hh
      have hdrop : (s.hs ++ [(u, x)]).drop n = s.hs.drop n ++ [(u, x)] := List.drop_append_of_le_length h4
      have hci : CI s.w.m.s.srv { s.c with
          due := fun v => if v = u then some x else s.c.due v
          last := fun v => if v = u then some x else s.c.last v } :=
        ⟨ih.ci.row, ih.ci.conn, ih.ci.nonneg, ih.ci.busy, ih.ci.idle, ih.ci.sub, ih.ci.told⟩
      have hlast : ∀ v y, (if v = u then some x else lastOf v s.hs) = some y → lastOf v (s.hs ++ [(u, x)]) = some y := by
        intro v y hy
        rw [lastOf_append, lastOf_single]
        by_cases hv : v = u
        · rw [if_pos hv] at hy ⊢; rw [hy]; rfl
        · rw [if_neg hv] at hy ⊢; exact hy
      have hahead : ∀ v y, v ≠ u → Ahead tok s v y → ∀ c', Ahead tok { s with hs := s.hs ++ [(u, x)], c := c' } v y := by
        rintro v y hv ⟨m, hm, hy⟩ c'
        have := hinj _ _ (hm.symm.trans h1)
        subst this
        refine ⟨m, hm, ?_⟩
        simp only [hdrop]
        rw [lastOf_append, lastOf_single, if_neg hv]; exact hy
      have hnew : ∀ c', Ahead tok { s with hs := s.hs ++ [(u, x)], c := c' } u x := by
        intro c'
        refine ⟨n, h1, ?_⟩
        simp only [hdrop]
        rw [lastOf_append, lastOf_single, if_pos rfl]; rfl
      refine ⟨hci, Or.inr ⟨n, p, h1, h2, h3, by simp only [List.length_append]; omega⟩, fun v y hy => ?_, fun v y hy => ?_⟩
      · simp only at hy
        by_cases hv : v = u
        · subst hv
          rw [if_pos rfl] at hy
          cases hy
          exact ⟨hlast _ _ (if_pos rfl), Or.inl (hnew _)⟩
        · rw [if_neg hv] at hy
          obtain ⟨h5, h6⟩ := ih.due v y hy
          refine ⟨hlast _ _ (by rw [if_neg hv]; exact h5), ?_⟩
          rcases h6 with h6 | h6
          · exact Or.inl (hahead v y hv h6 _)
          · exact Or.inr h6
      · simp only at hy
        by_cases hv : v = u
        · subst hv
          rw [if_pos rfl] at hy
          cases hy
          exact ⟨hlast _ _ (if_pos rfl), Or.inl (hnew _)⟩
        · rw [if_neg hv] at hy
          obtain ⟨h5, h6⟩ := ih.last v y hy
          refine ⟨hlast _ _ (by rw [if_neg hv]; exact h5), ?_⟩
          rcases h6 with h6 | h6
          · exact Or.inl (hahead v y hv h6 _)
          · exact Or.inr h6
  | fate next _ ih => exact ⟨ih.ci, ih.toks, ih.due, ih.last⟩
  | @turn s t _ hok ha ih =>
    rcases poll_effect user s.w t with ⟨h1, h2, h3, h4⟩ | ⟨res, hres, hw, hadv⟩
    · have hA : ∀ u x, Ahead tok s u x → Ahead tok { s with w := (Poller.poll recv user s.w t).1 } u x := by
        rintro u x ⟨n, hn, hx⟩; exact ⟨n, by rw [← hn]; exact h2, hx⟩
      refine ⟨by rw [h1]; exact ih.ci, by rw [h2, h3, h4]; exact ih.toks, fun u x hx => ?_, fun u x hx => ?_⟩
      · obtain ⟨h5, h6⟩ := ih.due u x hx
        refine ⟨h5, h6.imp (hA u x) fun h => ?_⟩
        simp only [h1]; exact h
      · obtain ⟨h5, h6⟩ := ih.last u x hx
        refine ⟨h5, h6.imp (hA u x) fun h => ?_⟩
        simp only [h1]; exact h
    · -- the tables
      have hci : CI (Poller.poll recv user s.w t).1.m.s.srv s.c ∧
          flight (Poller.poll recv user s.w t).1.m.s.srv s.c = flight s.w.m.s.srv s.c := by
        rcases hw with hw | ⟨hw, _⟩
        · exact ih.ci.wrote hw
        · rw [hw]; exact ⟨ih.ci, rfl⟩
      have hnew : ∀ u, (Poller.poll recv user s.w t).1.m.s.srv.new u =
          (E2EE.toChanges res.changed res.left u).or (s.w.m.s.srv.new u) := by
        intro u
        rcases hw with ⟨_, _, hw⟩ | ⟨hw, h5, h6⟩
        · exact hw u
        · rw [hw, h5, h6]; rfl
      rcases ih.toks with ⟨h1, h2, h3, h4⟩ | ⟨n, p, h1, h2, h3, h4⟩
      · -- nothing was promised before the first token
        refine ⟨hci.1, ?_, fun v y hy => (by rw [(h4 v).1] at hy; cases hy), fun v y hy => (by rw [(h4 v).2] at hy; cases hy)⟩
        rcases hadv with ⟨g1, g2, g3⟩ | ⟨g1, _, g3⟩
        · exact Or.inl ⟨by rw [g1]; exact h1, by rw [g2]; exact h2, by rw [g3]; exact h3, h4⟩
        · rcases ha res hres with ⟨_, _, _, m, hm, hm'⟩ | ⟨n, _, hn, _⟩
          · exact Or.inr ⟨m, m, by rw [g1]; exact hm', by rw [g3 hok h3]; exact hm', Nat.le_refl _, hm⟩
          · exact absurd (hn.symm.trans h1) (hne n)
      · obtain ⟨m, hm1, hm2, hm3, hm4⟩ : ∃ m, n ≤ m ∧ m ≤ s.hs.length ∧ res.nextBatch = tok m ∧
            ∀ u, E2EE.toChanges res.changed res.left u = lastOf u ((s.hs.take m).drop n) := by
          rcases ha res hres with ⟨h0, _⟩ | ⟨n', m, hn, h5, h6, h7, h8⟩
          · exact absurd (h1.symm.trans h0) (hne n)
          · have := hinj _ _ (hn.symm.trans h1)
            subst this
            exact ⟨m, h5, h6, h7, toChanges_last h8⟩
        -- the token afterwards
        have hsince : (Poller.poll recv user s.w t).1.lp.since = tok n ∨ (Poller.poll recv user s.w t).1.lp.since = tok m := by
          rcases hadv with ⟨g1, _⟩ | ⟨g1, _⟩
          · exact Or.inl (g1.trans h1)
          · exact Or.inr (g1.trans hm3)
        -- a change not fetched before is fetched now or still to be
        have hstep : ∀ u x, Ahead tok s u x → Ahead tok { s with w := (Poller.poll recv user s.w t).1 } u x ∨
            (Poller.poll recv user s.w t).1.m.s.srv.new u = some x := by
          rintro u x ⟨n', hn', hx⟩
          have := hinj _ _ (hn'.symm.trans h1)
          subst this
          rcases hsince with hs | hs
          · exact Or.inl ⟨n', hs, hx⟩
          · rw [lastOf_split u s.hs hm1] at hx
            cases hl : lastOf u (s.hs.drop m) with
            | some y => rw [hl] at hx; cases hx; exact Or.inl ⟨m, hs, hl⟩
            | none =>
              rw [hl, Option.none_or] at hx
              exact Or.inr (by rw [hnew, hm4, hx]; rfl)
        -- a change fetched before is not touched
        have hkeep : ∀ u x, lastOf u s.hs = some x → ¬ Ahead tok s u x →
            (Poller.poll recv user s.w t).1.m.s.srv.new u = s.w.m.s.srv.new u := by
          intro u x hx hn
          rw [hnew, hm4]
          cases hl : lastOf u ((s.hs.take m).drop n) with
          | none => rfl
          | some y =>
            exfalso
            apply hn
            refine ⟨n, h1, ?_⟩
            have hz : ∃ z, lastOf u (s.hs.drop n) = some z := by
              rw [lastOf_split u s.hs hm1, hl]
              cases lastOf u (s.hs.drop m) with
              | none => exact ⟨y, rfl⟩
              | some z => exact ⟨z, rfl⟩
            obtain ⟨z, hz⟩ := hz
            rw [hz, ← hx]
            exact (lastOf_drop (Nat.zero_le n) hz).symm
        refine ⟨hci.1, ?_, fun u x hx => ?_, fun u x hx => ?_⟩
        · right
          rcases hadv with ⟨g1, g2, _⟩ | ⟨g1, g2, _⟩
          · exact ⟨n, p, g1.trans h1, g2.trans h2, h3, h4⟩
          · rcases g2 with g2 | g2
            · exact ⟨m, p, g1.trans hm3, g2.trans h2, by omega, hm2⟩
            · exact ⟨m, m, g1.trans hm3, g2.trans hm3, Nat.le_refl _, hm2⟩
        · obtain ⟨h5, h6⟩ := ih.due u x hx
          refine ⟨h5, ?_⟩
          by_cases hA : Ahead tok s u x
          · rcases hstep u x hA with h | h
            · exact Or.inl h
            · exact Or.inr (Or.inl h)
          · rcases h6 with h6 | h6 | h6
            · exact absurd h6 hA
            · exact Or.inr (Or.inl ((hkeep u x h5 hA).trans h6))
            · exact Or.inr (Or.inr (by simp only [hci.2]; exact h6))
        · obtain ⟨h5, h6⟩ := ih.last u x hx
          refine ⟨h5, ?_⟩
          by_cases hA : Ahead tok s u x
          · rcases hstep u x hA with h | h
            · exact Or.inl h
            · exact Or.inr (by simp only [view, h]; rfl)
          · rcases h6 with h6 | h6
            · exact absurd h6 hA
            · refine Or.inr ?_
              simp only [view, hkeep u x h5 hA, hci.2]
              exact h6
  | @restart s b _ ih =>
    have hA : ∀ u x, Ahead tok s u x → Ahead tok { s with w := Poller.restart s.w b } u x := by
      rintro u x ⟨n, hn, hx⟩
      rcases ih.toks with ⟨h1, _⟩ | ⟨n', p, h1, h2, h3, h4⟩
      · exact absurd (hn.symm.trans h1) (hne n)
      · have := hinj _ _ (hn.symm.trans h1)
        subst this
        exact ⟨p, h2, lastOf_drop h3 hx⟩
    refine ⟨ih.ci, ?_, fun u x hx => ?_, fun u x hx => ?_⟩
    · rcases ih.toks with ⟨h1, h2, h3, h4⟩ | ⟨n', p, h1, h2, h3, h4⟩
      · exact Or.inl ⟨h2, h2, rfl, h4⟩
      · exact Or.inr ⟨p, p, h2, h2, Nat.le_refl _, Nat.le_trans h3 h4⟩
    · obtain ⟨h5, h6⟩ := ih.due u x hx
      exact ⟨h5, h6.imp_left (hA u x)⟩
    · obtain ⟨h5, h6⟩ := ih.last u x hx
      exact ⟨h5, h6.imp_left (hA u x)⟩
  | @ask s body on arrives _ hb hw hl ih =>
    exact ih.client (begin_keeps ih.ci body on arrives hb (hw (fun h => h)) (hl (fun h => h)))
  | @wake s b _ hb hon he ih =>
    obtain ⟨k, hc, hst, hlp, hww⟩ := ih.ci.busy b hb
    refine ih.client (Keeps.read ih.ci (b := { b with out := (E2EE.read s.w.m.s.srv false).2 }) (k := k) ?_ rfl rfl hc
      (ih.ci.conn k hc) hst hlp ih.ci.nonneg hww rfl rfl rfl)
    rw [flight_busy hb]
    funext u; exact he.2.2 u
  | @done s b fails arrives _ hb hf ih =>
    have := hf (fun h => h)
    subst this
    exact ih.client (srv' := s.w.m.s.srv) (finish_keeps ih.ci hb arrives)
  | @crash s _ ih =>
    exact ih.client (srv' := s.w.m.s.srv) (Keeps.sent ih.ci rfl (Or.inr rfl) ih.ci.nonneg (by simp) rfl rfl rfl)

/-! ### The property -/

variable {tok : Nat → String} {user : String}

/-- No change of a device list is lost between the homeserver and the client: one the client has not been told of since is
ahead of the poller, or stored as new, or on its way to the client. Any polls, database errors, restarts of the poller and the
proxy, lost responses and reconnections, in any order. Missing from C119: the modes of `Mode.good`; without any one of them it
is false (`C119_violated_*`). -/
theorem C119_partial (hinj : ∀ m n, tok m = tok n → m = n) (hne : ∀ n, tok n ≠ "") : Kept tok user Mode.good :=
  fun _ h u x hx => ((ok_run hinj hne h).due u x hx).2

/-- Once there is nothing on its way, the client has been told of everything, and what it was told last of each user is right. -/
theorem C119_caught_up_partial (hinj : ∀ m n, tok m = tok n → m = n) (hne : ∀ n, tok n ≠ "") {s : State}
    (h : Run tok user Mode.good s) (hs : s.w.lp.since = tok s.hs.length) (u : String) (hn : s.w.m.s.srv.new u = none)
    (hf : flight s.w.m.s.srv s.c u = none) :
    s.c.due u = none ∧ ∀ x, s.c.last u = some x → lastOf u s.hs = some x ∧ s.c.told u = some x := by
  have hok := ok_run hinj hne h
  have hA : ∀ x, ¬ Ahead tok s u x := by
    rintro x ⟨n, h1, h2⟩
    have := hinj _ _ (h1.symm.trans hs)
    subst this
    rw [List.drop_length] at h2
    cases h2
  refine ⟨?_, fun x hx => ?_⟩
  · cases hd : s.c.due u with
    | none => rfl
    | some x =>
      rcases (hok.due u x hd).2 with h1 | h1 | h1
      · exact absurd h1 (hA x)
      · rw [hn] at h1; cases h1
      · rw [hf] at h1; cases h1
  · obtain ⟨h1, h2⟩ := hok.last u x hx
    refine ⟨h1, ?_⟩
    rcases h2 with h2 | h2
    · exact absurd h2 (hA x)
    · simp only [view, hn, hf, Option.none_or] at h2
      exact h2

end Verif.DeviceListFlow
