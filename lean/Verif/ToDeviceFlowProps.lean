import Verif.ToDeviceFlow
import Verif.ToDeviceProps
import Verif.PollerState
/-! C117: to-device messages from the homeserver to the client. -/
namespace Verif.ToDeviceFlow
open Verif.Poller (Call Err World Turn Reply Resp Rcv)
open Verif.ToDevice (Msg Sys Row)

/-! ### Specification -/

/-- Not a key request nor the cancellation of one: those may be dropped (C35). -/
def plain (m : Msg) : Bool := m.type ≠ "m.room_key_request"

/-- The plain messages of a part of the homeserver's queue. -/
def queued (dec : String → Msg) (l : List String) : List Msg := (l.map dec).filter plain

/-- The plain messages of some rows. -/
def msgs (l : List Row) : List Msg := (l.map (·.msg)).filter plain

/-- Writing the token never fails. -/
def Mode.stored : Mode := ⟨fun t => t.persistOk = true, True⟩

/-- Writing the token never fails, and the client and the proxy keep their state. -/
def Mode.steady : Mode := ⟨fun t => t.persistOk = true, False⟩

/-! ### The table -/

theorem msgs_append (a b : List Row) : msgs (a ++ b) = msgs a ++ msgs b := by simp [msgs]

theorem plain_key {m : Msg} (h : plain m = true) : ToDevice.key m = none := by
  simp only [plain, ne_eq, decide_not, Bool.not_eq_true', decide_eq_false_iff_not] at h
  rw [ToDevice.key, if_neg h]

theorem plain_notCancelled {s : ToDevice.State} {cs : List String} {r : Row} (h : plain r.msg = true) :
    ToDevice.isCancelled s cs r = false := by
  rw [ToDevice.isCancelled, plain_key h]

/-- The rows inserted. -/
theorem insert_rows (s : ToDevice.State) (k : Nat) (ms : List Msg) :
    ∃ new, (ToDevice.insert s k ms).rows = s.rows.filter (fun r => !ToDevice.isCancelled s (ToDevice.cancels ms) r) ++ new ∧
      msgs new = ms.filter plain ∧ ∀ r ∈ new, s.seq < r.pos := by
  refine ⟨_, rfl, ?_, fun r hr => ?_⟩
  · unfold msgs
    rw [ToDevice.number_msgs]
    split
    · rw [List.filter_filter]
      refine List.filter_congr fun x _ => ?_
      cases hx : plain x with
      | false => rfl
      | true => rw [ToDevice.keep, plain_key hx]; rfl
    · rfl
  · have := ToDevice.number_mem hr; omega

theorem insert_log {s : Sys} (h : ToDevice.Inv s) (k : Nat) (ms : List Msg) :
    ∃ new, (ToDevice.sysStep s (.insert k ms)).srv.rows =
        s.srv.rows.filter (fun r => !ToDevice.isCancelled s.srv (ToDevice.cancels ms) r) ++ new ∧
      (ToDevice.sysStep s (.insert k ms)).log = s.log ++ new ∧ msgs new = ms.filter plain ∧
      ∀ r ∈ new, s.srv.seq < r.pos := by
  obtain ⟨new, h1, h2, h3⟩ := insert_rows s.srv k ms
  refine ⟨new, h1, ?_, h2, h3⟩
  simp only [ToDevice.sysStep]
  rw [h1, List.filter_append]
  have ha : (s.srv.rows.filter (fun r => !ToDevice.isCancelled s.srv (ToDevice.cancels ms) r)).filter
      (fun r => decide (s.srv.seq < r.pos)) = [] := by
    refine List.filter_eq_nil_iff.2 fun r hr => ?_
    have := (h.sorted.2 r (List.mem_filter.1 hr).1).2
    simp only [decide_eq_true_eq]; omega
  have hb : new.filter (fun r => decide (s.srv.seq < r.pos)) = new :=
    List.filter_eq_self.2 fun r hr => by simpa using h3 r hr
  rw [ha, hb, List.nil_append]

theorem gone_key (evs : List ToDevice.Ev) : ∀ r ∈ (ToDevice.sysRun {} evs).gone, plain r.msg = false := by
  have : ∀ (evs : List ToDevice.Ev) (s : Sys), (∀ r ∈ s.gone, plain r.msg = false) →
      ∀ r ∈ (ToDevice.sysRun s evs).gone, plain r.msg = false := by
    intro evs
    induction evs with
    | nil => exact fun _ h => h
    | cons e es ih =>
      intro s h
      refine ih _ ?_
      cases e with
      | insert k ms =>
        intro r hr
        simp only [ToDevice.sysStep, List.mem_append, List.mem_filter] at hr
        rcases hr with hr | hr
        · exact h r hr
        · cases hp : plain r.msg with
          | false => rfl
          | true => rw [plain_notCancelled hp] at hr; exact absurd hr.2 (by simp)
      | poll l b =>
        cases b <;> exact h
      | known b => exact h
      | forget => exact h
  exact this evs {} (by simp)

theorem sysRun_snoc (evs : List ToDevice.Ev) (e : ToDevice.Ev) :
    ToDevice.sysRun {} (evs ++ [e]) = ToDevice.sysStep (ToDevice.sysRun {} evs) e := by simp [ToDevice.sysRun]

theorem poll_log (s : Sys) (l : Nat) (b : Bool) : (ToDevice.sysStep s (.poll l b)).log = s.log := by cases b <;> rfl

/-! ### One turn of the poller -/

theorem recv_other (dec : String → Msg) (s : Db) (c : Call) (h : Poller.NotToDevice c) : (recv dec s c).1.sys = s.sys := by
  unfold recv
  cases c with
  | toDevice l => exact absurd rfl (h l)
  | _ => rfl

theorem recv_toDevice (dec : String → Msg) (s : Db) (l : List String) :
    ((recv dec s (.toDevice l)).2 = .other ∧ (recv dec s (.toDevice l)).1.sys = s.sys) ∨
    ((recv dec s (.toDevice l)).2 = .nil ∧
      ∃ k, (recv dec s (.toDevice l)).1.sys = ToDevice.sysStep s.sys (.insert k (l.map dec))) := by
  unfold recv
  by_cases he : s.fate.1 = .nil
  · simp only [if_pos he]
    exact Or.inr ⟨trivial, _, rfl⟩
  · simp only [if_neg he]
    exact Or.inl ⟨trivial, trivial⟩

/-- A turn leaves everything, or takes the answer: the messages are inserted once and the token is that of the answer. -/
theorem poll_effect (dec : String → Msg) (user : String) (w : World Db) (t : Turn) :
    let w' := (Poller.poll (recv dec) user w t).1
    (w'.m.s.sys = w.m.s.sys ∧ w'.lp.since = w.lp.since ∧ w'.persisted = w.persisted) ∨
    ∃ res, t.reply = .ok res ∧ w'.lp.since = res.nextBatch ∧
      (w'.persisted = w.persisted ∨ w'.persisted = res.nextBatch) ∧
      (t.persistOk = true → res.toDevice ≠ [] → w'.persisted = res.nextBatch) ∧
      ((res.toDevice = [] ∧ w'.m.s.sys = w.m.s.sys) ∨
        ∃ k, w'.m.s.sys = ToDevice.sysStep w.m.s.sys (.insert k (res.toDevice.map dec))) := by
  intro w'
  simp only [show w' = (Poller.poll (recv dec) user w t).1 from rfl, Poller.poll]
  split
  · exact Or.inl ⟨rfl, rfl, rfl⟩
  split
  · exact Or.inl ⟨rfl, rfl, rfl⟩
  split
  · exact Or.inl ⟨rfl, rfl, rfl⟩
  split
  · split <;> exact Or.inl ⟨rfl, rfl, rfl⟩
  · rename_i res hres
    obtain ⟨m1, hm, hs⟩ := Poller.sections_made (recv dec) user w.m w.lp.mem res
    have hm1 : m1.s.sys = w.m.s.sys :=
      hm.keep (P := fun s => s.sys = w.m.s.sys) (fun s c hc h => (recv_other dec s c hc).trans h) rfl
    rcases hs with ⟨hs1, hs2⟩ | ⟨hs1, hs2⟩
    · rw [if_neg (by rw [hs2]; simp)]
      exact Or.inl ⟨by simp only [hs1, hm1], rfl, rfl⟩
    · unfold Poller.parseToDevice at hs1 hs2
      by_cases hl : res.toDevice.length = 0
      · have hnil := List.length_eq_zero_iff.1 hl
        rw [if_pos hl] at hs1 hs2
        rw [if_pos (by rw [hs2]; rfl)]
        refine Or.inr ⟨res, hres, rfl, ?_, fun _ h => absurd hnil h, Or.inl ⟨hnil, by simp only [hs1, hm1]⟩⟩
        simp only [Poller.advance]
        split
        · exact Or.inr rfl
        · exact Or.inl rfl
      · rw [if_neg hl] at hs1 hs2
        rcases recv_toDevice dec m1.s res.toDevice with ⟨he, hsys⟩ | ⟨he, k, hsys⟩
        · have : (Poller.call (recv dec) m1 (.toDevice res.toDevice)).2 = .other := by
            simp [Poller.call, Call.silent, he]
          rw [this] at hs2
          rw [if_neg (by rw [hs2]; simp [Poller.shouldRetry])]
          exact Or.inl ⟨by rw [← hm1, ← hsys]; simp only [hs1]; rfl, rfl, rfl⟩
        · have : (Poller.call (recv dec) m1 (.toDevice res.toDevice)).2 = .nil := by
            simp [Poller.call, Call.silent, he]
          rw [this] at hs2
          rw [if_pos (by rw [hs2]; rfl)]
          have hst : decide (res.toDevice.length > 0) = true := decide_eq_true (by omega)
          refine Or.inr ⟨res, hres, rfl, ?_, fun hp _ => ?_, Or.inr ⟨k, by rw [← hm1, ← hsys]; simp only [hs1]; rfl⟩⟩
          · simp only [Poller.advance]
            split
            · exact Or.inr rfl
            · exact Or.inl rfl
          · simp [Poller.advance, hst, hp]

/-! ### At least once -/

variable {dec : String → Msg} {tok : Nat → String} {user : String}

/-- The queue up to `n` was stored, in order. -/
def Good (dec : String → Msg) (s : State) (n : Nat) : Prop :=
  n ≤ s.sent.length ∧ (queued dec (s.sent.take n)).Sublist (msgs s.w.m.s.sys.log)

def GoodTok (dec : String → Msg) (tok : Nat → String) (s : State) (t : String) : Prop :=
  t = "" ∨ ∃ n, t = tok n ∧ Good dec s n

structure Ok (dec : String → Msg) (tok : Nat → String) (s : State) : Prop where
  evs : ∃ evs, s.w.m.s.sys = ToDevice.sysRun {} evs
  del : Good dec s s.deleted
  since : GoodTok dec tok s s.w.lp.since
  pers : GoodTok dec tok s s.w.persisted

theorem Good.mono {s s' : State} {n : Nat} (h : Good dec s n) (hs : ∃ l, s'.sent = s.sent ++ l)
    (hl : ∃ l, s'.w.m.s.sys.log = s.w.m.s.sys.log ++ l) : Good dec s' n := by
  obtain ⟨l, hl⟩ := hl
  obtain ⟨l', hs⟩ := hs
  refine ⟨by rw [hs, List.length_append]; exact Nat.le_trans h.1 (Nat.le_add_right _ _), ?_⟩
  rw [hs, hl, List.take_append_of_le_length h.1, msgs_append]
  exact h.2.trans (List.sublist_append_left _ _)

theorem GoodTok.mono {s s' : State} {t : String} (h : GoodTok dec tok s t) (hs : ∃ l, s'.sent = s.sent ++ l)
    (hl : ∃ l, s'.w.m.s.sys.log = s.w.m.s.sys.log ++ l) : GoodTok dec tok s' t := by
  rcases h with h | ⟨n, h1, h2⟩
  · exact Or.inl h
  · exact Or.inr ⟨n, h1, h2.mono hs hl⟩

theorem split_at (l : List String) {a m : Nat} (h : a ≤ m) : l.take m = l.take a ++ (l.take m).drop a := by
  conv => lhs; rw [← List.take_append_drop a (l.take m)]
  rw [List.take_take, Nat.min_eq_left h]

theorem queued_append (a b : List String) : queued dec (a ++ b) = queued dec a ++ queued dec b := by simp [queued]

theorem GoodTok.at {s : State} {t : String} {n : Nat} (hinj : ∀ a b, tok a = tok b → a = b) (hne : ∀ a, tok a ≠ "")
    (hd : Good dec s s.deleted) (h : GoodTok dec tok s t) (ha : At tok s.deleted t n) : Good dec s n := by
  cases ha with
  | token n =>
    rcases h with h | ⟨k, h1, h2⟩
    · exact absurd h (hne _)
    · rw [hinj _ _ h1]; exact h2
  | none => exact hd

theorem ok_run (hinj : ∀ a b, tok a = tok b → a = b) (hne : ∀ a, tok a ≠ "") {mode : Mode} {s : State}
    (h : Run dec tok user mode s) : Ok dec tok s := by
  induction h with
  | start sent => exact ⟨⟨[], rfl⟩, ⟨Nat.zero_le _, by simp [queued]⟩, Or.inl rfl, Or.inl rfl⟩
  | @send s m _ ih =>
    have hs : ∃ l, s.sent ++ [m] = s.sent ++ l := ⟨[m], rfl⟩
    have hl : ∀ x : List Row, ∃ l, x = x ++ l := fun x => ⟨[], by simp⟩
    exact ⟨ih.evs, ih.del.mono hs (hl _), ih.since.mono hs (hl _), ih.pers.mono hs (hl _)⟩
  | fate next _ ih => exact ⟨ih.evs, ih.del, ih.since, ih.pers⟩
  | restart b _ ih => exact ⟨ih.evs, ih.del, ih.pers, ih.pers⟩
  | @client s l b _ ih =>
    obtain ⟨evs, he⟩ := ih.evs
    have hs : ∀ x : List String, ∃ l, x = x ++ l := fun x => ⟨[], by simp⟩
    have hl : ∃ x, (ToDevice.sysStep s.w.m.s.sys (.poll l b)).log = s.w.m.s.sys.log ++ x :=
      ⟨[], by rw [poll_log]; simp⟩
    refine ⟨⟨evs ++ [.poll l b], ?_⟩, ih.del.mono (hs _) hl, ih.since.mono (hs _) hl, ih.pers.mono (hs _) hl⟩
    rw [sysRun_snoc, ← he]
  | @known s b _ _ ih =>
    obtain ⟨evs, he⟩ := ih.evs
    refine ⟨⟨evs ++ [.known b], ?_⟩, ih.del, ih.since, ih.pers⟩
    rw [sysRun_snoc, ← he]
  | @forget s _ _ ih =>
    obtain ⟨evs, he⟩ := ih.evs
    refine ⟨⟨evs ++ [.forget], ?_⟩, ih.del, ih.since, ih.pers⟩
    rw [sysRun_snoc, ← he]
  | @turn s t n del _ hok hn hd ha ih =>
    obtain ⟨evs, he⟩ := ih.evs
    have hs : ∀ x : List String, ∃ l, x = x ++ l := fun x => ⟨[], by simp⟩
    have hgn := ih.since.at hinj hne ih.del hn
    have hmax : ∀ d, d ≤ max n s.deleted → Good dec s d := by
      intro d hle
      have hm : Good dec s (max n s.deleted) := by
        by_cases hc : n ≤ s.deleted
        · rw [Nat.max_eq_right hc]; exact ih.del
        · rw [Nat.max_eq_left (by omega)]; exact hgn
      refine ⟨Nat.le_trans hle hm.1, List.Sublist.trans ?_ hm.2⟩
      rw [split_at s.sent hle, queued_append]
      exact List.sublist_append_left _ _
    rcases poll_effect dec user s.w t with ⟨h1, h2, h3⟩ | ⟨res, hr, h2, h3, _, h4⟩
    · have hl : ∃ x, (Poller.poll (recv dec) user s.w t).1.m.s.sys.log = s.w.m.s.sys.log ++ x := ⟨[], by rw [h1]; simp⟩
      refine ⟨⟨evs, by rw [← he]; exact h1⟩, (hmax del hd.2).mono (hs _) hl, ?_, ?_⟩
      · show GoodTok dec tok _ (Poller.poll (recv dec) user s.w t).1.lp.since
        rw [h2]; exact ih.since.mono (hs _) hl
      · show GoodTok dec tok _ (Poller.poll (recv dec) user s.w t).1.persisted
        rw [h3]; exact ih.pers.mono (hs _) hl
    · obtain ⟨m, hm1, hm2, hm3, hm4⟩ := ha res hr
      have hinv : ToDevice.Inv s.w.m.s.sys := by rw [he]; exact ToDevice.inv_run evs {} ToDevice.inv_init
      obtain ⟨new, hnew, hmsgs⟩ : ∃ new, (Poller.poll (recv dec) user s.w t).1.m.s.sys.log = s.w.m.s.sys.log ++ new ∧
          msgs new = queued dec res.toDevice := by
        rcases h4 with ⟨h4, h5⟩ | ⟨k, h5⟩
        · exact ⟨[], by rw [h5]; simp, by rw [h4]; rfl⟩
        · obtain ⟨new, _, g2, g3, _⟩ := insert_log hinv k (res.toDevice.map dec)
          exact ⟨new, by rw [h5, g2], g3⟩
      have hl : ∃ x, (Poller.poll (recv dec) user s.w t).1.m.s.sys.log = s.w.m.s.sys.log ++ x := ⟨new, hnew⟩
      have hgood : Good dec { s with deleted := del, w := (Poller.poll (recv dec) user s.w t).1 } m := by
        refine ⟨hm2, ?_⟩
        show (queued dec (s.sent.take m)).Sublist (msgs (Poller.poll (recv dec) user s.w t).1.m.s.sys.log)
        rw [hnew, msgs_append, hmsgs, split_at s.sent hm1, queued_append, hm4]
        exact (hmax _ (Nat.le_refl _)).2.append (List.Sublist.refl _)
      refine ⟨?_, (hmax del hd.2).mono (hs _) hl, ?_, ?_⟩
      · rcases h4 with ⟨_, h5⟩ | ⟨k, h5⟩
        · exact ⟨evs, by rw [← he]; exact h5⟩
        · exact ⟨evs ++ [.insert k (res.toDevice.map dec)], by rw [sysRun_snoc, ← he]; exact h5⟩
      · show GoodTok dec tok _ (Poller.poll (recv dec) user s.w t).1.lp.since
        rw [h2, hm3]; exact Or.inr ⟨m, rfl, hgood⟩
      · show GoodTok dec tok _ (Poller.poll (recv dec) user s.w t).1.persisted
        rcases h3 with h3 | h3
        · rw [h3]; exact ih.pers.mono (hs _) hl
        · rw [h3, hm3]; exact Or.inr ⟨m, rfl, hgood⟩

/-- C117 (partial: key requests and their cancellations excepted), nothing is lost: whatever fails, and whenever the poller,
the proxy or the client restarts, the queue up to some place has been stored in order; everything beyond is still at the
homeserver and beyond both tokens of the poller, so it is in the next answers; and what was stored was received by the
client or is waiting beyond its position. -/
theorem C117_partial (hinj : ∀ a b, tok a = tok b → a = b) (hne : ∀ a, tok a ≠ "") {s : State}
    (h : Run dec tok user .any s) :
    (∃ k, s.deleted ≤ k ∧ k ≤ s.sent.length ∧ (queued dec (s.sent.take k)).Sublist (msgs s.w.m.s.sys.log) ∧
      (∀ n, At tok s.deleted s.w.lp.since n ∨ At tok s.deleted s.w.persisted n → n ≤ k)) ∧
    ∀ r ∈ s.w.m.s.sys.log, plain r.msg = true →
      r ∈ s.w.m.s.sys.got ∨ (r ∈ s.w.m.s.sys.srv.rows ∧ s.w.m.s.sys.cursor.getD 0 < r.pos) := by
  have hI := ok_run hinj hne h
  obtain ⟨evs, he⟩ := hI.evs
  refine ⟨?_, fun r hr hp => ?_⟩
  · -- the largest of the three places
    have hall : ∀ n, At tok s.deleted s.w.lp.since n ∨ At tok s.deleted s.w.persisted n → Good dec s n := by
      intro n hn
      rcases hn with hn | hn
      · exact hI.since.at hinj hne hI.del hn
      · exact hI.pers.at hinj hne hI.del hn
    have hmax : ∀ a b, Good dec s a → Good dec s b → Good dec s (max a b) := by
      intro a b ha hb
      by_cases hc : a ≤ b
      · rw [Nat.max_eq_right hc]; exact hb
      · rw [Nat.max_eq_left (by omega)]; exact ha
    have hone : ∀ t, GoodTok dec tok s t → ∃ k, Good dec s k ∧ ∀ n, At tok s.deleted t n → n ≤ max k s.deleted := by
      intro t ht
      rcases ht with rfl | ⟨k, rfl, hk⟩
      · refine ⟨s.deleted, hI.del, fun n hn => ?_⟩
        generalize he : "" = e at hn
        cases hn with
        | token => exact absurd he.symm (hne _)
        | none => omega
      · refine ⟨k, hk, fun n hn => ?_⟩
        generalize he : tok k = e at hn
        cases hn with
        | token => have := hinj _ _ he; omega
        | none => omega
    obtain ⟨k1, hk1, hk1'⟩ := hone _ hI.since
    obtain ⟨k2, hk2, hk2'⟩ := hone _ hI.pers
    have hg := hmax _ _ (hmax _ _ hk1 hk2) hI.del
    refine ⟨max (max k1 k2) s.deleted, by omega, hg.1, hg.2, ?_⟩
    rintro n (hn | hn)
    · have := hk1' n hn; omega
    · have := hk2' n hn; omega
  · have := ToDevice.C34_never_lost evs r (by rw [← he]; exact hr)
    rw [← he] at this
    rcases this with h' | h' | h'
    · exact Or.inl h'
    · have := gone_key evs r (by rw [← he]; exact h')
      rw [hp] at this; cases this
    · exact Or.inr h'

/-- C117, for one message: it was received, or waits for the client, or is at the homeserver and will be in the answer to the
poller's requests, also after a restart. -/
theorem C117_message_partial (hinj : ∀ a b, tok a = tok b → a = b) (hne : ∀ a, tok a ≠ "") {s : State}
    (h : Run dec tok user .any s) (i : Nat) (x : String) (hx : s.sent[i]? = some x) (hp : plain (dec x) = true) :
    (∃ r ∈ s.w.m.s.sys.got, r.msg = dec x) ∨
    (∃ r ∈ s.w.m.s.sys.srv.rows, r.msg = dec x ∧ s.w.m.s.sys.cursor.getD 0 < r.pos) ∨
    (s.deleted ≤ i ∧ ∀ n, At tok s.deleted s.w.lp.since n ∨ At tok s.deleted s.w.persisted n → n ≤ i) := by
  obtain ⟨⟨k, h1, h2, h3, h4⟩, h5⟩ := C117_partial hinj hne h
  by_cases hk : i < k
  · have hm : dec x ∈ queued dec (s.sent.take k) := by
      refine List.mem_filter.2 ⟨List.mem_map.2 ⟨x, ?_, rfl⟩, hp⟩
      refine List.mem_of_getElem? (i := i) ?_
      rw [List.getElem?_take_of_lt hk, hx]
    obtain ⟨r, hr, hre⟩ := List.mem_map.1 (List.mem_filter.1 (h3.subset hm)).1
    have hpr : plain r.msg = true := by rw [hre]; exact hp
    rcases h5 r hr hpr with h' | h'
    · exact Or.inl ⟨r, h', hre⟩
    · exact Or.inr (Or.inl ⟨r, h'.1, hre, h'.2⟩)
  · exact Or.inr (Or.inr ⟨by omega, fun n hn => by have := h4 n hn; omega⟩)

/-- C117, caught up: the poller's token is at the end of the queue and nothing waits for the client: every message sent to
the device was received. -/
theorem C117_caught_up (hinj : ∀ a b, tok a = tok b → a = b) (hne : ∀ a, tok a ≠ "") {s : State}
    (h : Run dec tok user .any s) (hs : s.w.lp.since = tok s.sent.length) (hw : ToDevice.waiting s.w.m.s.sys = []) :
    ∀ x ∈ s.sent, plain (dec x) = true → ∃ r ∈ s.w.m.s.sys.got, r.msg = dec x := by
  intro x hx hp
  obtain ⟨i, hi, hxi⟩ := List.mem_iff_getElem.1 hx
  rcases C117_message_partial hinj hne h i x (by rw [List.getElem?_eq_getElem hi, hxi]) hp with h' | ⟨r, h1, h2, h3⟩ | ⟨_, h'⟩
  · exact h'
  · have : r ∈ ToDevice.waiting s.w.m.s.sys := List.mem_filter.2 ⟨h1, decide_eq_true h3⟩
    rw [hw] at this; cases this
  · have := h' s.sent.length (Or.inl (by rw [hs]; exact At.token _))
    omega

/-! ### Exactly once -/

/-- Everything stored is the queue up to the place both tokens stand for. -/
def Exact (dec : String → Msg) (tok : Nat → String) (s : State) : Prop :=
  ∃ k, msgs s.w.m.s.sys.log = queued dec (s.sent.take k) ∧ k ≤ s.sent.length ∧ s.deleted ≤ k ∧
    (s.w.lp.since = tok k ∨ (s.w.lp.since = "" ∧ k = 0)) ∧ (s.w.persisted = tok k ∨ (s.w.persisted = "" ∧ k = 0))

theorem exact_run (hinj : ∀ a b, tok a = tok b → a = b) (hne : ∀ a, tok a ≠ "") {mode : Mode}
    (hmode : ∀ t, mode.turn t → t.persistOk = true) {s : State} (h : Run dec tok user mode s) : Exact dec tok s := by
  induction h with
  | start sent => exact ⟨0, by simp [queued, msgs], Nat.zero_le _, Nat.le_refl _, Or.inr ⟨rfl, rfl⟩, Or.inr ⟨rfl, rfl⟩⟩
  | @send s m _ ih =>
    obtain ⟨k, h1, h2, h3⟩ := ih
    refine ⟨k, ?_, ?_, h3⟩
    · show _ = queued dec ((s.sent ++ [m]).take k)
      rw [List.take_append_of_le_length h2]; exact h1
    · show k ≤ (s.sent ++ [m]).length
      rw [List.length_append]; omega
  | fate next _ ih => exact ih
  | restart b _ ih =>
    obtain ⟨k, h1, h2, h3, h4, h5⟩ := ih
    exact ⟨k, h1, h2, h3, h5, h5⟩
  | @client s l b _ ih =>
    obtain ⟨k, h1, h2⟩ := ih
    refine ⟨k, ?_, h2⟩
    show msgs (ToDevice.sysStep s.w.m.s.sys (.poll l b)).log = _
    rw [poll_log]; exact h1
  | known b _ _ ih => exact ih
  | forget _ _ ih => exact ih
  | @turn s t n del hrun hok hn hd ha ih =>
    obtain ⟨evs, he⟩ := (ok_run hinj hne hrun).evs
    obtain ⟨k, h1, h2, h3, h4, h5⟩ := ih
    have hnk : max n s.deleted = k := by
      generalize hse : s.w.lp.since = e at hn h4
      cases hn with
      | token n =>
        rcases h4 with h4 | h4
        · have := hinj _ _ h4; omega
        · exact absurd h4.1 (hne _)
      | none =>
        rcases h4 with h4 | h4
        · exact absurd h4.symm (hne _)
        · omega
    rcases poll_effect dec user s.w t with ⟨g1, g2, g3⟩ | ⟨res, hr, g2, g3, g3', g4⟩
    · refine ⟨k, ?_, h2, by show del ≤ k; omega, ?_, ?_⟩
      · show msgs (Poller.poll (recv dec) user s.w t).1.m.s.sys.log = _
        rw [g1]; exact h1
      · show (Poller.poll (recv dec) user s.w t).1.lp.since = _ ∨ (Poller.poll (recv dec) user s.w t).1.lp.since = _ ∧ _
        rw [g2]; exact h4
      · show (Poller.poll (recv dec) user s.w t).1.persisted = _ ∨ (Poller.poll (recv dec) user s.w t).1.persisted = _ ∧ _
        rw [g3]; exact h5
    · obtain ⟨m, hm1, hm2, hm3, hm4⟩ := ha res hr
      rw [hnk] at hm1 hm4
      have hinv : ToDevice.Inv s.w.m.s.sys := by rw [he]; exact ToDevice.inv_run evs {} ToDevice.inv_init
      have hlog : msgs (Poller.poll (recv dec) user s.w t).1.m.s.sys.log = queued dec (s.sent.take m) := by
        rw [split_at s.sent hm1, queued_append, ← hm4, ← h1]
        rcases g4 with ⟨g4, g5⟩ | ⟨j, g5⟩
        · rw [g5, g4]; simp [queued]
        · obtain ⟨new, _, q2, q3, _⟩ := insert_log hinv j (res.toDevice.map dec)
          rw [g5, q2, msgs_append, q3]; rfl
      refine ⟨m, hlog, hm2, by show del ≤ m; omega, Or.inl (by rw [← hm3]; exact g2), ?_⟩
      show (Poller.poll (recv dec) user s.w t).1.persisted = _ ∨ (Poller.poll (recv dec) user s.w t).1.persisted = _ ∧ _
      by_cases hnil : res.toDevice = []
      · have hmk : m = k := by
          rw [hm4] at hnil
          have := congrArg List.length hnil
          simp only [List.length_drop, List.length_take, List.length_nil] at this
          omega
        rcases g3 with g3 | g3
        · rw [g3, hmk]; exact h5
        · exact Or.inl (by rw [g3, hm3])
      · exact Or.inl (by rw [g3' (hmode t hok) hnil, hm3])

/-- C117, exactly once into the table: while writing the token does not fail, what was ever stored for the device is the
queue up to the poller's token, each message once and in order, whatever else fails and whoever restarts. -/
theorem C117_stored_once (hinj : ∀ a b, tok a = tok b → a = b) (hne : ∀ a, tok a ≠ "") {s : State}
    (h : Run dec tok user .stored s) :
    ∃ k, msgs s.w.m.s.sys.log = queued dec (s.sent.take k) ∧ s.deleted ≤ k ∧ k ≤ s.sent.length ∧
      (s.w.lp.since = tok k ∨ (s.w.lp.since = "" ∧ k = 0)) ∧ (s.w.persisted = tok k ∨ (s.w.persisted = "" ∧ k = 0)) := by
  obtain ⟨k, h1, h2, h3, h4, h5⟩ := exact_run hinj hne (fun _ h => h) h
  exact ⟨k, h1, h3, h2, h4, h5⟩

/-- Received and waiting messages are those stored. -/
structure Flow (s : Sys) : Prop where
  inv : ToDevice.Inv s
  known : s.cursor ≠ none → s.srv.known = true
  flow : msgs s.got ++ msgs (ToDevice.waiting s) = msgs s.log

theorem filter_plain_comm (l : List Row) (p : Row → Bool) (h : ∀ r ∈ l, plain r.msg = true → p r = true) :
    msgs (l.filter p) = msgs l := by
  induction l with
  | nil => rfl
  | cons r l ih =>
    have ih := ih fun x hx => h x (by simp [hx])
    unfold msgs at ih ⊢
    cases hp : p r with
    | true => rw [List.filter_cons_of_pos (by simpa using hp)]; simp only [List.map_cons, List.filter_cons, ih]
    | false =>
      rw [List.filter_cons_of_neg (by simp [hp]), ih]
      cases hq : plain r.msg with
      | true => exact absurd (h r (by simp) hq) (by simp [hp])
      | false => rw [List.map_cons, List.filter_cons_of_neg (by simp [hq])]

theorem take_filter {l : List Row} (h : l.Pairwise fun a b => a.pos < b.pos) (c n : Nat) (hc : ∀ r ∈ l, c < r.pos) :
    l.take n ++ l.filter (fun r => decide ((match (l.take n).getLast? with | some r => r.pos | none => c) < r.pos)) = l := by
  cases hx : (l.take n).getLast? with
  | none =>
    rw [List.getLast?_eq_none_iff.1 hx, List.nil_append]
    exact List.filter_eq_self.2 fun r hr => decide_eq_true (hc r hr)
  | some x =>
    have hs := List.take_append_drop n l
    have hp := h
    rw [← hs] at hp
    obtain ⟨p1, _, p3⟩ := List.pairwise_append.1 hp
    obtain ⟨ys, hy⟩ := List.getLast?_eq_some_iff.1 hx
    have hle : ∀ r ∈ l.take n, r.pos ≤ x.pos := by
      intro r hr
      rw [hy] at hr p1
      rcases List.mem_append.1 hr with h' | h'
      · have := (List.pairwise_append.1 p1).2.2 r h' x (by simp); omega
      · simp at h'; rw [h']; exact Nat.le_refl _
    have hf : l.filter (fun r => decide (x.pos < r.pos)) = l.drop n := by
      conv => lhs; rw [← hs]
      rw [List.filter_append, List.filter_eq_nil_iff.2 (fun r hr => by have := hle r hr; simp only [decide_eq_true_eq]; omega),
        List.filter_eq_self.2 (fun r hr => decide_eq_true (p3 x (List.mem_of_getLast? hx) r hr)), List.nil_append]
    show l.take n ++ l.filter (fun r => decide (x.pos < r.pos)) = l
    rw [hf, hs]

theorem flow_insert {s : Sys} (h : Flow s) (k : Nat) (ms : List Msg) : Flow (ToDevice.sysStep s (.insert k ms)) := by
  refine ⟨ToDevice.inv_step h.inv _, h.known, ?_⟩
  obtain ⟨new, h1, h2, h3, h4⟩ := insert_log h.inv k ms
  rw [h2, msgs_append, ← h.flow, List.append_assoc]
  show msgs s.got ++ msgs ((ToDevice.sysStep s (.insert k ms)).srv.rows.filter
    fun r => decide (s.cursor.getD 0 < r.pos)) = _
  rw [h1, List.filter_append, msgs_append]
  congr 1
  have ha : new.filter (fun r => decide (s.cursor.getD 0 < r.pos)) = new := by
    refine List.filter_eq_self.2 fun r hr => decide_eq_true ?_
    have := h4 r hr
    have := h.inv.cur
    omega
  rw [ha, List.filter_filter]
  congr 1
  rw [show (fun r : Row => decide (s.cursor.getD 0 < r.pos) && !ToDevice.isCancelled s.srv (ToDevice.cancels ms) r) =
    fun r => (!ToDevice.isCancelled s.srv (ToDevice.cancels ms) r) && decide (s.cursor.getD 0 < r.pos) from
    funext fun r => Bool.and_comm _ _, ← List.filter_filter]
  exact filter_plain_comm _ _ fun r _ hp => by rw [plain_notCancelled hp]; rfl

theorem flow_poll {s : Sys} (h : Flow s) (l : Nat) (b : Bool) : Flow (ToDevice.sysStep s (.poll l b)) := by
  refine ⟨ToDevice.inv_step h.inv _, fun _ => by cases b <;> rfl, ?_⟩
  have hrows : (ToDevice.request s.srv s.cursor l).1.rows.filter (fun r => decide (s.cursor.getD 0 < r.pos)) =
      ToDevice.waiting s := by
    unfold ToDevice.request ToDevice.waiting
    cases hc : s.cursor with
    | none => cases s.srv.known <;> rfl
    | some q =>
      rw [h.known (by simp [hc])]
      simp only [if_true, List.filter_filter, Option.getD_some]
      refine List.filter_congr fun r _ => ?_
      by_cases hlt : q < r.pos <;> simp [hlt, Nat.not_le]
  rw [poll_log, ← h.flow]
  cases b with
  | false =>
    show msgs s.got ++ msgs ((ToDevice.request s.srv s.cursor l).1.rows.filter
      fun r => decide (s.cursor.getD 0 < r.pos)) = _
    rw [hrows]
  | true =>
    show msgs (s.got ++ (ToDevice.request s.srv s.cursor l).2.1) ++ msgs ((ToDevice.request s.srv s.cursor l).1.rows.filter
      fun r => decide ((ToDevice.request s.srv s.cursor l).2.2 < r.pos)) = _
    rw [msgs_append, List.append_assoc, ← msgs_append]
    congr 2
    have hm : ∃ l', (ToDevice.request s.srv s.cursor l).2 =
        ToDevice.messages (ToDevice.request s.srv s.cursor l).1 (s.cursor.getD 0) l' := by
      refine ⟨if l = 0 then 100 else l, ?_⟩
      unfold ToDevice.request
      cases hc : s.cursor with
      | none => cases s.srv.known <;> rfl
      | some q => rw [h.known (by simp [hc])]; rfl
    obtain ⟨l', hm⟩ := hm
    have hsort := (ToDevice.request_sorted h.inv.sorted s.cursor l).1
    rw [hm]
    generalize (ToDevice.request s.srv s.cursor l).1 = q at hrows hsort
    have hpg : (ToDevice.messages q (s.cursor.getD 0) l').1 = (ToDevice.waiting s).take l' := by
      rw [← hrows]; rfl
    have hnb : (ToDevice.messages q (s.cursor.getD 0) l').2 =
        (match ((ToDevice.waiting s).take l').getLast? with | some r => r.pos | none => s.cursor.getD 0) := by
      rw [← hrows]; rfl
    have hge : s.cursor.getD 0 ≤ (ToDevice.messages q (s.cursor.getD 0) l').2 := (ToDevice.messages_spec hsort _ l').2.2.1
    have hws : (ToDevice.waiting s).Pairwise (fun a b => a.pos < b.pos) := h.inv.sorted.1.filter _
    have htf := take_filter hws (s.cursor.getD 0) l' (fun r hr => of_decide_eq_true (List.mem_filter.1 hr).2)
    rw [← hnb, ← hpg] at htf
    rw [← htf]
    congr 1
    conv => rhs; rw [← hrows, List.filter_filter]
    refine List.filter_congr fun r _ => ?_
    rw [htf] at *
    by_cases hlt : (ToDevice.messages q (s.cursor.getD 0) l').2 < r.pos
    · have : s.cursor.getD 0 < r.pos := by omega
      simp [hlt, this]
    · simp [hlt]

theorem flow_run {mode : Mode} (hmode : ¬ mode.reset) {s : State} (h : Run dec tok user mode s) : Flow s.w.m.s.sys := by
  induction h with
  | start sent => exact ⟨ToDevice.inv_init, by simp, rfl⟩
  | send m _ ih => exact ih
  | fate next _ ih => exact ih
  | restart b _ ih => exact ih
  | client l b _ ih => exact flow_poll ih l b
  | known b hr _ ih => exact absurd hr hmode
  | forget hr _ ih => exact absurd hr hmode
  | @turn s t n del _ hok hn hd ha ih =>
    rcases poll_effect dec user s.w t with ⟨g1, _⟩ | ⟨res, _, _, _, _, ⟨_, g5⟩ | ⟨k, g5⟩⟩
    · show Flow (Poller.poll (recv dec) user s.w t).1.m.s.sys
      rw [g1]; exact ih
    · show Flow (Poller.poll (recv dec) user s.w t).1.m.s.sys
      rw [g5]; exact ih
    · show Flow (Poller.poll (recv dec) user s.w t).1.m.s.sys
      rw [g5]; exact flow_insert ih k _

/-- C117, exactly once and in order to the client: while writing the token does not fail and neither the client nor the proxy
start again, what the client received, then what waits for it, then the queue from the poller's token on, is all that was
sent. Failing requests, lost answers, errors of the database and new pollers make no difference. -/
theorem C117_conserved (hinj : ∀ a b, tok a = tok b → a = b) (hne : ∀ a, tok a ≠ "") {s : State}
    (h : Run dec tok user .steady s) :
    ∃ k, msgs s.w.m.s.sys.got ++ msgs (ToDevice.waiting s.w.m.s.sys) ++ queued dec (s.sent.drop k) = queued dec s.sent ∧
      s.deleted ≤ k ∧ k ≤ s.sent.length ∧ (s.w.lp.since = tok k ∨ (s.w.lp.since = "" ∧ k = 0)) := by
  obtain ⟨k, h1, h2, h3, h4, h5⟩ := exact_run hinj hne (fun _ h => h) h
  refine ⟨k, ?_, h3, h2, h4⟩
  rw [(flow_run (by simp [Mode.steady]) h).flow, h1, ← queued_append, List.take_append_drop]

end Verif.ToDeviceFlow
