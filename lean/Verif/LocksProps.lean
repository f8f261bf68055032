/-
C129: the goroutines of the proxy never wait for each other in a circle.

The locks are ranked. Every goroutine takes locks in ascending order of rank, with one exception: the listener takes
`Dispatcher.userToReceiverMu` for reading while it holds `JoinedRoomsTracker.mu` for reading, and the other way round
elsewhere. This is harmless because nobody else writes to the tracker.
-/
import Verif.Locks

namespace Verif.Locks

/-- The rank of a lock. -/
def rank : Kind → Nat
  | .connMap => 0
  | .conn => 0
  | .receivers => 1
  | .tracker => 2
  | .waiter => 3
  | .listeners => 4
  | .pending => 3
  | .typing => 3
  | _ => 5

/-- What is known while a program is gone through: locks of a rank below `b` only are held, except that the listener
may hold the tracker for reading if `t` is set; a database connection is held only if `d` is set. -/
structure Ctx where
  b : Nat
  t : Bool
  d : Bool

/-- The program takes its locks in ascending order. -/
def Ok (li : Bool) : Ctx → Prog → Prop
  | _, .skip => True
  | _, .work => True
  | c, .wait => c.b = 0 ∧ c.t = false ∧ c.d = false
  | c, .locked l p =>
    c.b ≤ rank l.kind ∧ (l.kind = .tracker → li = true ∧ c.t = false) ∧ Ok li { c with b := rank l.kind + 1 } p
  | c, .rlocked l p =>
    c.b ≤ rank l.kind ∧
    Ok li (if li = true ∧ l.kind = .tracker then { c with t := true } else { c with b := rank l.kind + 1 }) p
  | c, .query p => c.d = false ∧ Ok li { c with d := true } p
  | c, .seq p q => Ok li c p ∧ Ok li c q
  | c, .alt p q => Ok li c p ∧ Ok li c q
  | c, .star p => Ok li c p
  | c, .any f => ∀ n, Ok li c (f n)

structure Rel (li : Bool) (c : Ctx) (H : List Hold) : Prop where
  w : ∀ l, .w l ∈ H → rank l.kind < c.b
  r : ∀ l, .r l ∈ H → rank l.kind < c.b ∨ (li = true ∧ l.kind = .tracker ∧ c.t = true)
  d : .db ∈ H → c.d = true

/-- What is true of an operation that is done next, given what is held. -/
def Cond (li : Bool) (H : List Hold) : Act → Prop
  | .claim l =>
    (∀ l', .w l' ∈ H → rank l'.kind < rank l.kind) ∧
    (∀ l', .r l' ∈ H → rank l'.kind < rank l.kind ∨ (li = true ∧ l'.kind = .tracker ∧ l.kind ≠ .tracker)) ∧
    (l.kind = .tracker → li = true)
  | .enter l =>
    (∀ l', .w l' ∈ H → l' = l ∨ rank l'.kind < rank l.kind) ∧
    (∀ l', .r l' ∈ H → rank l'.kind < rank l.kind ∨ (li = true ∧ l'.kind = .tracker ∧ l.kind ≠ .tracker)) ∧
    (l.kind = .tracker → li = true)
  | .rlock l =>
    (∀ l', .w l' ∈ H → rank l'.kind < rank l.kind) ∧
    (∀ l', .r l' ∈ H → rank l'.kind < rank l.kind ∨ (li = true ∧ l'.kind = .tracker))
  | .take => .db ∉ H
  | .wait => H = []
  | _ => True

/-- Everything the goroutine still does is in order. -/
def Good (li : Bool) : List Hold → List Act → Prop
  | H, [] => H = []
  | H, a :: r => Cond li H a ∧ Good li (after a H) r

theorem good_trace {li : Bool} {p : Prog} {t : List Act} (h : Trace p t) :
    ∀ {c : Ctx} {H : List Hold} {r : List Act}, Ok li c p → Rel li c H → Good li H r → Good li H (t ++ r) := by
  induction h with
  | skip => intro c H r _ _ hg; exact hg
  | work => intro c H r _ _ hg; exact ⟨trivial, hg⟩
  | wait =>
    intro c H r ho hr hg
    have hH : H = [] := by
      rcases H with _ | ⟨x, H⟩
      · rfl
      · obtain ⟨h1, h2, h3⟩ := ho
        cases x with
        | w l => have := hr.w l (by simp); omega
        | r l =>
          rcases hr.r l (by simp) with h | ⟨_, _, h⟩
          · omega
          · rw [h2] at h; cases h
        | db => have := hr.d (by simp); rw [h3] at this; cases this
    exact ⟨hH, hg⟩
  | @locked p t l _ ih =>
    intro c H r ho hr hg
    obtain ⟨h1, h2, h3⟩ := ho
    have hw : ∀ l', Hold.w l' ∈ H → rank l'.kind < rank l.kind := fun l' h => by
      have := hr.w l' h; omega
    have hrr : ∀ l', Hold.r l' ∈ H → rank l'.kind < rank l.kind ∨
        (li = true ∧ l'.kind = .tracker ∧ l.kind ≠ .tracker) := fun l' h => by
      rcases hr.r l' h with h' | ⟨ha, hb, hc⟩
      · left; omega
      · right; refine ⟨ha, hb, fun e => ?_⟩
        rw [(h2 e).2] at hc; cases hc
    refine ⟨⟨hw, hrr, fun e => (h2 e).1⟩, ⟨?_, ?_, fun e => (h2 e).1⟩, ?_⟩
    · intro l' h
      rcases List.mem_cons.mp h with h | h
      · injection h with h; exact .inl h
      · exact .inr (hw l' h)
    · intro l' h
      rcases List.mem_cons.mp h with h | h
      · cases h
      · exact hrr l' h
    · show Good li (.w l :: H) ((t ++ [.unlock l]) ++ r)
      rw [List.append_assoc]
      refine ih h3 ⟨?_, ?_, ?_⟩ ⟨trivial, ?_⟩
      · intro l' h
        rcases List.mem_cons.mp h with h | h
        · injection h with h; subst h; exact Nat.lt_succ_self _
        · have := hw l' h; show _ < _ + 1; omega
      · intro l' h
        rcases List.mem_cons.mp h with h | h
        · cases h
        · rcases hr.r l' h with h' | h'
          · left; show _ < _ + 1; omega
          · exact .inr h'
      · intro h
        rcases List.mem_cons.mp h with h | h
        · cases h
        · exact hr.d h
      · show Good li ((Hold.w l :: H).erase (.w l)) r
        rw [List.erase_cons_head]; exact hg
  | @rlocked p t l _ ih =>
    intro c H r ho hr hg
    obtain ⟨h1, h3⟩ := ho
    refine ⟨⟨fun l' h => ?_, fun l' h => ?_⟩, ?_⟩
    · have := hr.w l' h; omega
    · rcases hr.r l' h with h' | ⟨ha, hb, _⟩
      · left; omega
      · exact .inr ⟨ha, hb⟩
    · show Good li (.r l :: H) ((t ++ [.runlock l]) ++ r)
      rw [List.append_assoc]
      refine ih h3 ?_ ⟨trivial, ?_⟩
      · by_cases hc : li = true ∧ l.kind = .tracker
        · rw [if_pos hc]
          refine ⟨fun l' h => ?_, fun l' h => ?_, fun h => ?_⟩
          · rcases List.mem_cons.mp h with h | h
            · cases h
            · exact hr.w l' h
          · rcases List.mem_cons.mp h with h | h
            · injection h with h; subst h; exact .inr ⟨hc.1, hc.2, rfl⟩
            · rcases hr.r l' h with h' | ⟨ha, hb, _⟩
              · exact .inl h'
              · exact .inr ⟨ha, hb, rfl⟩
          · rcases List.mem_cons.mp h with h | h
            · cases h
            · exact hr.d h
        · rw [if_neg hc]
          refine ⟨fun l' h => ?_, fun l' h => ?_, fun h => ?_⟩
          · rcases List.mem_cons.mp h with h | h
            · cases h
            · have := hr.w l' h; show _ < _ + 1; omega
          · rcases List.mem_cons.mp h with h | h
            · injection h with h; subst h; exact .inl (Nat.lt_succ_self _)
            · rcases hr.r l' h with h' | h'
              · left; show _ < _ + 1; omega
              · exact .inr h'
          · rcases List.mem_cons.mp h with h | h
            · cases h
            · exact hr.d h
      · show Good li ((Hold.r l :: H).erase (.r l)) r
        rw [List.erase_cons_head]; exact hg
  | @query p t _ ih =>
    intro c H r ho hr hg
    obtain ⟨h1, h3⟩ := ho
    refine ⟨fun h => ?_, ?_⟩
    · have := hr.d h; rw [h1] at this; cases this
    · show Good li (.db :: H) ((t ++ [.give]) ++ r)
      rw [List.append_assoc]
      refine ih h3 ⟨fun l' h => ?_, fun l' h => ?_, fun _ => rfl⟩ ⟨trivial, ?_⟩
      · rcases List.mem_cons.mp h with h | h
        · cases h
        · exact hr.w l' h
      · rcases List.mem_cons.mp h with h | h
        · cases h
        · exact hr.r l' h
      · show Good li ((Hold.db :: H).erase .db) r
        rw [List.erase_cons_head]; exact hg
  | seq _ _ ih1 ih2 =>
    intro c H r ho hr hg
    rw [List.append_assoc]
    exact ih1 ho.1 hr (ih2 ho.2 hr hg)
  | left _ ih => intro c H r ho hr hg; exact ih ho.1 hr hg
  | right _ ih => intro c H r ho hr hg; exact ih ho.2 hr hg
  | stop => intro c H r _ _ hg; exact hg
  | again _ _ ih1 ih2 =>
    intro c H r ho hr hg
    rw [List.append_assoc]
    exact ih1 ho hr (ih2 ho hr hg)
  | any n _ ih => intro c H r ho hr hg; exact ih (ho n) hr hg

/-! ### The code takes its locks in order -/

set_option linter.unusedSimpArgs false in
theorem listener_ok : Ok true ⟨0, false, false⟩ listener := by
  simp [Ok, rank, listener, message, Prog.opt, db, connMapMu, receiversMu, trackerMu, globalsMu, ensureMu, pubsubMu,
    toDeviceMu, pollersMu, pendingMu, typingMu, connMu, cancelMu, waiterMu, roomDataMu, listenersMu, ignoredMu,
    trackerRead, trackerWrite, joinedUsersForRoom, globalLoadRooms, loadJoinedRooms, globalWrite, globalInvalidate,
    destroy, onUpdate, ingest, publishUpTo, loadRoomData, storeRoomData, newRoomUpdate, emit, cacheUnread, cacheSpace,
    cacheEvent, cacheEphemeral, cacheInvite, cacheAccount, cacheRegistered, receiverForUser, unregister, register,
    roomReceivers, notifyListeners, dispatchEvent, dispatchInitial, dispatchEphemeral, getConn, createConn,
    connMapTouch, connExpires, clearUpdateQueues, onDeviceUpdate, onExpiredToken, onInvalidateRoom]

set_option linter.unusedSimpArgs false in
theorem worker_ok : Ok false ⟨0, false, false⟩ worker := by
  simp [Ok, rank, worker, Prog.opt, db, connMapMu, receiversMu, trackerMu, globalsMu, ensureMu, pubsubMu,
    toDeviceMu, pollersMu, pendingMu, typingMu, connMu, cancelMu, waiterMu, roomDataMu, listenersMu, ignoredMu,
    trackerRead, trackerWrite, joinedUsersForRoom, globalLoadRooms, loadJoinedRooms, globalWrite, globalInvalidate,
    destroy, onUpdate, ingest, publishUpTo, loadRoomData, storeRoomData, newRoomUpdate, emit, cacheUnread, cacheSpace,
    cacheEvent, cacheEphemeral, cacheInvite, cacheAccount, cacheRegistered, receiverForUser, unregister, register,
    roomReceivers, notifyListeners, dispatchEvent, dispatchInitial, dispatchEphemeral, getConn, createConn,
    connMapTouch, connExpires, clearUpdateQueues, notify, ensurePolling, userCache, setupConnection, connState,
    connRequest, serve, pendingTxn, onTerminated, setTyping, callback, pollerMap, poller]

theorem code_good {t : Thread} (h : IsCode t) : Good t.listener t.held t.rest := by
  obtain ⟨h1, h2⟩ := h
  rw [h1, ← List.append_nil t.rest]
  cases hl : t.listener with
  | true => rw [hl] at h2; exact good_trace h2 listener_ok ⟨by simp, by simp, by simp⟩ rfl
  | false => rw [hl] at h2; exact good_trace h2 worker_ok ⟨by simp, by simp, by simp⟩ rfl

/-! ### Steps -/

/-- At most one goroutine is the listener. -/
def OneListener (s : List Thread) : Prop :=
  ∀ (i j : Nat) (t t' : Thread), s[i]? = some t → s[j]? = some t' → t.listener = true → t'.listener = true → i = j

structure Inv (s : List Thread) : Prop where
  good : ∀ (i : Nat) (t : Thread), s[i]? = some t → Good t.listener t.held t.rest
  once : ∀ (i : Nat) (t : Thread), s[i]? = some t → t.held.count .db ≤ 1
  one : OneListener s

theorem after_once {H : List Hold} {a : Act} {li : Bool} (hc : Cond li H a) (h : H.count .db ≤ 1) :
    (after a H).count .db ≤ 1 := by
  cases a with
  | claim l => simpa [after] using h
  | enter l => exact h
  | unlock l => exact Nat.le_trans (List.Sublist.count_le _ (List.erase_sublist)) h
  | rlock l => simpa [after] using h
  | runlock l => exact Nat.le_trans (List.Sublist.count_le _ (List.erase_sublist)) h
  | take =>
    have : H.count .db = 0 := List.count_eq_zero.mpr hc
    show (Hold.db :: H).count .db ≤ 1
    rw [List.count_cons_self, this]; exact Nat.le_refl _
  | give => exact Nat.le_trans (List.Sublist.count_le _ (List.erase_sublist)) h
  | work => exact h
  | wait => exact h

theorem step_some {pool : Option Nat} {s s' : List Thread} {i : Nat} (h : step pool s i = some s') :
    ∃ t a r, s[i]? = some t ∧ t.rest = a :: r ∧ free pool s a = true ∧
      s' = s.set i { t with held := after a t.held, rest := r } := by
  unfold step at h
  rcases Option.eq_none_or_eq_some s[i]? with h1 | ⟨t, h1⟩
  · rw [h1] at h; cases h
  · rw [h1] at h
    dsimp only at h
    cases h2 : t.rest with
    | nil => rw [h2] at h; cases h
    | cons a r =>
      rw [h2] at h
      dsimp only at h
      by_cases hf : free pool s a = true
      · rw [if_pos hf] at h; injection h with h
        exact ⟨t, a, r, h1, h2, hf, h.symm⟩
      · rw [if_neg hf] at h; cases h

theorem set_at {s : List Thread} {i j : Nat} {t x t' : Thread} (hi : s[i]? = some t)
    (h : (s.set i x)[j]? = some t') : (j = i ∧ t' = x) ∨ (j ≠ i ∧ s[j]? = some t') := by
  by_cases e : j = i
  · subst e
    have hl : j < s.length := (List.getElem?_eq_some_iff.mp hi).1
    rw [List.getElem?_set_self hl] at h
    injection h with h
    exact .inl ⟨rfl, h.symm⟩
  · rw [List.getElem?_set_ne (fun e' => e e'.symm)] at h
    exact .inr ⟨e, h⟩

theorem step_inv {pool : Option Nat} {s s' : List Thread} {i : Nat} (hv : Inv s) (h : step pool s i = some s') :
    Inv s' ∧ s'.length = s.length := by
  obtain ⟨t, a, r, h1, h2, _, rfl⟩ := step_some h
  have hg := hv.good i t h1
  rw [h2] at hg
  refine ⟨⟨fun j t' h' => ?_, fun j t' h' => ?_, ?_⟩, List.length_set⟩
  · rcases set_at h1 h' with ⟨_, rfl⟩ | ⟨_, h'⟩
    · exact hg.2
    · exact hv.good j t' h'
  · rcases set_at h1 h' with ⟨_, rfl⟩ | ⟨_, h'⟩
    · exact after_once hg.1 (hv.once i t h1)
    · exact hv.once j t' h'
  · intro j k u u' hj hk hl hl'
    rcases set_at h1 hj with ⟨ej, rfl⟩ | ⟨_, hj'⟩ <;> rcases set_at h1 hk with ⟨ek, rfl⟩ | ⟨_, hk'⟩
    · rw [ej, ek]
    · rw [ej]; exact hv.one i k t u' h1 hk' hl hl'
    · rw [ek]; exact hv.one j i u t hj' h1 hl hl'
    · exact hv.one j k u u' hj' hk' hl hl'

theorem run_inv {pool : Option Nat} {is : List Nat} : ∀ {s s' : List Thread}, Inv s → run pool s is = some s' →
    Inv s' ∧ s'.length = s.length := by
  induction is with
  | nil => intro s s' hv h; injection h with h; subst h; exact ⟨hv, rfl⟩
  | cons i is ih =>
    intro s s' hv h
    obtain ⟨s1, h1, h2⟩ := Option.bind_eq_some_iff.mp h
    obtain ⟨hv1, hl1⟩ := step_inv hv h1
    obtain ⟨hv2, hl2⟩ := ih hv1 h2
    exact ⟨hv2, hl2.trans hl1⟩

theorem start_inv {s : List Thread} (hc : ∀ t ∈ s, IsCode t) (h1 : OneListener s) : Inv s :=
  ⟨fun _ t h => code_good (hc t (List.mem_of_getElem? h)),
   fun _ t h => by rw [(hc t (List.mem_of_getElem? h)).1]; simp, h1⟩

/-! ### Who waits for whom -/

/-- The rank of an operation. -/
def height : Act → Nat
  | .claim l => 2 * rank l.kind
  | .rlock l => 2 * rank l.kind
  | .enter l => 2 * rank l.kind + 1
  | _ => 0

/-- Operations that may have to wait for another goroutine that holds a lock. -/
def takes : Act → Bool
  | .claim _ => true
  | .rlock _ => true
  | .enter _ => true
  | _ => false

theorem blocks_takes {h : Hold} {a : Act} (hb : blocks h a = true) : takes a = true := by
  cases a <;> cases h <;> first | rfl | exact nomatch hb

theorem waits_up {s : List Thread} (hv : Inv s) {i j : Nat} {t t' : Thread} {a a' : Act} {r r' : List Act} {h : Hold}
    (hi : s[i]? = some t) (hj : s[j]? = some t') (ha : t.rest = a :: r) (ha' : t'.rest = a' :: r')
    (hh : h ∈ t'.held) (hb : blocks h a = true) (ht : takes a' = true) : height a < height a' := by
  have g := hv.good i t hi
  have g' := hv.good j t' hj
  rw [ha] at g; rw [ha'] at g'
  have hc := g.1
  have hc' := g'.1
  cases h with
  | db => cases a <;> exact nomatch hb
  | w l =>
    have hl : height a = 2 * rank l.kind := by
      cases a with
      | claim l' => have : l' = l := by simpa [blocks] using hb
                    subst this; rfl
      | rlock l' => have : l' = l := by simpa [blocks] using hb
                    subst this; rfl
      | _ => exact nomatch hb
    rw [hl]
    cases a' with
    | claim l' => have := hc'.1 l hh; show _ < 2 * _; omega
    | rlock l' => have := hc'.1 l hh; show _ < 2 * _; omega
    | enter l' =>
      rcases hc'.1 l hh with rfl | this
      · show _ < 2 * _ + 1; omega
      · show _ < 2 * _ + 1; omega
    | _ => exact nomatch ht
  | r l =>
    cases a with
    | enter l' =>
      have : l' = l := by simpa [blocks] using hb
      subst this
      -- only the listener writes to the tracker
      have key : ∀ l1, Hold.r l1 ∈ t'.held → l1 = l' → t'.listener = true → l'.kind = .tracker → False := by
        intro l1 h1 e hl hk
        have hij : i = j := hv.one i j t t' hi hj (hc.2.2 hk) hl
        subst hij
        rw [hi] at hj; injection hj with hj; subst hj
        rcases hc.2.1 l1 h1 with h3 | ⟨_, _, h3⟩
        · rw [e] at h3; exact absurd h3 (Nat.lt_irrefl _)
        · exact h3 hk
      show 2 * _ + 1 < _
      cases a' with
      | claim l2 =>
        rcases hc'.2.1 l' hh with h3 | ⟨h3, h4, _⟩
        · show _ < 2 * _; omega
        · exact (key l' hh rfl h3 h4).elim
      | rlock l2 =>
        rcases hc'.2 l' hh with h3 | ⟨h3, h4⟩
        · show _ < 2 * _; omega
        · exact (key l' hh rfl h3 h4).elim
      | enter l2 =>
        rcases hc'.2.1 l' hh with h3 | ⟨h3, h4, _⟩
        · show _ < 2 * _ + 1; omega
        · exact (key l' hh rfl h3 h4).elim
      | _ => exact nomatch ht
    | _ => exact nomatch hb

/-- A chain of goroutines each of which waits for the next. -/
inductive Chain (s : List Thread) : Nat → Nat → Prop where
  | one : Waits s i j → Chain s i j
  | more : Waits s i j → Chain s j k → Chain s i k

theorem chain_up {s : List Thread} (hv : Inv s) {i j : Nat} (h : Chain s i j) :
    ∃ t a r, s[i]? = some t ∧ t.rest = a :: r ∧ takes a = true ∧
      ∀ t' a' r', s[j]? = some t' → t'.rest = a' :: r' → takes a' = true → height a < height a' := by
  induction h with
  | one h =>
    obtain ⟨t, t', a, r, h, h1, h2, h3, h4, h5⟩ := h
    refine ⟨t, a, r, h1, h3, blocks_takes h5, fun t1 a1 r1 e1 e2 e3 => ?_⟩
    rw [h2] at e1; injection e1 with e1; subst e1
    exact waits_up hv h1 h2 h3 e2 h4 h5 e3
  | more h _ ih =>
    obtain ⟨t, t', a, r, h, h1, h2, h3, h4, h5⟩ := h
    obtain ⟨t2, a2, r2, k1, k2, k3, k4⟩ := ih
    rw [h2] at k1; injection k1 with k1; subst k1
    refine ⟨t, a, r, h1, h3, blocks_takes h5, fun t1 a1 r1 e1 e2 e3 => ?_⟩
    exact Nat.lt_trans (waits_up hv h1 h2 h3 k2 h4 h5 k3) (k4 t1 a1 r1 e1 e2 e3)

theorem chain_acyclic {s : List Thread} (hv : Inv s) (i : Nat) : ¬ Chain s i i := by
  intro h
  obtain ⟨t, a, r, h1, h2, h3, h4⟩ := chain_up hv h
  exact absurd (h4 t a r h1 h2 h3) (Nat.lt_irrefl _)

/-! ### Somebody can always go on -/

theorem height_le (a : Act) : height a ≤ 11 := by
  have : ∀ k, rank k ≤ 5 := by intro k; cases k <;> decide
  cases a with
  | claim l => have := this l.kind; show 2 * _ ≤ _; omega
  | rlock l => have := this l.kind; show 2 * _ ≤ _; omega
  | enter l => have := this l.kind; show 2 * _ + 1 ≤ _; omega
  | _ => exact Nat.zero_le _

theorem used_lt : ∀ {s : List Thread} {i : Nat} {t : Thread}, s[i]? = some t → Hold.db ∉ t.held →
    (∀ (j : Nat) (t' : Thread), s[j]? = some t' → t'.held.count .db ≤ 1) → used s < s.length := by
  intro s
  induction s with
  | nil => intro i t h; cases i <;> cases h
  | cons x s ih =>
    intro i t h hn ho
    have hx : x.held.count .db ≤ 1 := ho 0 x rfl
    have hs : ∀ (j : Nat) (t' : Thread), s[j]? = some t' → t'.held.count .db ≤ 1 := fun j t' h' => ho (j + 1) t' h'
    have hle : ∀ u : List Thread, (∀ (j : Nat) (t' : Thread), u[j]? = some t' → t'.held.count .db ≤ 1) → used u ≤ u.length := by
      intro u
      induction u with
      | nil => intro _; exact Nat.le_refl _
      | cons y u ihu =>
        intro hu
        have h1 := hu 0 y rfl
        have h2 := ihu (fun j t' h' => hu (j + 1) t' h')
        show (y.held.count .db :: u.map _).sum ≤ u.length + 1
        rw [List.sum_cons]
        have : (u.map (fun t => t.held.count .db)).sum = used u := rfl
        omega
    show (x.held.count .db :: s.map _).sum < s.length + 1
    rw [List.sum_cons]
    have e : (s.map (fun t => t.held.count .db)).sum = used s := rfl
    cases i with
    | zero =>
      injection h with h; subst h
      have : x.held.count .db = 0 := List.count_eq_zero.mpr hn
      have := hle s hs
      omega
    | succ i =>
      have := ih (i := i) (t := t) h hn hs
      omega

/-- The next operation of a goroutine that is not idle can be done, or the goroutine waits for another. -/
theorem free_or_waits {pool : Option Nat} {s : List Thread} (hv : Inv s) (hp : ∀ n, pool = some n → s.length ≤ n)
    {i : Nat} {t : Thread} {a : Act} {r : List Act} (hi : s[i]? = some t) (ha : t.rest = a :: r) :
    free pool s a = true ∨ ∃ j, Waits s i j := by
  by_cases hb : (s.all fun t => t.held.all fun h => !blocks h a) = true
  · left
    have g := hv.good i t hi
    rw [ha] at g
    unfold free
    rw [hb, Bool.true_and]
    split
    · rename_i n
      have := used_lt hi g.1 hv.once
      have := hp n rfl
      simp only [decide_eq_true_eq]
      omega
    · rfl
  · right
    rw [Bool.not_eq_true, List.all_eq_false] at hb
    obtain ⟨t', ht', hb⟩ := hb
    rw [Bool.not_eq_true, List.all_eq_false] at hb
    obtain ⟨h, hh, hb⟩ := hb
    obtain ⟨j, hj⟩ := List.getElem?_of_mem ht'
    exact ⟨j, t, t', a, r, h, hi, hj, ha, hh, by simpa using hb⟩

theorem somebody {pool : Option Nat} {s : List Thread} (hv : Inv s) (hp : ∀ n, pool = some n → s.length ≤ n) :
    ∀ (m : Nat) {i : Nat} {t : Thread} {a : Act} {r : List Act}, s[i]? = some t → t.rest = a :: r →
      a ≠ .wait → 11 - height a ≤ m →
      ∃ (j : Nat) (t' : Thread) (a' : Act) (r' : List Act), s[j]? = some t' ∧ t'.rest = a' :: r' ∧ a' ≠ .wait ∧ free pool s a' = true := by
  intro m
  induction m with
  | zero =>
    intro i t a r hi ha hw hm
    rcases free_or_waits hv hp hi ha with h | ⟨j, t1, t', a1, r1, h, h1, h2, h3, h4, h5⟩
    · exact ⟨i, t, a, r, hi, ha, hw, h⟩
    · rw [hi] at h1; injection h1 with h1; subst h1
      rw [ha] at h3; injection h3 with h3 h3'; subst h3; subst h3'
      have g' := hv.good j t' h2
      cases hr : t'.rest with
      | nil => rw [hr] at g'; have : t'.held = [] := g'; rw [this] at h4; cases h4
      | cons a' r' =>
        by_cases ht : takes a' = true
        · have := waits_up hv hi h2 ha hr h4 h5 ht
          have := height_le a'
          omega
        · rcases free_or_waits hv hp h2 hr with hf | ⟨k, _, _, _, _, _, e1, _, e3, _, e5⟩
          · refine ⟨j, t', a', r', h2, hr, ?_, hf⟩
            rintro rfl
            rw [hr] at g'
            have : t'.held = [] := g'.1
            rw [this] at h4; cases h4
          · rw [h2] at e1; injection e1 with e1; subst e1
            rw [hr] at e3; injection e3 with e3 _; subst e3
            exact absurd (blocks_takes e5) ht
  | succ m ih =>
    intro i t a r hi ha hw hm
    rcases free_or_waits hv hp hi ha with h | ⟨j, t1, t', a1, r1, h, h1, h2, h3, h4, h5⟩
    · exact ⟨i, t, a, r, hi, ha, hw, h⟩
    · rw [hi] at h1; injection h1 with h1; subst h1
      rw [ha] at h3; injection h3 with h3 h3'; subst h3; subst h3'
      have g' := hv.good j t' h2
      cases hr : t'.rest with
      | nil => rw [hr] at g'; have : t'.held = [] := g'; rw [this] at h4; cases h4
      | cons a' r' =>
        have hw' : a' ≠ .wait := by
          rintro rfl
          rw [hr] at g'
          have : t'.held = [] := g'.1
          rw [this] at h4; cases h4
        by_cases ht : takes a' = true
        · have := waits_up hv hi h2 ha hr h4 h5 ht
          exact ih h2 hr hw' (by omega)
        · rcases free_or_waits hv hp h2 hr with hf | ⟨k, _, _, _, _, _, e1, _, e3, _, e5⟩
          · exact ⟨j, t', a', r', h2, hr, hw', hf⟩
          · rw [h2] at e1; injection e1 with e1; subst e1
            rw [hr] at e3; injection e3 with e3 _; subst e3
            exact absurd (blocks_takes e5) ht

/-- How many operations are still to be done. -/
def todo (s : List Thread) : Nat := (s.map fun t => t.rest.length).sum

theorem todo_set : ∀ {s : List Thread} {i : Nat} {t x : Thread}, s[i]? = some t → t.rest.length = x.rest.length + 1 →
    todo s = todo (s.set i x) + 1 := by
  intro s
  induction s with
  | nil => intro i t x h; cases i <;> cases h
  | cons y s ih =>
    intro i t x h hl
    cases i with
    | zero =>
      injection h with h; subst h
      show (y.rest.length :: s.map _).sum = (x.rest.length :: s.map _).sum + 1
      rw [List.sum_cons, List.sum_cons]; omega
    | succ i =>
      have := ih (i := i) (t := t) (x := x) h hl
      show (y.rest.length :: s.map _).sum = (y.rest.length :: (s.set i x).map _).sum + 1
      rw [List.sum_cons, List.sum_cons]
      have e1 : (s.map fun t => t.rest.length).sum = todo s := rfl
      have e2 : ((s.set i x).map fun t => t.rest.length).sum = todo (s.set i x) := rfl
      omega

/-- How often each goroutine still waits for something other than a lock. -/
def waitsLeft (s : List Thread) : List Nat := s.map fun t => t.rest.count .wait

theorem waitsLeft_set : ∀ {s : List Thread} {i : Nat} {t x : Thread}, s[i]? = some t →
    t.rest.count .wait = x.rest.count .wait → waitsLeft (s.set i x) = waitsLeft s := by
  intro s
  induction s with
  | nil => intro i t x h; cases i <;> cases h
  | cons y s ih =>
    intro i t x h hl
    cases i with
    | zero =>
      injection h with h; subst h
      show x.rest.count .wait :: _ = y.rest.count .wait :: _
      rw [hl]
    | succ i =>
      show y.rest.count .wait :: waitsLeft (s.set i x) = y.rest.count .wait :: waitsLeft s
      rw [ih (i := i) h hl]

theorem finish {pool : Option Nat} : ∀ (m : Nat) {s : List Thread}, Inv s → (∀ n, pool = some n → s.length ≤ n) →
    todo s ≤ m → ∃ is s', run pool s is = some s' ∧ (∀ t ∈ s', Idle t) ∧ waitsLeft s' = waitsLeft s := by
  intro m
  induction m with
  | zero =>
    intro s hv _ hm
    refine ⟨[], s, rfl, fun t ht => ?_, rfl⟩
    have hr : t.rest = [] := by
      obtain ⟨i, hi⟩ := List.getElem?_of_mem ht
      cases h : t.rest with
      | nil => rfl
      | cons a r =>
        have := todo_set (x := { t with rest := r }) hi (by rw [h]; rfl)
        omega
    obtain ⟨i, hi⟩ := List.getElem?_of_mem ht
    have g := hv.good i t hi
    rw [hr] at g
    exact ⟨g, .inl hr⟩
  | succ m ih =>
    intro s hv hp hm
    by_cases hall : ∀ t ∈ s, Idle t
    · exact ⟨[], s, rfl, hall, rfl⟩
    · have hex : ∃ (i : Nat) (t : Thread) (a : Act) (r : List Act), s[i]? = some t ∧ t.rest = a :: r ∧ a ≠ .wait := by
        refine Classical.byContradiction fun hn => hall fun t ht => ?_
        obtain ⟨i, hi⟩ := List.getElem?_of_mem ht
        have g := hv.good i t hi
        cases h : t.rest with
        | nil => rw [h] at g; exact ⟨g, .inl h⟩
        | cons a r =>
          by_cases hw : a = .wait
          · subst hw
            rw [h] at g
            exact ⟨g.1, .inr ⟨r, h⟩⟩
          · exact (hn ⟨i, t, a, r, hi, h, hw⟩).elim
      obtain ⟨i, t, a, r, hi, ha, hw⟩ := hex
      obtain ⟨j, t', a', r', hj, ha', hw', hf⟩ := somebody hv hp 11 hi ha hw (by omega)
      have hs : step pool s j = some (s.set j { t' with held := after a' t'.held, rest := r' }) := by
        unfold step; rw [hj]; dsimp only; rw [ha']; dsimp only; rw [if_pos hf]
      obtain ⟨hv', hl'⟩ := step_inv hv hs
      have ht := todo_set (x := { t' with held := after a' t'.held, rest := r' }) hj (by rw [ha']; rfl)
      obtain ⟨is, s', h1, h2, h3⟩ := ih hv' (fun n e => by rw [hl']; exact hp n e) (by omega)
      refine ⟨j :: is, s', ?_, h2, ?_⟩
      · show (step pool s j).bind _ = _
        rw [hs]; exact h1
      · rw [h3]
        refine waitsLeft_set hj ?_
        rw [ha', List.count_cons_of_ne hw']

/-! ### C129 -/

/-- C129 (no circle). Whatever the goroutines of the proxy have done so far, there is no circle of goroutines each of
which waits for a lock that the next one has. -/
theorem C129_no_circle {pool : Option Nat} {s₀ s : List Thread} {is : List Nat} (hc : ∀ t ∈ s₀, IsCode t)
    (h1 : OneListener s₀) (hr : run pool s₀ is = some s) : ∀ i, ¬ Chain s i i :=
  chain_acyclic (run_inv (start_inv hc h1) hr).1

/-- C129 (no deadlock). If database connections are not limited, or there are at least as many of them as goroutines,
then from any state the proxy can get in, the goroutines can go on until each of them is done or waits, with no lock
and no database connection held, for something other than a lock; and for this none of these waits has to end. -/
theorem C129_finish_partial {pool : Option Nat} {s₀ s : List Thread} {is : List Nat} (hc : ∀ t ∈ s₀, IsCode t)
    (h1 : OneListener s₀) (hp : ∀ n, pool = some n → s₀.length ≤ n) (hr : run pool s₀ is = some s) :
    ∃ more s', run pool s more = some s' ∧ (∀ t ∈ s', Idle t) ∧ waitsLeft s' = waitsLeft s := by
  obtain ⟨hv, hl⟩ := run_inv (start_inv hc h1) hr
  exact finish (todo s) hv (fun n e => by rw [hl]; exact hp n e) (Nat.le_refl _)

/-- C129 (nothing is held while waiting for something else). A goroutine that waits without time limit for something
other than a lock holds no lock and no database connection. -/
theorem C129_wait {pool : Option Nat} {s₀ s : List Thread} {is : List Nat} (hc : ∀ t ∈ s₀, IsCode t)
    (h1 : OneListener s₀) (hr : run pool s₀ is = some s) {t : Thread} (ht : t ∈ s) {r : List Act}
    (hw : t.rest = .wait :: r) : t.held = [] := by
  obtain ⟨i, hi⟩ := List.getElem?_of_mem ht
  have g := (run_inv (start_inv hc h1) hr).1.good i t hi
  rw [hw] at g
  exact g.1

end Verif.Locks
