/-
C129: what goes wrong with a limit on database connections, and with two listeners; runs that meet the hypotheses of
the theorems of `Verif.LocksProps`.
-/
import Verif.LocksProps

namespace Verif.Locks

/-! ### A goroutine that runs while the others stand still -/

/-- The operations can be done one after the other by a goroutine that starts with `H`, if nobody else has a lock and
`m` database connections are not in use by others. -/
def Solo (m : Nat) : List Hold → List Act → List Hold → Prop
  | H, [], H' => H = H'
  | H, a :: p, H' => (∀ h ∈ H, blocks h a = false) ∧ (a = .take → H.count .db < m) ∧ Solo m (after a H) p H'

theorem used_mid (pre post : List Thread) (t : Thread) :
    used (pre ++ t :: post) = used pre + t.held.count .db + used post := by
  simp [used, Nat.add_assoc]

theorem solo_run {n m : Nat} {pre post : List Thread} (hpre : ∀ t ∈ pre, ∀ h ∈ t.held, h = .db)
    (hpost : ∀ t ∈ post, ∀ h ∈ t.held, h = .db) (hm : used pre + used post + m ≤ n) {li : Bool} {r : List Act}
    {H' : List Hold} : ∀ {p : List Act} {H : List Hold}, Solo m H p H' →
      run (some n) (pre ++ ⟨li, H, p ++ r⟩ :: post) (List.replicate p.length pre.length) =
        some (pre ++ ⟨li, H', r⟩ :: post) := by
  intro p
  induction p with
  | nil => intro H hs; have : H = H' := hs; subst this; rfl
  | cons a p ih =>
    intro H hs
    obtain ⟨h1, h2, h3⟩ := hs
    have hdb : ∀ t ∈ pre ++ post, ∀ h ∈ t.held, blocks h a = false := by
      intro t ht h hh
      have : h = .db := by
        rcases List.mem_append.mp ht with ht | ht
        · exact hpre t ht h hh
        · exact hpost t ht h hh
      subst this
      cases a <;> rfl
    have hf : free (some n) (pre ++ ⟨li, H, (a :: p) ++ r⟩ :: post) a = true := by
      unfold free
      rw [Bool.and_eq_true]
      constructor
      · rw [List.all_eq_true]
        intro t ht
        rw [List.all_eq_true]
        intro h hh
        rcases List.mem_append.mp ht with ht | ht
        · rw [hdb t (List.mem_append_left _ ht) h hh]; rfl
        · rcases List.mem_cons.mp ht with rfl | ht
          · rw [h1 h hh]; rfl
          · rw [hdb t (List.mem_append_right _ ht) h hh]; rfl
      · cases a with
        | take =>
          have := h2 rfl
          have e := used_mid pre post ⟨li, H, (.take :: p) ++ r⟩
          have e' : (Thread.mk li H ((.take :: p) ++ r)).held.count .db = H.count .db := rfl
          show decide (_ < n) = true
          rw [decide_eq_true_eq, e, e']
          omega
        | _ => rfl
    have hs : step (some n) (pre ++ ⟨li, H, (a :: p) ++ r⟩ :: post) pre.length =
        some (pre ++ ⟨li, after a H, p ++ r⟩ :: post) := by
      have hg : (pre ++ ⟨li, H, (a :: p) ++ r⟩ :: post)[pre.length]? = some ⟨li, H, (a :: p) ++ r⟩ := by
        rw [List.getElem?_append_right (Nat.le_refl _), Nat.sub_self]; rfl
      unfold step
      rw [hg]
      show (if free (some n) _ a = true then _ else _) = _
      rw [if_pos hf]
      rw [List.set_append_right _ _ (Nat.le_refl _), Nat.sub_self]
      rfl
    show (step (some n) _ pre.length).bind _ = _
    rw [hs]
    exact ih h3

theorem run_append {pool : Option Nat} {is js : List Nat} : ∀ {s s' : List Thread}, run pool s is = some s' →
    run pool s (is ++ js) = run pool s' js := by
  induction is with
  | nil => intro s s' h; injection h with h; subst h; rfl
  | cons i is ih =>
    intro s s' h
    obtain ⟨s1, h1, h2⟩ := Option.bind_eq_some_iff.mp h
    show (step pool s i).bind _ = _
    rw [h1]
    exact ih h2

/-! ### A limit on database connections -/

/-- A request of a user who has no user cache yet, up to the point where the metadata of a room with unread counts is
looked up. -/
def requestBegin (u : Nat) : List Act :=
  [.take, .work, .give, .claim ensureMu, .enter ensureMu, .work, .unlock ensureMu,
   .take,
   .rlock (roomDataMu u), .work, .runlock (roomDataMu u),
   .claim (roomDataMu u), .enter (roomDataMu u), .work, .unlock (roomDataMu u),
   .rlock (roomDataMu u), .work, .runlock (roomDataMu u)]

/-- The rest of the request. -/
def requestEnd (u : Nat) : List Act :=
  [.rlock globalsMu, .work, .runlock globalsMu,
   .rlock (listenersMu u), .work, .runlock (listenersMu u), .give,
   .take, .work, .give, .take, .work, .give, .take, .work, .give, .take, .work, .give,
   .claim connMapMu, .enter connMapMu, .claim (listenersMu u), .enter (listenersMu u), .work, .unlock (listenersMu u),
   .unlock connMapMu,
   .claim connMapMu, .enter connMapMu, .work, .unlock connMapMu]

/-- The listener gets the message that a room is to be read again, up to the query. -/
def listenerBegin : List Act :=
  [.wait, .claim pubsubMu, .enter pubsubMu, .work, .unlock pubsubMu, .claim globalsMu, .enter globalsMu]

/-- The rest of what it does. -/
def listenerEnd : List Act :=
  [.take, .work, .give, .unlock globalsMu, .take, .work, .give]

theorem db_trace : Trace db [.take, .work, .give] := .query .work

theorem locked_trace (l : Lock) : Trace (.locked l .work) [.claim l, .enter l, .work, .unlock l] := .locked .work

theorem rlocked_trace (l : Lock) : Trace (.rlocked l .work) [.rlock l, .work, .runlock l] := .rlocked .work

theorem unread_trace (u : Nat) : Trace (cacheUnread u)
    [.rlock (roomDataMu u), .work, .runlock (roomDataMu u),
     .claim (roomDataMu u), .enter (roomDataMu u), .work, .unlock (roomDataMu u),
     .rlock (roomDataMu u), .work, .runlock (roomDataMu u),
     .rlock globalsMu, .work, .runlock globalsMu,
     .rlock (listenersMu u), .work, .runlock (listenersMu u)] :=
  .seq (rlocked_trace _) (.seq (locked_trace _) (.seq (.seq (rlocked_trace _) (rlocked_trace _))
    (.seq (rlocked_trace _) .stop)))

theorem request_code (u : Nat) : IsCode ⟨false, [], requestBegin u ++ requestEnd u⟩ := by
  refine ⟨rfl, .left (.any u (.any u ?_))⟩
  have hc : Trace (userCache u) _ :=
    .seq (.query (.again (unread_trace u) .stop)) <| .seq db_trace <| .seq (.right .skip) <| .seq db_trace <|
    .seq (.right .skip) <| .seq db_trace <| .seq (.right .skip) <| .seq db_trace <| .seq .stop (.right .skip)
  have hn : Trace (createConn u) _ :=
    .locked (.seq (.right .skip) (.seq (.right .skip) (locked_trace _)))
  have hs : Trace (serve u u) _ :=
    .seq (.seq db_trace <| .seq (.right .skip) <| .seq (.right .skip) <| .right <|
      .seq (.seq (locked_trace _) (.right .skip)) <| .left (.seq hc (.seq hn (locked_trace _)))) (.right .skip)
  exact hs

theorem listener_code : IsCode ⟨true, [], listenerBegin ++ listenerEnd⟩ := by
  refine ⟨rfl, ?_⟩
  have hm : Trace message _ :=
    .right <| .right <| .right <| .right <| .right <| .right <| .right <| .right <| .right <| .right <| .right <|
    .right <| .seq (.locked (.left db_trace)) (.seq db_trace (.right .skip))
  have hl : Trace listener _ := .again (.seq .wait (.seq (locked_trace _) hm)) .stop
  exact hl

def waitingRequest (u : Nat) : Thread := ⟨false, [.db], requestEnd u⟩
def newRequest (u : Nat) : Thread := ⟨false, [], requestBegin u ++ requestEnd u⟩

theorem request_solo (u : Nat) : Solo 1 [] (requestBegin u) [.db] := by
  simp [requestBegin, Solo, after, blocks, ensureMu, roomDataMu]

theorem listener_solo : Solo 0 [] listenerBegin [.w globalsMu] := by
  simp [listenerBegin, Solo, after, blocks, pubsubMu, globalsMu]

theorem used_waiting (us : List Nat) : used (us.map waitingRequest) = us.length := by
  induction us with
  | nil => rfl
  | cons u us ih =>
    have := used_mid [] (us.map waitingRequest) (waitingRequest u)
    rw [List.nil_append] at this
    show used (waitingRequest u :: us.map waitingRequest) = us.length + 1
    rw [this, ih]
    have : (waitingRequest u).held.count .db = 1 := rfl
    rw [this]
    show 0 + 1 + _ = _
    omega

theorem used_new (us : List Nat) : used (us.map newRequest) = 0 := by
  induction us with
  | nil => rfl
  | cons u us ih =>
    have := used_mid [] (us.map newRequest) (newRequest u)
    rw [List.nil_append] at this
    show used (newRequest u :: us.map newRequest) = 0
    rw [this, ih]; rfl

theorem requests_run {n : Nat} {l : Thread} (hl : l.held = []) : ∀ (us done : List Nat),
    done.length + us.length ≤ n →
    ∃ is, run (some n) (l :: (done.map waitingRequest ++ us.map newRequest)) is =
      some (l :: (done ++ us).map waitingRequest) := by
  intro us
  induction us with
  | nil => intro done _; exact ⟨[], by simp [run]⟩
  | cons u us ih =>
    intro done hn
    obtain ⟨is, hi⟩ := ih (done ++ [u]) (by simp only [List.length_append, List.length_cons, List.length_nil] at hn ⊢; omega)
    have hs := solo_run (n := n) (m := 1) (pre := l :: done.map waitingRequest) (post := us.map newRequest)
      (li := false) (r := requestEnd u) (H' := [.db]) (p := requestBegin u) (H := [])
      (by
        intro t ht h hh
        rcases List.mem_cons.mp ht with rfl | ht
        · rw [hl] at hh; cases hh
        · obtain ⟨v, _, rfl⟩ := List.mem_map.mp ht
          exact List.mem_singleton.mp hh)
      (by
        intro t ht h hh
        obtain ⟨v, _, rfl⟩ := List.mem_map.mp ht
        cases hh)
      (by
        have e := used_mid [] (done.map waitingRequest) l
        rw [List.nil_append, hl] at e
        have e' : used (l :: done.map waitingRequest) = done.length := by
          rw [e, used_waiting]; show 0 + 0 + _ = _; omega
        rw [e', used_new]
        simp only [List.length_cons] at hn
        omega)
      (request_solo u)
    refine ⟨List.replicate (requestBegin u).length (l :: done.map waitingRequest).length ++ is, ?_⟩
    have e1 : l :: (done.map waitingRequest ++ (u :: us).map newRequest) =
        (l :: done.map waitingRequest) ++ ⟨false, [], requestBegin u ++ requestEnd u⟩ :: us.map newRequest := rfl
    have e2 : (l :: done.map waitingRequest) ++ ⟨false, [.db], requestEnd u⟩ :: us.map newRequest =
        l :: ((done ++ [u]).map waitingRequest ++ us.map newRequest) := by
      simp [waitingRequest]
    rw [e1, run_append hs, e2, hi]
    simp

/-- C129 is violated if the number of database connections is limited (`Opts.DBMaxConns`, `/repo/v3.go` 107-113). For
every limit `n`, `n` requests of users who have no user cache yet and one message that a room is to be read
again can stop the whole proxy: each request has a connection, since `SelectAllNonZeroCountsForUser` calls back while
its rows are open (`/repo/state/unread_table.go` 26-45), and the callback needs `roomIDToMetadataMu`
(`/repo/sync3/caches/user.go` 407); `GlobalCache.OnInvalidateRoom` has `roomIDToMetadataMu` and needs a connection
(`/repo/sync3/caches/global.go` 380-395). No goroutine can do anything any more, and none of them is done. -/
theorem C129_violated_pool (n : Nat) :
    ∃ s₀ is s, (∀ t ∈ s₀, IsCode t) ∧ OneListener s₀ ∧ s₀.length = n + 1 ∧ run (some n) s₀ is = some s ∧
      (∀ i, step (some n) s i = none) ∧ ∀ t ∈ s, ¬ Idle t := by
  obtain ⟨is, hi⟩ := requests_run (n := n) (l := ⟨true, [], listenerBegin ++ listenerEnd⟩) rfl (List.range n) []
    (by simp)
  have hs := solo_run (n := n) (m := 0) (pre := []) (post := (List.range n).map waitingRequest) (li := true)
    (r := listenerEnd) (H' := [.w globalsMu]) (p := listenerBegin) (H := []) (fun _ h => nomatch h)
    (by
      intro t ht h hh
      obtain ⟨v, _, rfl⟩ := List.mem_map.mp ht
      exact List.mem_singleton.mp hh)
    (by rw [used_waiting, List.length_range]; show 0 + n + 0 ≤ n; omega)
    listener_solo
  have hu : used (⟨true, [.w globalsMu], listenerEnd⟩ :: (List.range n).map waitingRequest) = n := by
    have e := used_mid [] ((List.range n).map waitingRequest) ⟨true, [.w globalsMu], listenerEnd⟩
    rw [List.nil_append] at e
    rw [e, used_waiting, List.length_range]
    show 0 + 0 + n = n
    omega
  refine ⟨⟨true, [], listenerBegin ++ listenerEnd⟩ :: (List.range n).map newRequest, is ++ List.replicate listenerBegin.length 0,
    ⟨true, [.w globalsMu], listenerEnd⟩ :: (List.range n).map waitingRequest, ?_, ?_, ?_, ?_, ?_, ?_⟩
  · intro t ht
    rcases List.mem_cons.mp ht with rfl | ht
    · exact listener_code
    · obtain ⟨u, _, rfl⟩ := List.mem_map.mp ht
      exact request_code u
  · have hz : ∀ (i : Nat) (t : Thread),
        (⟨true, [], listenerBegin ++ listenerEnd⟩ :: (List.range n).map newRequest)[i]? = some t →
        t.listener = true → i = 0 := by
      intro i t hi hl
      cases i with
      | zero => rfl
      | succ i =>
        obtain ⟨u, _, rfl⟩ := List.mem_map.mp (List.mem_of_getElem? (l := (List.range n).map newRequest) hi)
        cases hl
    intro i j t t' hi hj hl hl'
    rw [hz i t hi hl, hz j t' hj hl']
  · simp
  · exact (run_append hi).trans hs
  · intro i
    cases i with
    | zero =>
      show (if (free (some n) _ .take) = true then _ else _) = _
      rw [if_neg]
      unfold free
      rw [hu]
      simp
    | succ i =>
      unfold step
      rcases Option.eq_none_or_eq_some ((⟨true, [.w globalsMu], listenerEnd⟩ :: (List.range n).map waitingRequest)[i + 1]?)
        with h | ⟨t, h⟩
      · rw [h]
      · rw [h]
        obtain ⟨u, _, rfl⟩ := List.mem_map.mp (List.mem_of_getElem? (l := (List.range n).map waitingRequest) h)
        show (if (free (some n) _ (.rlock globalsMu)) = true then _ else _) = _
        rw [if_neg]
        simp [free, blocks]
  · intro t ht hid
    rcases List.mem_cons.mp ht with rfl | ht
    · exact nomatch hid.1
    · obtain ⟨u, _, rfl⟩ := List.mem_map.mp ht
      exact nomatch hid.1

/-! ### Two listeners -/

/-- A listener that handles an event: who is in the room and has a user cache. -/
def readingListener : List Act :=
  [.wait, .claim pubsubMu, .enter pubsubMu, .work, .unlock pubsubMu, .take, .work, .give,
   .rlock trackerMu, .rlock receiversMu, .work, .runlock receiversMu, .runlock trackerMu,
   .rlock receiversMu, .claim globalsMu, .enter globalsMu, .work, .unlock globalsMu, .runlock receiversMu]

/-- A listener that handles a member event: the tracker is changed first. -/
def writingListener : List Act :=
  [.wait, .claim pubsubMu, .enter pubsubMu, .work, .unlock pubsubMu, .take, .work, .give,
   .claim trackerMu, .enter trackerMu, .work, .unlock trackerMu, .rlock trackerMu, .work, .runlock trackerMu,
   .rlock trackerMu, .rlock receiversMu, .work, .runlock receiversMu, .runlock trackerMu,
   .rlock receiversMu, .claim globalsMu, .enter globalsMu, .work, .unlock globalsMu, .runlock receiversMu]

/-- A request whose user cache is registered: the space children of a room are put in the cache. -/
def registering : List Act :=
  [.take, .work, .give, .claim ensureMu, .enter ensureMu, .work, .unlock ensureMu,
   .take, .give, .take, .work, .give, .take, .work, .give, .take, .work, .give, .take, .work, .give,
   .claim receiversMu, .enter receiversMu,
   .take, .work, .give,
   .rlock (roomDataMu 7), .work, .runlock (roomDataMu 7),
   .claim (roomDataMu 7), .enter (roomDataMu 7), .work, .unlock (roomDataMu 7),
   .rlock trackerMu, .work, .runlock trackerMu,
   .claim (roomDataMu 7), .enter (roomDataMu 7), .work, .unlock (roomDataMu 7),
   .unlock receiversMu,
   .claim connMapMu, .enter connMapMu, .claim (listenersMu 7), .enter (listenersMu 7), .work, .unlock (listenersMu 7),
   .unlock connMapMu,
   .claim connMapMu, .enter connMapMu, .work, .unlock connMapMu]

theorem reading_code : IsCode ⟨true, [], readingListener⟩ := by
  refine ⟨rfl, ?_⟩
  have hr : Trace roomReceivers _ := .rlocked (.again (rlocked_trace _) .stop)
  have hn : Trace notifyListeners _ := .rlocked (.seq (locked_trace _) .stop)
  have hm : Trace message _ :=
    .right <| .left <| .seq db_trace (.again (.seq (.right .skip) (.seq hr hn)) .stop)
  have hl : Trace listener _ := .again (.seq .wait (.seq (locked_trace _) hm)) .stop
  exact hl

theorem writing_code : IsCode ⟨true, [], writingListener⟩ := by
  refine ⟨rfl, ?_⟩
  have hr : Trace roomReceivers _ := .rlocked (.again (rlocked_trace _) .stop)
  have hn : Trace notifyListeners _ := .rlocked (.seq (locked_trace _) .stop)
  have hm : Trace message _ :=
    .right <| .left <| .seq db_trace
      (.again (.seq (.left (.seq (.left (locked_trace _)) (rlocked_trace _))) (.seq hr hn)) .stop)
  have hl : Trace listener _ := .again (.seq .wait (.seq (locked_trace _) hm)) .stop
  exact hl

theorem registering_code : IsCode ⟨false, [], registering⟩ := by
  refine ⟨rfl, .left (.any 7 (.any 7 ?_))⟩
  have hp : Trace (cacheSpace 7) _ :=
    .seq (rlocked_trace _) (.seq (locked_trace _) (.seq (rlocked_trace _) (.right .skip)))
  have hg : Trace (register 7) _ :=
    .locked (.seq (.seq db_trace (.seq (.right .skip) (.seq (.right .skip) (.right .skip))))
      (.again (.seq (.again hp .stop) (locked_trace _)) .stop))
  have hc : Trace (userCache 7) _ :=
    .seq (.query .stop) <| .seq db_trace <| .seq (.right .skip) <| .seq db_trace <|
    .seq (.right .skip) <| .seq db_trace <| .seq (.right .skip) <| .seq db_trace <| .seq .stop
      (.left (.seq hg (.right .skip)))
  have hn : Trace (createConn 7) _ :=
    .locked (.seq (.right .skip) (.seq (.right .skip) (locked_trace _)))
  have hs : Trace (serve 7 7) _ :=
    .seq (.seq db_trace <| .seq (.right .skip) <| .seq (.right .skip) <| .right <|
      .seq (.seq (locked_trace _) (.right .skip)) <| .left (.seq hc (.seq hn (locked_trace _)))) (.right .skip)
  exact hs

/-- Who has done how much when the circle closes: the first listener reads the tracker, the request has
`userToReceiverMu`, the second listener has claimed the tracker. -/
def circle : List Nat := List.replicate 9 0 ++ List.replicate 33 2 ++ List.replicate 9 1

/-- That there is only one listener is needed: with two of them, an event, a member event and a request whose user
cache is registered can wait for each other for good. The first listener has `JoinedRoomsTracker.mu` for reading and
wants `userToReceiverMu` (`/repo/sync3/dispatcher.go` 200-205); the request has `userToReceiverMu` and wants
`JoinedRoomsTracker.mu` for reading (`/repo/sync3/dispatcher.go` 82-90, `/repo/sync3/caches/user.go` 585); the second
listener waits for the first to stop reading, and keeps new readers out. -/
theorem C129_needs_one_listener :
    ∃ s₀ is s, (∀ t ∈ s₀, IsCode t) ∧ run none s₀ is = some s ∧ Chain s 0 0 ∧ ∀ i, step none s i = none := by
  refine ⟨[⟨true, [], readingListener⟩, ⟨true, [], writingListener⟩, ⟨false, [], registering⟩], circle,
    [⟨true, [.r trackerMu], readingListener.drop 9⟩, ⟨true, [.w trackerMu], writingListener.drop 9⟩,
     ⟨false, [.w receiversMu], registering.drop 33⟩], ?_, by decide +kernel, ?_, ?_⟩
  · intro t ht
    rcases List.mem_cons.mp ht with rfl | ht
    · exact reading_code
    rcases List.mem_cons.mp ht with rfl | ht
    · exact writing_code
    rcases List.mem_cons.mp ht with rfl | ht
    · exact registering_code
    cases ht
  · refine .more (j := 2) ⟨_, _, _, _, .w receiversMu, rfl, rfl, rfl, by decide, by decide⟩ ?_
    refine .more (j := 1) ⟨_, _, _, _, .w trackerMu, rfl, rfl, rfl, by decide, by decide⟩ ?_
    exact .one ⟨_, _, _, _, .r trackerMu, rfl, rfl, rfl, by decide, by decide⟩
  · intro i
    match i with
    | 0 => decide +kernel
    | 1 => decide +kernel
    | 2 => decide +kernel
    | _ + 3 => rfl

/-! ### The hypotheses can be met -/

/-- A listener, a request that registers a user cache and another request, in the middle of what they do: the listener
waits for the lock the first request has. There is one listener, and no limit on connections. -/
example :
    ∃ s₀ is s, (∀ t ∈ s₀, IsCode t) ∧ OneListener s₀ ∧ run none s₀ is = some s ∧ Waits s 0 1 ∧
      ∃ t ∈ s, t.held ≠ [] := by
  refine ⟨[⟨true, [], readingListener⟩, ⟨false, [], registering⟩, newRequest 3],
    List.replicate 23 1 ++ List.replicate 9 0 ++ List.replicate 12 2,
    [⟨true, [.r trackerMu], readingListener.drop 9⟩, ⟨false, [.w receiversMu], registering.drop 23⟩,
     ⟨false, [.w (roomDataMu 3), .db], (requestBegin 3 ++ requestEnd 3).drop 12⟩], ?_, ?_, by decide +kernel, ?_,
    _, List.mem_cons_self, by decide⟩
  · intro t ht
    rcases List.mem_cons.mp ht with rfl | ht
    · exact reading_code
    rcases List.mem_cons.mp ht with rfl | ht
    · exact registering_code
    rcases List.mem_cons.mp ht with rfl | ht
    · exact request_code 3
    cases ht
  · intro i j t t' hi hj hl hl'
    have hz : ∀ (i : Nat) (t : Thread),
        [⟨true, [], readingListener⟩, ⟨false, [], registering⟩, newRequest 3][i]? = some t →
        t.listener = true → i = 0 := by
      intro i t hi hl
      match i with
      | 0 => rfl
      | 1 => injection hi with hi; subst hi; cases hl
      | 2 => injection hi with hi; subst hi; cases hl
      | _ + 3 => cases hi
    rw [hz i t hi hl, hz j t' hj hl']
  · exact ⟨_, _, _, _, .w receiversMu, rfl, rfl, rfl, by decide, by decide⟩

end Verif.Locks
