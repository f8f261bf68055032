import Verif.SpamDelay
import Verif.Util
/-!
# C156: a client that starts over again and again delays only itself
-/
namespace Verif.SpamDelay
open Verif.ConnMap (CID Conn getConn createConn removeKey)

/-! ## What is claimed -/

/-- How many connections were made. -/
def creates : List Op → Nat
  | [] => 0
  | .conn (.create _) :: r => creates r + 1
  | _ :: r => creates r

/-- How many requests were processed on the connection. -/
def answers (id : Nat) : List Op → Nat
  | [] => 0
  | .answer j :: r => answers id r + if j = id then 1 else 0
  | _ :: r => answers id r

/-- No connection is made under the key. -/
def NoCreate (k : String) (ops : List Op) : Prop := ∀ cid : CID, .conn (.create cid) ∈ ops → cid.key ≠ k

/-- Who starts over has got two answers since last starting. -/
def Patient (ops : List Op) : Prop := ∀ (a b c : List Op) (x y : CID), ops = a ++ .conn (.create x) :: b ++ .conn (.create y) :: c →
  x.key = y.key → NoCreate y.key b → 2 ≤ answers (creates a) b

/-! ## Proof -/

theorem creates_snoc (l : List Op) (o : Op) : creates (l ++ [o]) = creates l + match o with | .conn (.create _) => 1 | _ => 0 := by
  induction l with
  | nil => cases o with
    | answer i => rfl
    | conn o => cases o <;> rfl
  | cons p l ih =>
    cases p with
    | answer i => exact ih
    | conn p =>
      cases p with
      | create cid =>
        show creates (l ++ [o]) + 1 = creates l + 1 + _
        rw [ih]; omega
      | _ => exact ih

theorem answers_snoc (id : Nat) (l : List Op) (o : Op) : answers id (l ++ [o]) = answers id l + match o with | .answer j => (if j = id then 1 else 0) | _ => 0 := by
  induction l with
  | nil => cases o with
    | answer i => show answers id [] + _ = _; rfl
    | conn o => rfl
  | cons p l ih =>
    cases p with
    | answer i =>
      show answers id (l ++ [o]) + _ = answers id l + _ + _
      rw [ih]; omega
    | conn p => exact ih

/-- Where the connection `c` under the key comes from. -/
def Since (ops : List Op) (k : String) (id n : Nat) : Prop :=
  ∃ (a b : List Op) (x : CID), ops = a ++ .conn (.create x) :: b ∧ x.key = k ∧ NoCreate k b ∧ id = creates a ∧ n = answers id b

structure Inv (ops : List Op) (s : S) : Prop where
  next : s.conns.next = creates ops
  item : ∀ p ∈ s.conns.cache, Since ops p.1 p.2.id (s.pos p.2.id) ∧ p.2.id < s.conns.next
  fresh : ∀ i, s.conns.next ≤ i → s.pos i = 0

theorem remove_sub (s : ConnMap.State) (k : String) : (∀ p ∈ (removeKey s k).cache, p ∈ s.cache) ∧ (removeKey s k).next = s.next := by
  unfold removeKey
  split
  · exact ⟨fun _ h => h, rfl⟩
  · exact ⟨fun _ h => (List.mem_filter.1 h).1, rfl⟩

theorem removes_sub (ks : List String) (s : ConnMap.State) : (∀ p ∈ (ks.foldl removeKey s).cache, p ∈ s.cache) ∧ (ks.foldl removeKey s).next = s.next := by
  induction ks generalizing s with
  | nil => exact ⟨fun _ h => h, rfl⟩
  | cons k ks ih =>
    obtain ⟨h1, h2⟩ := ih (removeKey s k)
    obtain ⟨h3, h4⟩ := remove_sub s k
    exact ⟨fun p hp => h3 p (h1 p hp), h2.trans h4⟩

theorem users_sub (us : List String) (s : ConnMap.State) : (∀ p ∈ (ConnMap.closeUsers s us).cache, p ∈ s.cache) ∧ (ConnMap.closeUsers s us).next = s.next := by
  unfold ConnMap.closeUsers
  induction us generalizing s with
  | nil => exact ⟨fun _ h => h, rfl⟩
  | cons u us ih =>
    obtain ⟨h1, h2⟩ := ih (((s.userConns.filter fun c => c.cid.user = u).map (·.cid.key)).foldl removeKey s)
    obtain ⟨h3, h4⟩ := removes_sub ((s.userConns.filter fun c => c.cid.user = u).map (·.cid.key)) s
    exact ⟨fun p hp => h3 p (h1 p hp), h2.trans h4⟩

theorem other_sub (s : ConnMap.State) (o : ConnMap.Op) (ho : ∀ c, o ≠ .create c) :
    (∀ p ∈ (ConnMap.step s o).cache, p ∈ s.cache) ∧ (ConnMap.step s o).next = s.next := by
  cases o with
  | create c => exact absurd rfl (ho c)
  | lookup c =>
    show (∀ p ∈ (getConn s c).1.cache, p ∈ s.cache) ∧ (getConn s c).1.next = s.next
    unfold getConn
    split
    · exact ⟨fun _ h => h, rfl⟩
    · split <;> exact ⟨fun _ h => h, rfl⟩
  | die id =>
    unfold ConnMap.step
    by_cases h : id < s.next
    · simp only [if_pos h]; exact ⟨fun _ h => h, trivial⟩
    · simp only [if_neg h]; exact ⟨fun _ h => h, trivial⟩
  | expire k => exact remove_sub s k
  | closeDevice u d => exact removes_sub _ s
  | closeUsers us => exact users_sub us s
  | callback i =>
    show (∀ p ∈ (ConnMap.callback s i).cache, p ∈ s.cache) ∧ (ConnMap.callback s i).next = s.next
    unfold ConnMap.callback
    split <;> exact ⟨fun _ h => h, rfl⟩

theorem create_cache (s : ConnMap.State) (cid : CID) :
    (createConn s cid).cache = (cid.key, ⟨s.next, cid⟩) :: s.cache.filter (fun p => p.1 ≠ cid.key) ∧ (createConn s cid).next = s.next + 1 := by
  unfold createConn getConn
  cases s.cache.lookup cid.key with
  | none => exact ⟨rfl, rfl⟩
  | some d =>
    by_cases h : d.id ∈ s.dead
    · simp only [h, if_true]; exact ⟨rfl, rfl⟩
    · simp only [h, if_false]; exact ⟨rfl, rfl⟩

theorem noCreate_snoc {k : String} {b : List Op} {o : Op} (h : NoCreate k b) (ho : ∀ cid : CID, o = .conn (.create cid) → cid.key ≠ k) :
    NoCreate k (b ++ [o]) := by
  intro cid hm
  rcases List.mem_append.1 hm with hm | hm
  · exact h cid hm
  · exact ho cid (List.mem_singleton.1 hm).symm

theorem since_snoc {ops : List Op} {k : String} {id n m : Nat} (h : Since ops k id n) (o : Op)
    (hm : m = n + match o with | .answer j => (if j = id then 1 else 0) | _ => 0) (ho : ∀ cid : CID, o = .conn (.create cid) → cid.key ≠ k) : Since (ops ++ [o]) k id m := by
  obtain ⟨a, b, x, e, h1, h2, h3, h4⟩ := h
  refine ⟨a, b ++ [o], x, by rw [e]; simp, h1, noCreate_snoc h2 ho, h3, ?_⟩
  rw [answers_snoc, ← h4, hm]

theorem run_snoc (ops : List Op) (o : Op) : run (ops ++ [o]) = step (run ops) o := by
  unfold run; rw [List.foldl_append]; rfl

theorem inv_run (ops : List Op) : Inv ops (run ops) := by
  induction ops using Verif.Util.snocRec with
  | nil => exact ⟨rfl, (fun _ h => nomatch h), fun _ _ => rfl⟩
  | append_singleton ops o ih =>
    rw [run_snoc]
    cases o with
    | answer j =>
      unfold step
      by_cases hj : j < (run ops).conns.next
      · simp only [if_pos hj]
        refine ⟨?_, ?_, ?_⟩
        · show (run ops).conns.next = _
          rw [creates_snoc, ih.next]; rfl
        · intro p hp
          obtain ⟨h1, h2⟩ := ih.item p hp
          refine ⟨since_snoc h1 _ ?_ (fun _ e => nomatch e), h2⟩
          show (if p.2.id = j then (run ops).pos j + 1 else (run ops).pos p.2.id) = _
          by_cases e : p.2.id = j
          · rw [if_pos e, e]; simp
          · rw [if_neg e]; simp [Ne.symm e]
        · intro i hi
          have hi : (run ops).conns.next ≤ i := hi
          show (if i = j then _ else (run ops).pos i) = 0
          rw [if_neg (by omega)]
          exact ih.fresh i hi
      · simp only [if_neg hj]
        refine ⟨by rw [creates_snoc, ih.next]; rfl, fun p hp => ?_, ih.fresh⟩
        obtain ⟨h1, h2⟩ := ih.item p hp
        refine ⟨since_snoc h1 _ ?_ (fun _ e => nomatch e), h2⟩
        have : ¬ j = p.2.id := by omega
        simp [this]
    | conn o =>
      by_cases hc : ∃ cid, o = .create cid
      · obtain ⟨cid, rfl⟩ := hc
        obtain ⟨e1, e2⟩ := create_cache (run ops).conns cid
        refine ⟨?_, ?_, ?_⟩
        · show (createConn (run ops).conns cid).next = _
          rw [e2, creates_snoc, ih.next]
        · intro p hp
          have hp : p ∈ (createConn (run ops).conns cid).cache := hp
          show Since _ p.1 p.2.id ((run ops).pos p.2.id) ∧ p.2.id < (createConn (run ops).conns cid).next
          rw [e2]
          rw [e1] at hp
          rcases List.mem_cons.1 hp with rfl | hp
          · refine ⟨⟨ops, [], cid, rfl, rfl, (fun _ h => nomatch h), ih.next, ?_⟩, Nat.lt_succ_self _⟩
            exact ih.fresh _ (Nat.le_refl _)
          · obtain ⟨hp, hk⟩ := List.mem_filter.1 hp
            obtain ⟨h1, h2⟩ := ih.item p hp
            refine ⟨since_snoc h1 _ rfl ?_, by omega⟩
            intro cid' e
            cases e
            exact fun e => of_decide_eq_true hk e.symm
        · intro i hi
          have hi : (createConn (run ops).conns cid).next ≤ i := hi
          rw [e2] at hi
          exact ih.fresh i (by omega)
      · have ho : ∀ c, o ≠ .create c := fun c e => hc ⟨c, e⟩
        obtain ⟨h1, h2⟩ := other_sub (run ops).conns o ho
        refine ⟨?_, ?_, ?_⟩
        · show (ConnMap.step (run ops).conns o).next = _
          rw [h2, creates_snoc, ih.next]
          cases o with
          | create c => exact absurd rfl (ho c)
          | _ => rfl
        · intro p hp
          obtain ⟨h3, h4⟩ := ih.item p (h1 p hp)
          refine ⟨since_snoc h3 _ rfl ?_, ?_⟩
          · intro cid e
            cases e
            exact absurd rfl (ho cid)
          · show p.2.id < (ConnMap.step (run ops).conns o).next
            rw [h2]; exact h4
        · intro i hi
          have hi : (ConnMap.step (run ops).conns o).next ≤ i := hi
          rw [h2] at hi
          exact ih.fresh i hi

theorem lookup_mem {l : List (String × Conn)} {k : String} {c : Conn} (h : l.lookup k = some c) : (k, c) ∈ l := by
  induction l with
  | nil => cases h
  | cons p l ih =>
    rw [List.lookup_cons] at h
    cases hk : k == p.1 with
    | true =>
      rw [hk] at h
      have : k = p.1 := by simpa using hk
      have h : p.2 = c := Option.some.inj h
      rw [this, ← h]; exact List.mem_cons_self
    | false => rw [hk] at h; exact List.mem_cons_of_mem _ (ih h)

/-- C156: a client waits only if it was hasty: it has had at most one answer since it started last. -/
theorem C156_hasty (ops : List Op) (y : CID) (h : delay (run ops) y ≠ 0) :
    ∃ (a b : List Op) (x : CID), ops = a ++ .conn (.create x) :: b ∧ x.key = y.key ∧ NoCreate y.key b ∧ answers (creates a) b ≤ 1 := by
  unfold delay at h
  cases hg : (getConn (run ops).conns y).2 with
  | none => rw [hg] at h; exact absurd rfl h
  | some c =>
    rw [hg] at h
    dsimp only at h
    by_cases hp : (run ops).pos c.id ≤ 1
    · have hm : (y.key, c) ∈ (run ops).conns.cache := by
        unfold getConn at hg
        cases hl : (run ops).conns.cache.lookup y.key with
        | none => rw [hl] at hg; cases hg
        | some d =>
          rw [hl] at hg
          by_cases hd : d.id ∈ (run ops).conns.dead
          · simp only [if_pos hd] at hg; cases hg
          · simp only [if_neg hd, Option.some.injEq] at hg
            rw [← hg]; exact lookup_mem hl
      obtain ⟨⟨a, b, x, e, h1, h2, h3, h4⟩, -⟩ := (inv_run ops).item _ hm
      refine ⟨a, b, x, e, h1, h2, ?_⟩
      dsimp only at h3 h4
      rw [← h3, ← h4]; exact hp
    · rw [if_neg hp] at h; exact absurd rfl h

/-- C156 (partial: no client is hasty): nobody sleeps with the lock held, so no request waits for the delay of another. -/
theorem C156_patient_partial (ops : List Op) (h : Patient ops) : (run ops).slept = 0 := by
  induction ops using Verif.Util.snocRec with
  | nil => rfl
  | append_singleton ops o ih =>
    have hp : Patient ops := by
      intro a b c x y e
      exact h a b (c ++ [o]) x y (by rw [e]; simp)
    rw [run_snoc]
    cases o with
    | answer j =>
      unfold step
      by_cases hj : j < (run ops).conns.next
      · simp only [if_pos hj]; exact ih hp
      · simp only [if_neg hj]; exact ih hp
    | conn o =>
      show (run ops).slept + _ = 0
      rw [ih hp]
      cases o with
      | create y =>
        show 0 + delay (run ops) y = 0
        rw [Nat.zero_add]
        by_cases hd : delay (run ops) y = 0
        · exact hd
        · obtain ⟨a, b, x, e, h1, h2, h3⟩ := C156_hasty ops y hd
          have := h a b [] x y (by rw [e]) h1 h2
          omega
      | _ => rfl

/-- C156: in any execution the lock is held by sleeping for at most the interval for each connection made. -/
theorem C156_bound (ops : List Op) : (run ops).slept ≤ 10 * creates ops := by
  induction ops using Verif.Util.snocRec with
  | nil => exact Nat.le_refl _
  | append_singleton ops o ih =>
    rw [run_snoc, creates_snoc]
    cases o with
    | answer j =>
      unfold step
      by_cases hj : j < (run ops).conns.next
      · simp only [if_pos hj]; exact ih
      · simp only [if_neg hj]; exact ih
    | conn o =>
      cases o with
      | create y =>
        show (run ops).slept + delay (run ops) y ≤ 10 * (creates ops + 1)
        have : delay (run ops) y ≤ 10 := by
          unfold delay
          split
          · split <;> omega
          · omega
        omega
      | _ => exact ih

/-! ## Others wait -/

private def me : CID := ⟨"@a:h", "D", "1"⟩
private def you : CID := ⟨"@b:h", "D", "1"⟩

theorem spam_state (n : Nat) : ∃ c, (getConn (run (List.replicate (n + 1) (.conn (.create you)))).conns you).2 = some c ∧
    (run (List.replicate (n + 1) (.conn (.create you)))).conns.dead = [] ∧ (∀ i, (run (List.replicate (n + 1) (.conn (.create you)))).pos i = 0) ∧
    (run (List.replicate (n + 1) (.conn (.create you)))).slept = 10 * n := by
  induction n with
  | zero => exact ⟨⟨0, you⟩, by decide +kernel, by decide +kernel, fun _ => rfl, by decide +kernel⟩
  | succ n ih =>
    obtain ⟨c, h1, h2, h3, h4⟩ := ih
    rw [List.replicate_succ', run_snoc]
    generalize run (List.replicate (n + 1) (.conn (.create you))) = s at h1 h2 h3 h4
    obtain ⟨e1, -⟩ := create_cache s.conns you
    have hd : (createConn s.conns you).dead = [] := by
      rw [← h2]
      unfold createConn getConn
      cases s.conns.cache.lookup you.key with
      | none => rfl
      | some d =>
        by_cases h : d.id ∈ s.conns.dead
        · simp only [h, if_true]; rfl
        · simp only [h, if_false]; rfl
    refine ⟨⟨s.conns.next, you⟩, ?_, hd, h3, ?_⟩
    · show (getConn (createConn s.conns you) you).2 = _
      unfold getConn
      rw [e1, List.lookup_cons, beq_self_eq_true]
      simp [hd]
    · show s.slept + delay s you = _
      have : delay s you = 10 := by
        unfold delay
        rw [h1]
        simp [h3]
      rw [this, h4]; omega

/-- C156 is violated: a client that starts over again and again is made to wait with the lock of all connections held. Requests of one user
alone keep the lock for as long as they like, and what another user asks is served after them. -/
theorem C156_violated (t : Nat) : ∃ ops, (∀ o ∈ ops, o = .conn (.create you)) ∧ t ≤ (run ops).slept ∧
    (run (ops ++ [.conn (.lookup me)])).slept = (run ops).slept := by
  refine ⟨List.replicate (t + 1) (.conn (.create you)), fun o ho => (List.mem_replicate.1 ho).2, ?_, ?_⟩
  · obtain ⟨-, -, -, -, h⟩ := spam_state t
    rw [h]; omega
  · rw [run_snoc]; rfl

/-- The hypothesis of `C156_patient_partial` is met by a client that starts over after two answers, and one more client. -/
example : (run [.conn (.create you), .conn (.create me), .answer 0, .answer 0, .conn (.create you)]).slept = 0 ∧
    (run [.conn (.create you), .conn (.create me), .answer 0, .answer 1, .conn (.create you)]).slept = 10 := by decide +kernel

example : Patient [.conn (.create you), .answer 0, .answer 0, .conn (.create you)] := by
  intro a b c x y e hk hn
  cases a with
  | nil =>
    simp only [List.nil_append, List.cons_append, List.cons.injEq] at e
    obtain ⟨-, e⟩ := e
    match b, e with
    | [], e => simp at e
    | [_], e => simp at e
    | [p, q], e =>
      simp only [List.cons_append, List.nil_append, List.cons.injEq] at e
      obtain ⟨rfl, rfl, -⟩ := e
      decide
    | _ :: _ :: _ :: b, e => simp at e
  | cons p a =>
    have hl := congrArg List.length e
    match a, e with
    | [], e => simp at e
    | [_], e => simp at e
    | _ :: _ :: a, e =>
      simp at hl
      omega

end Verif.SpamDelay
