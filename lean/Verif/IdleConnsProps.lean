import Verif.IdleConns
import Verif.Util
/-!
# C154: a connection in use does not expire
-/
namespace Verif.IdleConns
open Verif.ConnMap (CID Conn removeKey closeConn getConn createConn)

/-! ## What is claimed -/

/-- No stretch longer than `ttl` without a look-up of the key, `g` of it having passed. -/
def Used (ttl : Nat) (key : String) : Nat → List Op → Prop
  | g, [] => g ≤ ttl
  | g, .tick d :: r => g + d ≤ ttl ∧ Used ttl key (g + d) r
  | g, .find cid :: r => if cid.key = key then Used ttl key 0 r else Used ttl key g r
  | g, _ :: r => Used ttl key g r

/-- The operation neither replaces nor closes nor fills up the connection `id` of the key. -/
def Spares (key : String) (id : Nat) : Op → Prop
  | .create cid => cid.key ≠ key
  | .die i => i ≠ id
  | .closeDevice u d => ∀ cid : CID, cid.user = u → cid.device = d → cid.key ≠ key
  | .closeUsers us => ∀ cid : CID, cid.user ∈ us → cid.key ≠ key
  | _ => True

/-- The time that passes. -/
def ticks : List Op → Nat
  | [] => 0
  | .tick d :: r => d + ticks r
  | _ :: r => ticks r

/-- The operation does not look the key up, nor sets it. -/
def Leaves (key : String) : Op → Prop
  | .create cid => cid.key ≠ key
  | .find cid => cid.key ≠ key
  | _ => True

/-! ## Steps -/

theorem lookup_filter_ne {l : List (String × Conn)} {k key : String} (h : k ≠ key) :
    (l.filter fun p => p.1 ≠ k).lookup key = l.lookup key := by
  induction l with
  | nil => rfl
  | cons p l ih =>
    by_cases hp : p.1 = k
    · rw [List.filter_cons_of_neg (by simp [hp]), ih, List.lookup_cons]
      have : (key == p.1) = false := by
        rw [hp]; exact beq_eq_false_iff_ne.2 (Ne.symm h)
      rw [this]
    · rw [List.filter_cons_of_pos (by simp [hp]), List.lookup_cons, List.lookup_cons, ih]

theorem lookup_filter_self {l : List (String × Conn)} {k : String} : (l.filter fun p => p.1 ≠ k).lookup k = none := by
  induction l with
  | nil => rfl
  | cons p l ih =>
    by_cases hp : p.1 = k
    · rw [List.filter_cons_of_neg (by simp [hp]), ih]
    · rw [List.filter_cons_of_pos (by simp [hp]), List.lookup_cons, beq_eq_false_iff_ne.2 (Ne.symm hp)]
      exact ih

/-- Another key's item, and who is dead, stay. -/
def Same (key : String) (s s' : ConnMap.State) : Prop := s'.cache.lookup key = s.cache.lookup key ∧ s'.dead = s.dead

theorem same_remove {s : ConnMap.State} {k key : String} (h : k ≠ key) : Same key s (removeKey s k) := by
  unfold removeKey
  split
  · exact ⟨rfl, rfl⟩
  · exact ⟨lookup_filter_ne h, rfl⟩

theorem remove_gone (s : ConnMap.State) (k : String) : (removeKey s k).cache.lookup k = none := by
  unfold removeKey
  split
  · assumption
  · exact lookup_filter_self

theorem same_trans {key : String} {a b c : ConnMap.State} (h : Same key a b) (g : Same key b c) : Same key a c :=
  ⟨g.1.trans h.1, g.2.trans h.2⟩

theorem same_removes {key : String} (ks : List String) {s : ConnMap.State} (h : ∀ k ∈ ks, k ≠ key) : Same key s (ks.foldl removeKey s) := by
  induction ks generalizing s with
  | nil => exact ⟨rfl, rfl⟩
  | cons k ks ih =>
    exact same_trans (same_remove (h k List.mem_cons_self)) (ih fun j hj => h j (List.mem_cons_of_mem _ hj))

theorem same_get (s : ConnMap.State) (cid : CID) (key : String) : Same key s (getConn s cid).1 := by
  unfold getConn
  split
  · exact ⟨rfl, rfl⟩
  · split <;> exact ⟨rfl, rfl⟩

theorem create_eq (s : ConnMap.State) (cid : CID) : ∃ c, c.cid = cid ∧ c.id = s.next ∧
    (createConn s cid).cache = (cid.key, c) :: s.cache.filter (fun p => p.1 ≠ cid.key) ∧ (createConn s cid).dead = s.dead := by
  refine ⟨⟨s.next, cid⟩, rfl, rfl, ?_⟩
  unfold createConn getConn
  cases s.cache.lookup cid.key with
  | none => exact ⟨rfl, rfl⟩
  | some d =>
    by_cases h : d.id ∈ s.dead
    · simp only [h, if_true]; exact ⟨rfl, rfl⟩
    · simp only [h, if_false]; exact ⟨rfl, rfl⟩

theorem same_create {s : ConnMap.State} {cid : CID} {key : String} (h : cid.key ≠ key) : Same key s (createConn s cid) := by
  obtain ⟨c, -, -, e1, e2⟩ := create_eq s cid
  refine ⟨?_, e2⟩
  rw [e1, List.lookup_cons, beq_eq_false_iff_ne.2 (Ne.symm h)]
  exact lookup_filter_ne h

theorem same_users {key : String} (us : List String) {s : ConnMap.State} (h : ∀ cid : CID, cid.user ∈ us → cid.key ≠ key) :
    Same key s (ConnMap.closeUsers s us) := by
  unfold ConnMap.closeUsers
  induction us generalizing s with
  | nil => exact ⟨rfl, rfl⟩
  | cons u us ih =>
    refine same_trans (same_removes _ fun k hk => ?_) (ih fun cid hc => h cid (List.mem_cons_of_mem _ hc))
    obtain ⟨c, hc, rfl⟩ := List.mem_map.1 hk
    have := (List.mem_filter.1 hc).2
    exact h _ (by rw [decide_eq_true_eq] at this; rw [this]; exact List.mem_cons_self)

theorem same_callback (s : ConnMap.State) (i : Nat) (key : String) : Same key s (ConnMap.callback s i) := by
  unfold ConnMap.callback
  split <;> exact ⟨rfl, rfl⟩

/-- The key's item is the live connection `c`, `g` of its lifetime having passed. -/
structure Held (ttl : Nat) (key : String) (c : Conn) (g : Nat) (t : T) : Prop where
  item : t.conns.cache.lookup key = some c
  alive : c.id ∉ t.conns.dead
  clock : t.now + ttl = t.due key + g

theorem held_same {ttl key c g} {t : T} {s : ConnMap.State} (h : Held ttl key c g t) (hs : Same key t.conns s) :
    Held ttl key c g { t with conns := s } :=
  ⟨hs.1.trans h.item, hs.2 ▸ h.alive, h.clock⟩

theorem held_sweep {ttl key c g} {t : T} (h : Held ttl key c g t) (hg : g ≤ ttl) (k : String) : Held ttl key c g (sweep t k) := by
  unfold sweep
  split
  · rename_i hd
    refine held_same h (same_remove ?_)
    rintro rfl
    have := h.clock
    omega
  · exact h

theorem held_touch {ttl key c g} {t : T} (h : Held ttl key c g t) (k : String) :
    Held ttl key c (if k = key then 0 else g) (touch ttl t k) := by
  refine ⟨h.item, h.alive, ?_⟩
  have := h.clock
  unfold touch
  by_cases e : k = key
  · simp [e]
  · simp only [if_neg e, if_neg (Ne.symm e)]; exact this

theorem held_find {ttl key c g} {t : T} (h : Held ttl key c g t) (hg : g ≤ ttl) (cid : CID) :
    Held ttl key c (if cid.key = key then 0 else g) (find ttl t cid).1 :=
  held_same (held_touch (held_sweep h hg cid.key) cid.key) (same_get _ cid key)

theorem held_found {ttl c g} {t : T} {cid : CID} (h : Held ttl cid.key c g t) (hg : g ≤ ttl) : (find ttl t cid).2 = some c := by
  have h' := held_touch (held_sweep h hg cid.key) cid.key
  show (getConn _ cid).2 = some c
  unfold getConn
  rw [h'.item]
  simp only [if_neg h'.alive]

/-- Who is found is held from then on, with a full lifetime. -/
theorem found_held {ttl : Nat} {t : T} {cid : CID} {c : Conn} (h : (find ttl t cid).2 = some c) : Held ttl cid.key c 0 (find ttl t cid).1 := by
  have h2 : (getConn (sweep t cid.key).conns cid).2 = some c := h
  have hs := same_get (sweep t cid.key).conns cid cid.key
  unfold getConn at h2
  cases hl : (sweep t cid.key).conns.cache.lookup cid.key with
  | none => rw [hl] at h2; cases h2
  | some d =>
    rw [hl] at h2
    by_cases hd : d.id ∈ (sweep t cid.key).conns.dead
    · simp only [if_pos hd] at h2; cases h2
    · simp only [if_neg hd, Option.some.injEq] at h2
      subst h2
      refine ⟨hs.1.trans hl, ?_, ?_⟩
      · show d.id ∉ (getConn (sweep t cid.key).conns cid).1.dead
        rw [hs.2]; exact hd
      · show (sweep t cid.key).now + ttl = (if cid.key = cid.key then (sweep t cid.key).now + ttl else _) + 0
        rw [if_pos rfl]; rfl

theorem held_run {ttl : Nat} {key : String} {c : Conn} (ops : List Op) {g : Nat} {t : T} (h : Held ttl key c g t)
    (hu : Used ttl key g ops) (hg : g ≤ ttl) (hs : ∀ o ∈ ops, Spares key c.id o) :
    ∃ g', g' ≤ ttl ∧ Held ttl key c g' (ops.foldl (step ttl) t) := by
  induction ops generalizing g t with
  | nil => exact ⟨g, hg, h⟩
  | cons o ops ih =>
    have hs' := fun o ho => hs o (List.mem_cons_of_mem _ ho)
    have ho := hs o List.mem_cons_self
    cases o with
    | tick d =>
      refine ih ⟨h.item, h.alive, ?_⟩ hu.2 hu.1 hs'
      have := h.clock
      show t.now + d + ttl = t.due key + (g + d)
      omega
    | find cid =>
      have hf := held_find h hg cid
      unfold Used at hu
      by_cases e : cid.key = key
      · rw [if_pos e] at hf hu; exact ih hf hu (Nat.zero_le _) hs'
      · rw [if_neg e] at hf hu; exact ih hf hu hg hs'
    | create cid =>
      have e : cid.key ≠ key := ho
      have h1 := held_touch (held_sweep h hg cid.key) cid.key
      rw [if_neg e] at h1
      exact ih (held_same h1 (same_create e)) hu hg hs'
    | sweep k => exact ih (held_sweep h hg k) hu hg hs'
    | die i =>
      refine ih (t := step ttl t (.die i)) ⟨?_, ?_, h.clock⟩ hu hg hs'
      · show (ConnMap.step t.conns (.die i)).cache.lookup key = some c
        unfold ConnMap.step
        by_cases hi : i < t.conns.next
        · simp only [if_pos hi]; exact h.item
        · simp only [if_neg hi]; exact h.item
      · show c.id ∉ (ConnMap.step t.conns (.die i)).dead
        unfold ConnMap.step
        by_cases hi : i < t.conns.next
        · simp only [if_pos hi, List.mem_cons, not_or]
          exact ⟨fun e => ho e.symm, h.alive⟩
        · simp only [if_neg hi]; exact h.alive
    | closeDevice u d =>
      refine ih (held_same h (same_removes _ fun k hk => ?_)) hu hg hs'
      obtain ⟨x, hx, rfl⟩ := List.mem_map.1 hk
      have := (List.mem_filter.1 hx).2
      simp only [Bool.and_eq_true, decide_eq_true_eq] at this
      exact ho _ this.1 this.2
    | closeUsers us => exact ih (held_same h (same_users us ho)) hu hg hs'
    | callback i => exact ih (held_same h (same_callback _ i key)) hu hg hs'

theorem run_append (ttl : Nat) (a b : List Op) : run ttl (a ++ b) = b.foldl (step ttl) (run ttl a) := List.foldl_append

/-- C154: a connection that a look-up returns is returned again, whatever happens meanwhile to other connections and
whenever callbacks run and the cache notices what is over, if it is looked up at least once in each lifetime of the
cache and is neither replaced, closed nor full. -/
theorem C154_kept (ttl : Nat) (pre mid : List Op) (cid : CID) (c : Conn) (hc : (find ttl (run ttl pre) cid).2 = some c)
    (hu : Used ttl cid.key 0 mid) (hs : ∀ o ∈ mid, Spares cid.key c.id o) :
    (find ttl (run ttl (pre ++ .find cid :: mid)) cid).2 = some c := by
  rw [run_append]
  obtain ⟨g, hg, h⟩ := held_run mid (found_held hc) hu (Nat.zero_le _) hs
  exact held_found h hg

/-! ## Idle connections -/

theorem due_sweep (t : T) (k : String) : (sweep t k).due = t.due ∧ (sweep t k).now = t.now := by
  unfold sweep; split <;> exact ⟨rfl, rfl⟩

theorem idle_run (ttl : Nat) {key : String} (ops : List Op) (t : T) (h : ∀ o ∈ ops, Leaves key o) :
    (ops.foldl (step ttl) t).due key = t.due key ∧ (ops.foldl (step ttl) t).now = t.now + ticks ops := by
  induction ops generalizing t with
  | nil => exact ⟨rfl, rfl⟩
  | cons o ops ih =>
    obtain ⟨h1, h2⟩ := ih (step ttl t o) fun o ho => h o (List.mem_cons_of_mem _ ho)
    have ho := h o List.mem_cons_self
    rw [List.foldl_cons, h1, h2]
    cases o with
    | tick d => exact ⟨rfl, by show t.now + d + ticks ops = t.now + (d + ticks ops); omega⟩
    | find cid =>
      have e : cid.key ≠ key := ho
      refine ⟨?_, ?_⟩
      · show (if key = cid.key then _ else (sweep t cid.key).due key) = t.due key
        rw [if_neg (Ne.symm e), (due_sweep t _).1]
      · show (sweep t cid.key).now + ticks ops = _
        rw [(due_sweep t _).2]; rfl
    | create cid =>
      have e : cid.key ≠ key := ho
      refine ⟨?_, ?_⟩
      · show (if key = cid.key then _ else (sweep t cid.key).due key) = t.due key
        rw [if_neg (Ne.symm e), (due_sweep t _).1]
      · show (sweep t cid.key).now + ticks ops = _
        rw [(due_sweep t _).2]; rfl
    | sweep k =>
      refine ⟨?_, ?_⟩
      · show (sweep t k).due key = _
        rw [(due_sweep t k).1]
      · show (sweep t k).now + ticks ops = _
        rw [(due_sweep t k).2]; rfl
    | die i => exact ⟨rfl, rfl⟩
    | closeDevice u d => exact ⟨rfl, rfl⟩
    | closeUsers us => exact ⟨rfl, rfl⟩
    | callback i => exact ⟨rfl, rfl⟩

theorem over_none {ttl : Nat} {t : T} {cid : CID} (h : t.due cid.key < t.now) : (find ttl t cid).2 = none := by
  show (getConn (sweep t cid.key).conns cid).2 = none
  unfold sweep
  rw [if_pos h]
  unfold getConn
  rw [remove_gone]

/-- C154: a connection is not kept longer: when more than a lifetime has passed since the last look-up of its key, there
is none. -/
theorem C154_idle (ttl : Nat) (pre mid : List Op) (cid : CID) (hl : ∀ o ∈ mid, Leaves cid.key o) (ht : ttl < ticks mid) :
    (find ttl (run ttl (pre ++ .find cid :: mid)) cid).2 = none := by
  rw [run_append, List.foldl_cons]
  obtain ⟨h1, h2⟩ := idle_run ttl mid (step ttl (run ttl pre) (.find cid)) hl
  refine over_none ?_
  rw [h1, h2]
  have d : (step ttl (run ttl pre) (.find cid)).due cid.key = (sweep (run ttl pre) cid.key).now + ttl := by
    show (if cid.key = cid.key then _ else _) = _
    rw [if_pos rfl]
  have n : (step ttl (run ttl pre) (.find cid)).now = (sweep (run ttl pre) cid.key).now := rfl
  rw [d, n]
  omega

/-! ## The operations are those of the `ConnMap` -/

/-- With a clock happens nothing that cannot happen without: what is proved of the `ConnMap` with expiry at any time
(C19, C148) holds of it. -/
theorem C154_refines (ttl : Nat) (ops : List Op) : ∃ ops', (run ttl ops).conns = ConnMap.run ops' := by
  refine Util.snocRec (P := fun ops => ∃ ops', (run ttl ops).conns = ConnMap.run ops') ⟨[], rfl⟩ ?_ ops
  intro ops o ⟨ops', h⟩
  have hr : run ttl (ops ++ [o]) = step ttl (run ttl ops) o := by rw [run_append]; rfl
  have one : ∀ q, ConnMap.step (run ttl ops).conns q = ConnMap.run (ops' ++ [q]) := fun q => by
    rw [h]; unfold ConnMap.run; rw [List.foldl_append]; rfl
  have two : ∀ q r, ConnMap.step (ConnMap.step (run ttl ops).conns q) r = ConnMap.run (ops' ++ [q, r]) := fun q r => by
    rw [h]; unfold ConnMap.run; rw [List.foldl_append]; rfl
  have sw : ∀ k, (sweep (run ttl ops) k).conns = (run ttl ops).conns ∨
      (sweep (run ttl ops) k).conns = ConnMap.step (run ttl ops).conns (.expire k) := by
    intro k; unfold sweep; split
    · exact Or.inr rfl
    · exact Or.inl rfl
  rw [hr]
  cases o with
  | tick d => exact ⟨ops', h⟩
  | find cid =>
    have e : (step ttl (run ttl ops) (.find cid)).conns = ConnMap.step (sweep (run ttl ops) cid.key).conns (.lookup cid) := rfl
    rw [e]
    rcases sw cid.key with e | e <;> rw [e]
    · exact ⟨_, one _⟩
    · exact ⟨_, two _ _⟩
  | create cid =>
    have e : (step ttl (run ttl ops) (.create cid)).conns = ConnMap.step (sweep (run ttl ops) cid.key).conns (.create cid) := rfl
    rw [e]
    rcases sw cid.key with e | e <;> rw [e]
    · exact ⟨_, one _⟩
    · exact ⟨_, two _ _⟩
  | sweep k =>
    show ∃ ops', (sweep (run ttl ops) k).conns = _
    rcases sw k with e | e <;> rw [e]
    · exact ⟨_, h⟩
    · exact ⟨_, one _⟩
  | die i => exact ⟨_, one (.die i)⟩
  | closeDevice u d => exact ⟨_, one (.closeDevice u d)⟩
  | closeUsers us => exact ⟨_, one (.closeUsers us)⟩
  | callback i => exact ⟨_, one (.callback i)⟩

/-- The dead were created. -/
def DeadLt (s : ConnMap.State) : Prop := ∀ i ∈ s.dead, i < s.next

theorem next_remove (s : ConnMap.State) (k : String) : (removeKey s k).next = s.next ∧ (removeKey s k).dead = s.dead := by
  unfold removeKey; split <;> exact ⟨rfl, rfl⟩

theorem next_removes (ks : List String) (s : ConnMap.State) :
    (ks.foldl removeKey s).next = s.next ∧ (ks.foldl removeKey s).dead = s.dead := by
  induction ks generalizing s with
  | nil => exact ⟨rfl, rfl⟩
  | cons k ks ih =>
    rw [List.foldl_cons, (ih _).1, (ih _).2]; exact next_remove s k

theorem next_get (s : ConnMap.State) (cid : CID) : (getConn s cid).1.next = s.next ∧ (getConn s cid).1.dead = s.dead := by
  unfold getConn
  split
  · exact ⟨rfl, rfl⟩
  · split <;> exact ⟨rfl, rfl⟩

theorem next_create (s : ConnMap.State) (cid : CID) : (createConn s cid).next = s.next + 1 := by
  unfold createConn getConn
  cases s.cache.lookup cid.key with
  | none => rfl
  | some d =>
    by_cases h : d.id ∈ s.dead
    · simp only [h, if_true]; rfl
    · simp only [h, if_false]; rfl

theorem next_users (us : List String) (s : ConnMap.State) :
    (ConnMap.closeUsers s us).next = s.next ∧ (ConnMap.closeUsers s us).dead = s.dead := by
  unfold ConnMap.closeUsers
  induction us generalizing s with
  | nil => exact ⟨rfl, rfl⟩
  | cons u us ih => rw [List.foldl_cons, (ih _).1, (ih _).2]; exact next_removes _ _

theorem deadLt_step {s : ConnMap.State} (h : DeadLt s) (o : ConnMap.Op) : DeadLt (ConnMap.step s o) := by
  have keep : ∀ s' : ConnMap.State, s'.next = s.next ∧ s'.dead = s.dead → DeadLt s' := fun s' e i hi => by
    rw [e.2] at hi; rw [e.1]; exact h i hi
  cases o with
  | create cid =>
    intro i hi
    obtain ⟨-, -, -, -, e⟩ := create_eq s cid
    have hi : i ∈ (createConn s cid).dead := hi
    rw [e] at hi
    show i < (createConn s cid).next
    rw [next_create]
    have := h i hi
    omega
  | lookup cid => exact keep _ (next_get s cid)
  | die j =>
    unfold ConnMap.step
    by_cases hj : j < s.next
    · simp only [if_pos hj]
      intro i hi
      rcases List.mem_cons.1 hi with rfl | hi
      · exact hj
      · exact h i hi
    · simp only [if_neg hj]; exact h
  | expire k => exact keep _ (next_remove s k)
  | closeDevice u d => exact keep _ (next_removes _ s)
  | closeUsers us => exact keep _ (next_users us s)
  | callback i =>
    refine keep _ ?_
    show (ConnMap.callback s i).next = s.next ∧ (ConnMap.callback s i).dead = s.dead
    unfold ConnMap.callback
    split <;> exact ⟨rfl, rfl⟩

theorem deadLt_run (ops : List ConnMap.Op) : DeadLt (ConnMap.run ops) := by
  unfold ConnMap.run
  have : ∀ (ops : List ConnMap.Op) (s : ConnMap.State), DeadLt s → DeadLt (ops.foldl ConnMap.step s) := by
    intro ops
    induction ops with
    | nil => exact fun _ h => h
    | cons o ops ih => exact fun s h => ih _ (deadLt_step h o)
  exact this ops {} (fun i hi => nomatch hi)

/-- C154: a connection just made is found, whatever was there before; with `C154_kept` it is found as long as it is used. -/
theorem C154_created (ttl : Nat) (pre : List Op) (cid : CID) :
    (find ttl (run ttl (pre ++ [.create cid])) cid).2 = some ⟨(run ttl pre).conns.next, cid⟩ := by
  obtain ⟨ops', hr⟩ := C154_refines ttl pre
  have hd : DeadLt (run ttl pre).conns := hr ▸ deadLt_run ops'
  have hsw : (sweep (run ttl pre) cid.key).conns.next = (run ttl pre).conns.next ∧
      (sweep (run ttl pre) cid.key).conns.dead = (run ttl pre).conns.dead := by
    unfold sweep; split
    · exact next_remove _ _
    · exact ⟨rfl, rfl⟩
  obtain ⟨c, h1, h2, e1, e2⟩ := create_eq (sweep (run ttl pre) cid.key).conns cid
  have hc : c = ⟨(run ttl pre).conns.next, cid⟩ := by
    rw [← h1, ← hsw.1, ← h2]
  rw [run_append]
  refine held_found (g := 0) (ttl := ttl) ⟨?_, ?_, ?_⟩ (Nat.zero_le _)
  · show (createConn (sweep (run ttl pre) cid.key).conns cid).cache.lookup cid.key = _
    rw [e1, List.lookup_cons, beq_self_eq_true]
    exact congrArg some hc
  · show (run ttl pre).conns.next ∉ (createConn (sweep (run ttl pre) cid.key).conns cid).dead
    rw [e2, hsw.2]
    intro hm
    exact Nat.lt_irrefl _ (hd _ hm)
  · show _ + ttl = (if cid.key = cid.key then _ else _) + 0
    rw [if_pos rfl]; rfl

/-! ## A client that asks again and again -/

theorem used_asks {ttl : Nat} {cid : CID} : ∀ (rs : List (Option Nat × Nat)) (g : Nat), g ≤ ttl →
    (∀ r ∈ rs, wait r.1 + r.2 ≤ ttl) → Used ttl cid.key g (asks cid rs)
  | [], g, hg, _ => hg
  | r :: rs, g, _, h => by
    have hr := h r List.mem_cons_self
    show Used ttl cid.key g (.find cid :: .tick (wait r.1) :: .tick r.2 :: asks cid rs)
    simp only [Used, if_true]
    exact ⟨by omega, by omega, used_asks rs _ (by omega) fun x hx => h x (List.mem_cons_of_mem _ hx)⟩

theorem spares_asks (cid : CID) (id : Nat) (rs : List (Option Nat × Nat)) : ∀ o ∈ asks cid rs, Spares cid.key id o := by
  intro o ho
  obtain ⟨r, -, hr⟩ := List.mem_flatMap.1 ho
  simp only [List.mem_cons, List.not_mem_nil, or_false] at hr
  rcases hr with rfl | rfl | rfl <;> exact True.intro

/-- C154 (partial: each request waits, and the client pauses after it, no longer than the lifetime together): a client that
asks again and again finds its connection each time, however often it asks and if there is nothing to tell it. -/
theorem C154_asks_partial (ttl : Nat) (pre : List Op) (cid : CID) (c : Conn) (rs : List (Option Nat × Nat))
    (hc : (find ttl (run ttl pre) cid).2 = some c) (h : ∀ r ∈ rs, wait r.1 + r.2 ≤ ttl) :
    (find ttl (run ttl (pre ++ .find cid :: asks cid rs)) cid).2 = some c :=
  C154_kept ttl pre _ cid c hc (used_asks rs 0 (Nat.zero_le _) h) (spares_asks cid c.id rs)

/-- C154 is violated: there is no limit on the time a client may ask to wait. Whatever the lifetime, a client whose request
waits longer, and that asks again at once, is told that its connection is gone. -/
theorem C154_violated (ttl : Nat) (pre : List Op) (cid : CID) : ∃ timeout : Nat,
    (find ttl (run ttl (pre ++ asks cid [(some timeout, 0)])) cid).2 = none := by
  refine ⟨ttl + 100, C154_idle ttl pre [.tick (wait (some (ttl + 100))), .tick 0] cid ?_ ?_⟩
  · intro o ho
    simp only [List.mem_cons, List.not_mem_nil, or_false] at ho
    rcases ho with rfl | rfl <;> exact True.intro
  · have : wait (some (ttl + 100)) = ttl + 100 := by
      show (if ttl + 100 < 100 then 100 else ttl + 100) = _
      rw [if_neg (by omega)]
    show ttl < wait _ + (0 + 0)
    rw [this]; omega

private def me : CID := ⟨"@a:h", "D", "1"⟩
private def you : CID := ⟨"@b:h", "D", "1"⟩

/-- The hypotheses of `C154_kept` are met: others come and go, and an old item of the same key is over. -/
example : (find 100 (run 100 [.create me, .tick 101, .create me]) me).2 = some ⟨1, me⟩ ∧
    Used 100 me.key 0 [.tick 60, .create you, .find me, .callback 0, .tick 90, .sweep me.key, .closeUsers ["@b:h"]] ∧
    Spares me.key 1 (.create you) ∧
    (find 100 (run 100 ([.create me, .tick 101, .create me] ++
      .find me :: [.tick 60, .create you, .find me, .callback 0, .tick 90, .sweep me.key, .closeUsers ["@b:h"]])) me).2 = some ⟨1, me⟩ := by
  refine ⟨by decide +kernel, ?_, ?_, by decide +kernel⟩
  · simp only [Used, if_true]; decide
  · show you.key ≠ me.key; decide +kernel

/-- C154 is violated, as it happens: with the 30 minutes of the code a request that asks to wait for 31 minutes has its
connection destroyed under it. -/
theorem C154_violated_running :
    (find 1800000 (run 1800000 [.create me, .tick 1000]) me).2 = some ⟨0, me⟩ ∧
    (run 1800000 [.create me, .tick 1000, .find me, .tick 1800001, .sweep me.key, .callback 0]).conns.destroyed = [0] ∧
    1800001 < wait (some 1860000) := by decide +kernel

end Verif.IdleConns
