import Verif.Races
/-!
# Shared memory is not read while it is written (C142)

Specification: there is a race on a variable when two different goroutines are about to access it and one of them is about to write.
-/
namespace Verif.Races
open Verif.Locks (Lock Hold)

/-! ### The specification -/

def Reads (t : Thread) (v : Var) : Prop := ∃ r, t.rest = .read v :: r
def Writes (t : Thread) (v : Var) : Prop := ∃ r, t.rest = .write v :: r

/-- Two different goroutines are about to access `v`, and the first of them is about to write. -/
def Race (s : List Thread) (v : Var) : Prop :=
  ∃ (i j : Nat) (t t' : Thread), i ≠ j ∧ s[i]? = some t ∧ s[j]? = some t' ∧ Writes t v ∧ (Reads t' v ∨ Writes t' v)

/-- Two different goroutines are about to write `v`. -/
def WriteRace (s : List Thread) (v : Var) : Prop :=
  ∃ (i j : Nat) (t t' : Thread), i ≠ j ∧ s[i]? = some t ∧ s[j]? = some t' ∧ Writes t v ∧ Writes t' v

/-- There is one goroutine that listens, and one that runs the callbacks of the pollers. -/
def Single (s : List Thread) : Prop :=
  ∀ (i j : Nat) (t t' : Thread), s[i]? = some t → s[j]? = some t' → t.role = t'.role → t.role ≠ .worker → i = j

/-- States that any number of goroutines of the proxy reach, in any interleaving. -/
def Reachable (s : List Thread) : Prop :=
  ∃ ts is, (∀ t ∈ ts, IsCode t) ∧ Single ts ∧ run ts is = some s

/-! ### What protects a variable -/

/-- May a goroutine that holds `H` read (`w = false`) or write (`w = true`) `v`? -/
def allowed (ρ : Role) (H : List Hold) (w : Bool) : Var → Prop
  | .conns => Hold.w Locks.connMapMu ∈ H
  | .conn i => Hold.w (Locks.connMu i) ∈ H
  | .lastPos i => w = true → Hold.w (Locks.connMu i) ∈ H
  | .cancelLatest _ => True
  | .bufferFull _ => True
  | .cancelOutstanding i => Hold.w (Locks.cancelMu i) ∈ H
  | .queues i => Hold.w (Locks.waiterMu i) ∈ H
  | .receivers => Hold.w Locks.receiversMu ∈ H ∨ (w = false ∧ Hold.r Locks.receiversMu ∈ H)
  | .joined => Hold.w Locks.trackerMu ∈ H ∨ (w = false ∧ Hold.r Locks.trackerMu ∈ H)
  | .roomData u => Hold.w (Locks.roomDataMu u) ∈ H ∨ (w = false ∧ Hold.r (Locks.roomDataMu u) ∈ H)
  | .spaces _ _ => w = true → Hold.w Locks.receiversMu ∈ H ∨ (ρ = .listener ∧ Hold.r Locks.receiversMu ∈ H)
  | .listeners u => Hold.w (Locks.listenersMu u) ∈ H ∨ (w = false ∧ Hold.r (Locks.listenersMu u) ∈ H)
  | .ignored u => Hold.w (Locks.ignoredMu u) ∈ H ∨ (w = false ∧ Hold.r (Locks.ignoredMu u) ∈ H)
  | .rooms => Hold.w Locks.globalsMu ∈ H ∨ (w = false ∧ Hold.r Locks.globalsMu ∈ H)
  | .pendingPolls => Hold.w Locks.ensureMu ∈ H
  | .chans => Hold.w Locks.pubsubMu ∈ H
  | .debugSince => Hold.w Locks.toDeviceMu ∈ H
  | .pollers => Hold.w Locks.pollersMu ∈ H
  | .pendingTxns => Hold.w Locks.pendingMu ∈ H
  | .typing => Hold.w Locks.typingMu ∈ H
  | .unread => ρ = .executor

/-- Everything that is still to be done is allowed when it is done. -/
def okRest (ρ : Role) : List Hold → List Act → Prop
  | _, [] => True
  | H, a :: r =>
    (match a with
      | .read v => allowed ρ H false v
      | .write v => allowed ρ H true v
      | _ => True) ∧ okRest ρ (after a H) r

def Safe (ρ : Role) (H : List Hold) : Prog → Prop
  | .skip => True
  | .read v => allowed ρ H false v
  | .write v => allowed ρ H true v
  | .locked l p => Safe ρ (.w l :: H) p
  | .rlocked l p => Safe ρ (.r l :: H) p
  | .seq p q => Safe ρ H p ∧ Safe ρ H q
  | .alt p q => Safe ρ H p ∧ Safe ρ H q
  | .star p => Safe ρ H p
  | .any f => ∀ n, Safe ρ H (f n)

theorem safe_trace {ρ p t} (tr : Trace p t) : ∀ {H u}, Safe ρ H p → okRest ρ H u → okRest ρ H (t ++ u) := by
  induction tr with
  | skip => intro H u _ hu; exact hu
  | read => intro H u hs hu; exact ⟨hs, hu⟩
  | write => intro H u hs hu; exact ⟨hs, hu⟩
  | locked _ ih =>
    intro H u hs hu
    rw [List.cons_append, List.append_assoc]
    refine ⟨trivial, ?_⟩
    refine ih hs ⟨trivial, ?_⟩
    simpa [after] using hu
  | rlocked _ ih =>
    intro H u hs hu
    rw [List.cons_append, List.append_assoc]
    refine ⟨trivial, ?_⟩
    refine ih hs ⟨trivial, ?_⟩
    simpa [after] using hu
  | seq _ _ ih ih' =>
    intro H u hs hu
    rw [List.append_assoc]
    exact ih hs.1 (ih' hs.2 hu)
  | left _ ih => intro H u hs hu; exact ih hs.1 hu
  | right _ ih => intro H u hs hu; exact ih hs.2 hu
  | stop => intro H u _ hu; exact hu
  | again _ _ ih ih' =>
    intro H u hs hu
    rw [List.append_assoc]
    exact ih hs (ih' hs hu)
  | any n _ ih => intro H u hs hu; exact ih (hs n) hu

/-! ### Invariants of the machine -/

/-- Who has a lock for writing has it alone. -/
def Excl (s : List Thread) : Prop :=
  ∀ (i j : Nat) (t t' : Thread) (l : Lock), i ≠ j → s[i]? = some t → s[j]? = some t' → Hold.w l ∈ t.held →
    Hold.w l ∉ t'.held ∧ Hold.r l ∉ t'.held

def Inv (s : List Thread) : Prop := Excl s ∧ Single s ∧ ∀ t ∈ s, okRest t.role t.held t.rest

theorem mem_after {a : Act} {H : List Hold} {h : Hold} (m : h ∈ after a H) :
    h ∈ H ∨ (∃ l, a = .lock l ∧ h = .w l) ∨ (∃ l, a = .rlock l ∧ h = .r l) := by
  cases a with
  | lock l => rcases List.mem_cons.1 m with m | m
              · exact .inr (.inl ⟨l, rfl, m⟩)
              · exact .inl m
  | rlock l => rcases List.mem_cons.1 m with m | m
               · exact .inr (.inr ⟨l, rfl, m⟩)
               · exact .inl m
  | unlock l => exact .inl (List.mem_of_mem_erase m)
  | runlock l => exact .inl (List.mem_of_mem_erase m)
  | read v => exact .inl m
  | write v => exact .inl m

theorem step_cases {s i s'} (h : step s i = some s') :
    ∃ t a r, s[i]? = some t ∧ t.rest = a :: r ∧ (∀ t' ∈ s, ∀ x ∈ t'.held, blocks x a = false) ∧
      s' = s.set i { t with held := after a t.held, rest := r } := by
  unfold step at h
  cases ht : s[i]? with
  | none => rw [ht] at h; cases h
  | some t =>
    rw [ht] at h
    cases hr : t.rest with
    | nil => simp [hr] at h
    | cons a r =>
      simp only [hr] at h
      by_cases c : (s.all fun t' => t'.held.all fun x => !blocks x a) = true
      · rw [if_pos c] at h
        refine ⟨t, a, r, rfl, hr, ?_, (Option.some.inj h).symm⟩
        intro t' m x mx
        have := List.all_eq_true.1 (List.all_eq_true.1 c t' m) x mx
        simpa using this
      · rw [if_neg c] at h; cases h

theorem get_set {s : List Thread} {i j : Nat} {x t : Thread} (h : (s.set i x)[j]? = some t) :
    (i = j ∧ t = x) ∨ (i ≠ j ∧ s[j]? = some t) := by
  by_cases e : i = j
  · subst e
    rw [List.getElem?_set_self'] at h
    cases hs : s[i]? with
    | none => rw [hs] at h; cases h
    | some y => rw [hs] at h; exact .inl ⟨rfl, (Option.some.inj h).symm⟩
  · rw [List.getElem?_set_ne e] at h
    exact .inr ⟨e, h⟩

theorem step_inv {s i s'} (inv : Inv s) (h : step s i = some s') : Inv s' := by
  obtain ⟨ex, si, ok⟩ := inv
  obtain ⟨t, a, r, ht, hr, hb, rfl⟩ := step_cases h
  have mt : t ∈ s := List.mem_of_getElem? ht
  refine ⟨?_, ?_, ?_⟩
  · intro p q x y l ne hp hq hw
    rcases get_set hp with ⟨ep, rfl⟩ | ⟨np, hp⟩ <;> rcases get_set hq with ⟨eq, rfl⟩ | ⟨nq, hq⟩
    · exact absurd (ep.symm.trans eq) ne
    · subst ep
      have my : y ∈ s := List.mem_of_getElem? hq
      rcases mem_after hw with m | ⟨l', ea, e⟩ | ⟨l', ea, e⟩
      · exact ex _ _ _ _ l ne ht hq m
      · cases e
        subst ea
        constructor
        · intro m; have := hb y my _ m; simp [blocks] at this
        · intro m; have := hb y my _ m; simp [blocks] at this
      · cases e
    · subst eq
      have mx : x ∈ s := List.mem_of_getElem? hp
      have old := ex _ _ _ _ l ne hp ht hw
      constructor
      · intro m
        rcases mem_after m with m | ⟨l', ea, e⟩ | ⟨l', ea, e⟩
        · exact old.1 m
        · cases e; subst ea; have := hb x mx _ hw; simp [blocks] at this
        · cases e
      · intro m
        rcases mem_after m with m | ⟨l', ea, e⟩ | ⟨l', ea, e⟩
        · exact old.2 m
        · cases e
        · cases e; subst ea; have := hb x mx _ hw; simp [blocks] at this
    · exact ex p q x y l ne hp hq hw
  · intro p q x y hp hq er nw
    rcases get_set hp with ⟨ep, rfl⟩ | ⟨np, hp⟩ <;> rcases get_set hq with ⟨eq, rfl⟩ | ⟨nq, hq⟩
    · exact ep.symm.trans eq
    · subst ep; exact si _ _ _ _ ht hq er nw
    · subst eq; exact si _ _ _ _ hp ht er nw
    · exact si p q x y hp hq er nw
  · intro x mx
    rcases List.mem_or_eq_of_mem_set mx with mx | rfl
    · exact ok x mx
    · have := ok t mt
      rw [hr] at this
      exact this.2

theorem run_inv {is} : ∀ {s s'}, Inv s → run s is = some s' → Inv s' := by
  induction is with
  | nil => intro s s' inv h; cases h; exact inv
  | cons i is ih =>
    intro s s' inv h
    obtain ⟨s₁, h₁, h₂⟩ := Option.bind_eq_some_iff.1 h
    exact ih (step_inv inv h₁) h₂

/-! ### The code is safe -/

theorem safe_code (ρ : Role) : Safe ρ [] (code ρ) := by
  cases ρ <;>
  simp [code, listener, executor, worker, Safe, allowed, touch, reads, Prog.opt, getChan, message, ensure, dispatch, trackerRead, trackerWrite,
    joinedUsersForRoom, receiverForUser, globalWrite, cacheEvent, cacheUpdate, cacheSpace, cacheAccount, cacheRegistered, loadRoomData,
    storeRoomData, newRoomUpdate, loadRooms, emit, ingest, onUpdate, destroy, subscribe, publishUpTo, clearUpdateQueues, connMapRead, conn,
    getConn, closeConn, unregister, register, serve, setupConnection, userCache, createConn, connRequest, connState, connExpires, pollerMap,
    pendingTxn, typing]

theorem reachable_inv {s} (h : Reachable s) : Inv s := by
  obtain ⟨ts, is, code, si, h⟩ := h
  refine run_inv ⟨?_, si, ?_⟩ h
  · intro i j t t' l _ ht _ hw
    rw [(code t (List.mem_of_getElem? ht)).1] at hw
    cases hw
  · intro t m
    have c := code t m
    rw [c.1]
    have := safe_trace (u := []) c.2 (safe_code t.role) trivial
    simpa using this

/-! ### The theorems -/

/-- Variables that are accessed without what protects them. -/
def Unprotected : Var → Prop
  | .spaces _ _ | .bufferFull _ | .cancelLatest _ | .lastPos _ => True
  | _ => False

theorem allowed_of_writes {t v} (ok : okRest t.role t.held t.rest) (h : Writes t v) : allowed t.role t.held true v := by
  obtain ⟨r, e⟩ := h
  rw [e] at ok
  exact ok.1

theorem allowed_of_reads {t v} (ok : okRest t.role t.held t.rest) (h : Reads t v) : allowed t.role t.held false v := by
  obtain ⟨r, e⟩ := h
  rw [e] at ok
  exact ok.1

theorem no_conflict {s : List Thread} {i j : Nat} {t t' : Thread} {v : Var} {w : Bool} (inv : Inv s) (ne : i ≠ j) (ht : s[i]? = some t)
    (ht' : s[j]? = some t') (a : allowed t.role t.held true v) (a' : allowed t'.role t'.held w v) (up : ¬ Unprotected v) : False := by
  obtain ⟨ex, si, -⟩ := inv
  have ex' := fun l hw => ex i j t t' l ne ht ht' hw
  cases v <;> simp only [allowed, Unprotected, not_true_eq_false, Bool.true_eq_false, false_and, or_false] at a a' up
  all_goals first
    | exact (ex' _ a).1 a'
    | (rcases a' with a' | a'
       · exact (ex' _ a).1 a'
       · exact (ex' _ a).2 a'.2)
    | exact ne (si i j t t' ht ht' (a.trans a'.symm) (by rw [a]; decide))

/-- **C142.** Of all that goroutines share, in every state that they reach in any interleaving, nothing is read or written while
another goroutine writes it, but for the spaces of a room, whether the buffer of a connection is full, the callback that cancels its
latest request, and its last position. -/
theorem C142_protected_partial {s v} (h : Reachable s) (race : Race s v) : Unprotected v := by
  have inv := reachable_inv h
  obtain ⟨i, j, t, t', ne, ht, ht', w, rw'⟩ := race
  have a := allowed_of_writes (inv.2.2 t (List.mem_of_getElem? ht)) w
  refine Classical.byContradiction fun up => ?_
  rcases rw' with r | w'
  · exact no_conflict inv ne ht ht' a (allowed_of_reads (inv.2.2 t' (List.mem_of_getElem? ht')) r) up
  · exact no_conflict inv ne ht ht' a (allowed_of_writes (inv.2.2 t' (List.mem_of_getElem? ht')) w') up

/-- **C142.** Two goroutines write the same variable at the same time only if it is the full flag or the callback of a connection: the
spaces of a room and the last position have one writer at a time. -/
theorem C142_writers_partial {s v} (h : Reachable s) (race : WriteRace s v) : (∃ i, v = .bufferFull i) ∨ ∃ i, v = .cancelLatest i := by
  obtain ⟨i, j, t, t', ne, ht, ht', w, w'⟩ := race
  have inv := reachable_inv h
  have up := C142_protected_partial h ⟨i, j, t, t', ne, ht, ht', w, .inr w'⟩
  have a := allowed_of_writes (inv.2.2 t (List.mem_of_getElem? ht)) w
  have a' := allowed_of_writes (inv.2.2 t' (List.mem_of_getElem? ht')) w'
  have ex := fun l hw => inv.1 i j t t' l ne ht ht' hw
  have ex' := fun l hw => inv.1 j i t' t l (Ne.symm ne) ht' ht hw
  cases v <;> simp only [Unprotected] at up
  case lastPos => exact ((ex _ (a rfl)).1 (a' rfl)).elim
  case cancelLatest i => exact .inr ⟨i, rfl⟩
  case bufferFull i => exact .inl ⟨i, rfl⟩
  case spaces u r =>
    exfalso
    rcases a rfl with a | a
    · rcases a' rfl with a' | a'
      · exact (ex _ a).1 a'
      · exact (ex _ a).2 a'.2
    · rcases a' rfl with a' | a'
      · exact (ex' _ a').2 a.2
      · exact ne (inv.2.1 i j t t' ht ht' (a.1.trans a'.1.symm) (by rw [a.1]; decide))

/-! ### Traces by their choices -/

/-- The trace of a program for a list of choices: which branch, how often around a loop, which number. -/
def gen : Prog → List Nat → List Act × List Nat
  | .skip, c => ([], c)
  | .read v, c => ([.read v], c)
  | .write v, c => ([.write v], c)
  | .locked l p, c => (.lock l :: ((gen p c).1 ++ [.unlock l]), (gen p c).2)
  | .rlocked l p, c => (.rlock l :: ((gen p c).1 ++ [.runlock l]), (gen p c).2)
  | .seq p q, c => ((gen p c).1 ++ (gen q (gen p c).2).1, (gen q (gen p c).2).2)
  | .alt p _, 0 :: c => gen p c
  | .alt _ q, _ :: c => gen q c
  | .alt p _, [] => gen p []
  | .star _, [] => ([], [])
  | .star p, n :: c => n.rec (motive := fun _ => List Nat → List Act × List Nat) (fun c => ([], c))
      (fun _ k c => ((gen p c).1 ++ (k (gen p c).2).1, (k (gen p c).2).2)) c
  | .any f, n :: c => gen (f n) c
  | .any f, [] => gen (f 0) []

theorem gen_trace (p : Prog) : ∀ c, Trace p (gen p c).1 := by
  induction p with
  | skip => intro c; exact .skip
  | read v => intro c; exact .read
  | write v => intro c; exact .write
  | locked l p ih => intro c; exact .locked (ih c)
  | rlocked l p ih => intro c; exact .rlocked (ih c)
  | seq p q ih ih' => intro c; exact .seq (ih c) (ih' _)
  | alt p q ih ih' =>
    intro c
    match c with
    | [] => exact .left (ih [])
    | 0 :: c => exact .left (ih c)
    | (n+1) :: c => exact .right (ih' c)
  | star p ih =>
    intro c
    match c with
    | [] => exact .stop
    | n :: c =>
      induction n generalizing c with
      | zero => exact .stop
      | succ n ihn => exact .again (ih c) (ihn _)
  | any f ih =>
    intro c
    match c with
    | [] => exact .any 0 (ih 0 [])
    | n :: c => exact .any n (ih n c)

/-! ### What is not protected -/

/-- A goroutine by its choices. -/
def thread (ρ : Role) (c : List Nat) : Thread := { role := ρ, rest := (gen (code ρ) c).1 }

theorem thread_code (ρ : Role) (c : List Nat) : IsCode (thread ρ c) := ⟨rfl, gen_trace _ _⟩

theorem reachable_two {a b : Thread} {is s} (ha : IsCode a) (hb : IsCode b) (hw : b.role = .worker) (h : run [a, b] is = some s) :
    Reachable s := by
  refine ⟨[a, b], is, ?_, ?_, h⟩
  · intro t m
    simp only [List.mem_cons, List.not_mem_nil, or_false] at m
    rcases m with rfl | rfl
    · exact ha
    · exact hb
  · intro i j t t' ht ht' e ne
    match i, j with
    | 0, 0 => rfl
    | 1, 1 => rfl
    | 0, 1 => cases ht; cases ht'; exact absurd (e.trans hw) ne
    | 1, 0 => cases ht; cases ht'; exact absurd hw ne
    | _+2, _ => simp at ht
    | 0, _+2 => simp at ht'
    | 1, _+2 => simp at ht'

/-- A message makes the room `r` a child of a space for the user `u`. -/
def addsSpace (u r : Nat) : Thread := thread .listener [0, 1, 1, 0, 1, 1, 1, 1, 1, 1, 1, u, 0, 0, 0, r, 0, 0, 0, 1, 0, 0, 0, 0, 0]

/-- A request on connection `i` of the user `u` filters the room `r` by its spaces. -/
def filtersSpaces (u i r : Nat) : Thread := thread .worker [0, u, i, 0, 1, 0, 0, 0, 1, 1, 0, r, 1]

/-- A request on connection `i` that is answered. -/
def answered (u i : Nat) : Thread := thread .worker [0, u, i, 0, 1, 0, 0, 0, 0, 0]

/-- A request that replaces connection `i`. -/
def replaces (u i : Nat) : Thread := thread .worker [0, u, i, 1, 0, 1, 0, 1, 0, 0, u, 0, 1, 0, 0, 0, 1]

/-- A message that does not fit into the buffer of connection `i`. -/
def overflows (u i : Nat) : Thread := thread .listener [0, 1, 1, 1, 1, 1, 0, u, 0, 1, 1, 0, 1, i, 0, 0, u, 0, 1]

/-- A delayed event that does not fit into the buffer of connection `i`. -/
def delayed (u i : Nat) : Thread := thread .worker [1, 0, i, 0, 1, 0, u, 0, 1]

open Locks in
theorem addsSpace_eq (u r : Nat) : (addsSpace u r).rest =
    [.lock pubsubMu, .unlock pubsubMu, .rlock receiversMu, .rlock (roomDataMu u), .runlock (roomDataMu u), .rlock (roomDataMu u),
     .runlock (roomDataMu u), .write (.spaces u r)] ++ (addsSpace u r).rest.drop 8 := rfl

open Locks in
theorem filtersSpaces_eq (u i r : Nat) : (filtersSpaces u i r).rest =
    [.lock connMapMu, .read (.bufferFull i), .unlock connMapMu, .write (.cancelLatest i), .lock (cancelMu i), .unlock (cancelMu i),
     .lock (connMu i), .lock (cancelMu i), .write (.cancelOutstanding i), .unlock (cancelMu i), .read (.spaces u r)] ++
    (filtersSpaces u i r).rest.drop 11 := rfl

open Locks in
theorem answered_eq (u i : Nat) : (answered u i).rest =
    [.lock connMapMu, .read (.bufferFull i), .unlock connMapMu, .write (.cancelLatest i), .lock (cancelMu i), .unlock (cancelMu i),
     .lock (connMu i), .lock (cancelMu i), .write (.cancelOutstanding i), .unlock (cancelMu i), .read (.lastPos i), .write (.lastPos i)] ++
    (answered u i).rest.drop 12 := rfl

open Locks in
theorem replaces_eq (u i : Nat) : (replaces u i).rest =
    [.lock connMapMu, .read (.bufferFull i), .read (.lastPos i)] ++ (replaces u i).rest.drop 3 := rfl

open Locks in
theorem overflows_eq (u i : Nat) : (overflows u i).rest =
    [.lock pubsubMu, .unlock pubsubMu, .rlock (listenersMu u), .runlock (listenersMu u), .read (.bufferFull i), .write (.bufferFull i)] ++
    (overflows u i).rest.drop 6 := rfl

open Locks in
theorem delayed_eq (u i : Nat) : (delayed u i).rest =
    [.lock (waiterMu i), .read (.queues i), .write (.queues i), .read (.bufferFull i), .write (.bufferFull i)] ++
    (delayed u i).rest.drop 5 := rfl

local macro "reach" : tactic => `(tactic| simp [run, step, blocks, after, List.replicate, Locks.pubsubMu, Locks.receiversMu, Locks.roomDataMu,
  Locks.connMapMu, Locks.cancelMu, Locks.connMu, Locks.listenersMu, Locks.waiterMu])

/-- The spaces of a room are a map, which all copies of the user's data of the room share. `OnSpaceUpdate` writes it with no lock that
those hold who read it: a request that filters rooms by their spaces holds the lock of its connection only. Go ends the process when it
notices that a map is read and written at the same time. -/
theorem C142_violated_spaces (u r : Nat) : ∃ s, Reachable s ∧ Race s (.spaces u r) := by
  have e := addsSpace_eq u r
  have e' := filtersSpaces_eq u 0 r
  generalize (addsSpace u r).rest.drop 8 = x at e
  generalize (filtersSpaces u 0 r).rest.drop 11 = y at e'
  have h : run [addsSpace u r, filtersSpaces u 0 r] (List.replicate 7 0 ++ List.replicate 10 1) =
      some [⟨.listener, [.r Locks.receiversMu], .write (.spaces u r) :: x⟩, ⟨.worker, [.w (Locks.connMu 0)], .read (.spaces u r) :: y⟩] := by
    rw [show addsSpace u r = ⟨.listener, [], (addsSpace u r).rest⟩ from rfl, e,
      show filtersSpaces u 0 r = ⟨.worker, [], (filtersSpaces u 0 r).rest⟩ from rfl, e']
    reach
  exact ⟨_, reachable_two (thread_code _ _) (thread_code _ _) rfl h, 0, 1, _, _, by decide, rfl, rfl, ⟨_, rfl⟩, .inl ⟨_, rfl⟩⟩

/-- A request that comes again while an earlier one of the same connection is answered, without a position, reads the last position of the
connection with the lock of the map of connections, while the earlier one writes it with the lock of the connection. -/
theorem C142_violated_last_pos (i : Nat) : ∃ s, Reachable s ∧ Race s (.lastPos i) := by
  have e := answered_eq 0 i
  have e' := replaces_eq 0 i
  generalize (answered 0 i).rest.drop 12 = x at e
  generalize (replaces 0 i).rest.drop 3 = y at e'
  have h : run [answered 0 i, replaces 0 i] (List.replicate 11 0 ++ List.replicate 2 1) =
      some [⟨.worker, [.w (Locks.connMu i)], .write (.lastPos i) :: x⟩, ⟨.worker, [.w Locks.connMapMu], .read (.lastPos i) :: y⟩] := by
    rw [show answered 0 i = ⟨.worker, [], (answered 0 i).rest⟩ from rfl, e,
      show replaces 0 i = ⟨.worker, [], (replaces 0 i).rest⟩ from rfl, e']
    reach
  exact ⟨_, reachable_two (thread_code _ _) (thread_code _ _) rfl h, 0, 1, _, _, by decide, rfl, rfl, ⟨_, rfl⟩, .inl ⟨_, rfl⟩⟩

/-- Two requests on the same connection set its callback at the same time: neither holds a lock then. -/
theorem C142_violated_callback (i : Nat) : ∃ s, Reachable s ∧ WriteRace s (.cancelLatest i) := by
  have e : (answered 0 i).rest = [.lock Locks.connMapMu, .read (.bufferFull i), .unlock Locks.connMapMu, .write (.cancelLatest i)] ++
      (answered 0 i).rest.drop 4 := rfl
  generalize (answered 0 i).rest.drop 4 = x at e
  have h : run [answered 0 i, answered 0 i] (List.replicate 3 0 ++ List.replicate 3 1) =
      some [⟨.worker, [], .write (.cancelLatest i) :: x⟩, ⟨.worker, [], .write (.cancelLatest i) :: x⟩] := by
    rw [show answered 0 i = ⟨.worker, [], (answered 0 i).rest⟩ from rfl, e]
    reach
  exact ⟨_, reachable_two (thread_code _ _) (thread_code _ _) rfl h, 0, 1, _, _, by decide, rfl, rfl, ⟨_, rfl⟩, ⟨_, rfl⟩⟩

/-- The listener and the timer of a delayed event both find the buffer of a connection full, and both set its flag: the timer holds the lock of
the waiter, but what is not an event is passed on without it. -/
theorem C142_violated_buffer_full (i : Nat) : ∃ s, Reachable s ∧ WriteRace s (.bufferFull i) := by
  have e := overflows_eq 0 i
  have e' := delayed_eq 0 i
  generalize (overflows 0 i).rest.drop 6 = x at e
  generalize (delayed 0 i).rest.drop 5 = y at e'
  have h : run [overflows 0 i, delayed 0 i] (List.replicate 5 0 ++ List.replicate 4 1) =
      some [⟨.listener, [], .write (.bufferFull i) :: x⟩, ⟨.worker, [.w (Locks.waiterMu i)], .write (.bufferFull i) :: y⟩] := by
    rw [show overflows 0 i = ⟨.listener, [], (overflows 0 i).rest⟩ from rfl, e,
      show delayed 0 i = ⟨.worker, [], (delayed 0 i).rest⟩ from rfl, e']
    reach
  exact ⟨_, reachable_two (thread_code _ _) (thread_code _ _) rfl h, 0, 1, _, _, by decide, rfl, rfl, ⟨_, rfl⟩, ⟨_, rfl⟩⟩

/-- **C142.** Exactly these four kinds of variables are accessed in races. -/
theorem C142_exact (v : Var) : (∃ s, Reachable s ∧ Race s v) ↔
    (∃ u r, v = .spaces u r) ∨ (∃ i, v = .bufferFull i) ∨ (∃ i, v = .cancelLatest i) ∨ ∃ i, v = .lastPos i := by
  have weaken : ∀ {s v}, WriteRace s v → Race s v :=
    fun ⟨i, j, t, t', ne, ht, ht', w, w'⟩ => ⟨i, j, t, t', ne, ht, ht', w, .inr w'⟩
  constructor
  · rintro ⟨s, h, r⟩
    have := C142_protected_partial h r
    cases v <;> simp only [Unprotected] at this <;> simp
  · rintro (⟨u, r, rfl⟩ | ⟨i, rfl⟩ | ⟨i, rfl⟩ | ⟨i, rfl⟩)
    · exact C142_violated_spaces u r
    · obtain ⟨s, h, r⟩ := C142_violated_buffer_full i; exact ⟨s, h, weaken r⟩
    · obtain ⟨s, h, r⟩ := C142_violated_callback i; exact ⟨s, h, weaken r⟩
    · exact C142_violated_last_pos i

/-! ### The hypotheses are met -/

/-- Goroutines of the code run; here the listener and a request that filters rooms, until both are done with their first locks. -/
example : Reachable [addsSpace 1 2, filtersSpaces 1 0 2] :=
  reachable_two (is := []) (thread_code _ _) (thread_code _ _) rfl rfl

/-- Protected variables are reached: a request is about to write the callback of its connection, with the lock. -/
example : ∃ s t, Reachable s ∧ t ∈ s ∧ Writes t (.cancelOutstanding 3) := by
  have e := filtersSpaces_eq 1 3 2
  have h : ∃ y, run [filtersSpaces 1 3 2, filtersSpaces 1 3 2] (List.replicate 8 0) = some y ∧ ∃ t ∈ y, Writes t (.cancelOutstanding 3) := by
    refine ⟨[⟨.worker, [.w (Locks.cancelMu 3), .w (Locks.connMu 3)], (filtersSpaces 1 3 2).rest.drop 8⟩, filtersSpaces 1 3 2], ?_, _,
      .head _, _, rfl⟩
    decide +kernel
  obtain ⟨y, h, t, m, w⟩ := h
  exact ⟨y, t, reachable_two (thread_code _ _) (thread_code _ _) rfl h, m, w⟩

end Verif.Races
