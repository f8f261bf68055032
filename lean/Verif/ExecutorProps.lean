import Verif.Executor
import Verif.Util
/-!
# C128: the calls of the pollers take effect one at a time
-/
namespace Verif.Executor
open Verif.Store (DB)
open Verif.EndToEnd (Cfg Msg)

/-! ## Specification -/

/-- Storing the sections one after the other, from a database, gives the database and the recorded results. -/
inductive Serial : DB → List (Nat × Store.Op × Bool) → DB → Prop
  | nil (db : DB) : Serial db [] db
  | snoc {db db' : DB} {l : List (Nat × Store.Op × Bool)} (h : Serial db l db') (t : Nat) (o : Store.Op) :
      Serial db (l ++ [(t, o, succeeds db' o)]) (Store.step db' o)

/-- The calls of one poller. -/
def callsOf {α : Type} (t : Nat) (l : List (Nat × α)) : List α := (l.filter fun x => decide (x.1 = t)).map (·.2)

/-- What is stored but not published yet. -/
def unpublished (s : State) : List Msg :=
  match s.exec with
  | some (_, _, .stored pub _) => pub
  | _ => []

/-- The process as seen with one step for storing and publishing. -/
def flat (s : State) : EndToEnd.State := { s.e with bus := s.e.bus ++ unpublished s }

/-- The call that a poller waits for: not stored yet, or stored with a result. -/
def unstored (s : State) (t : Nat) : List Store.Op :=
  match s.pollers t with
  | some (.offering o) => [o]
  | some (.waiting o) =>
    match s.exec with
    | some (_, _, .taken) => [o]
    | _ => []
  | _ => []

def unreturned (s : State) (t : Nat) : List (Store.Op × Bool) :=
  match s.pollers t with
  | some (.ready o ok) => [(o, ok)]
  | some (.waiting o) =>
    match s.exec with
    | some (_, _, .stored _ ok) => [(o, ok)]
    | some (_, _, .published ok) => [(o, ok)]
    | _ => []
  | _ => []

/-! ## Proofs -/

theorem callsOf_snoc {α : Type} (t : Nat) (l : List (Nat × α)) (x : Nat × α) :
    callsOf t (l ++ [x]) = callsOf t l ++ if x.1 = t then [x.2] else [] := by
  unfold callsOf
  rw [List.filter_append, List.map_append]
  by_cases h : x.1 = t <;> simp [h]

structure Inv (s : State) : Prop where
  running : ∀ t v, s.pollers t = some v → s.running = true
  /-- the function that is run is that of the poller that waits -/
  exec : ∀ t o st, s.exec = some (t, o, st) → s.pollers t = some (.waiting o)
  waits : ∀ t o, s.pollers t = some (.waiting o) → ∃ st, s.exec = some (t, o, st)
  serial : Serial s.db0 s.log s.e.db
  asked : ∀ t, callsOf t s.asked = (callsOf t s.log).map (·.1) ++ unstored s t
  rets : ∀ t, callsOf t s.log = callsOf t s.rets ++ unreturned s t

theorem setP_self (f : Nat → Option Status) (t : Nat) (v : Status) : setP f t v t = some v := by simp [setP]
theorem setP_ne (f : Nat → Option Status) {t x : Nat} (v : Status) (h : x ≠ t) : setP f t v x = f x := by simp [setP, h]

/-- Steps of the rest of the process leave the executor alone. -/
theorem Inv.other {s : State} (h : Inv s) (e : EndToEnd.State) (he : e.db = s.e.db) : Inv { s with e := e } :=
  ⟨h.running, h.exec, h.waits, by rw [he]; exact h.serial, h.asked, h.rets⟩

theorem fold_db (cfg : Cfg) (room : String) (l : List (Store.Row × Nat)) : ∀ s : EndToEnd.State, (l.foldl (EndToEnd.dispatch cfg room) s).db = s.db := by
  induction l with
  | nil => intro s; rfl
  | cons x l ih => intro s; exact ih (EndToEnd.dispatch cfg room s x)

theorem handle_db (cfg : Cfg) (s : EndToEnd.State) (m : Msg) : (EndToEnd.handle cfg s m).db = s.db := by
  cases m with
  | acc room nids =>
    simp only [EndToEnd.handle]
    split
    · rfl
    · rename_i rows _
      exact fold_db cfg room _ s
  | init room snap => simp only [EndToEnd.handle]; split <;> rfl
  | inval room => rfl

theorem step_db (cfg : Cfg) (s : EndToEnd.State) (o : EndToEnd.Op) (h : ∀ x, o ≠ .poll x) : (EndToEnd.step cfg s o).db = s.db := by
  cases o with
  | poll x => exact absurd rfl (h x)
  | recv =>
    simp only [EndToEnd.step]
    split
    · rfl
    · exact handle_db cfg _ _
  | «open» => rfl
  | request xs => rfl
  | take vis xs => rfl
  | restart => rfl

theorem inv_step (cfg : Cfg) {s : State} (h : Inv s) (op : Op) : Inv (step cfg s op) := by
  cases op with
  | ensure t =>
    simp only [step]
    split
    · rename_i hp
      have hne : ∀ {x v}, s.pollers x = some v → x ≠ t := fun hx hxt => by rw [hxt, hp] at hx; cases hx
      refine ⟨fun _ _ _ => rfl, fun x o st he => ?_, fun x o hx => ?_, h.serial, fun x => ?_, fun x => ?_⟩
      · have := h.exec x o st he
        exact (setP_ne _ _ (hne this)).trans this
      · by_cases hxt : x = t
        · subst hxt; exact nomatch (setP_self _ _ _).symm.trans hx
        · exact h.waits x o ((setP_ne _ _ hxt).symm.trans hx)
      · have := h.asked x
        by_cases hxt : x = t
        · subst hxt; simp only [unstored, setP_self, hp] at this ⊢; exact this
        · simp only [unstored, setP_ne _ _ hxt] at this ⊢; exact this
      · have := h.rets x
        by_cases hxt : x = t
        · subst hxt; simp only [unreturned, setP_self, hp] at this ⊢; exact this
        · simp only [unreturned, setP_ne _ _ hxt] at this ⊢; exact this
    · exact ⟨fun _ _ _ => rfl, h.exec, h.waits, h.serial, h.asked, h.rets⟩
  | call t o =>
    simp only [step]
    split
    · rename_i hp
      have hne : ∀ {x o}, s.pollers x = some (.waiting o) → x ≠ t := fun hx hxt => by rw [hxt, hp] at hx; cases hx
      refine ⟨fun x v hx => ?_, fun x o' st he => ?_, fun x o' hx => ?_, h.serial, fun x => ?_, fun x => ?_⟩
      · exact h.running t _ hp
      · have := h.exec x o' st he
        exact (setP_ne _ _ (hne this)).trans this
      · by_cases hxt : x = t
        · subst hxt; exact nomatch (setP_self _ _ _).symm.trans hx
        · exact h.waits x o' ((setP_ne _ _ hxt).symm.trans hx)
      · have := h.asked x
        rw [callsOf_snoc]
        by_cases hxt : x = t
        · subst hxt
          simp only [unstored, setP_self, hp, List.append_nil] at this ⊢
          rw [this]; simp
        · simp only [unstored, setP_ne _ _ hxt] at this ⊢
          rw [if_neg (fun h => hxt h.symm), List.append_nil]; exact this
      · have := h.rets x
        by_cases hxt : x = t
        · subst hxt; simp only [unreturned, setP_self, hp] at this ⊢; exact this
        · simp only [unreturned, setP_ne _ _ hxt] at this ⊢; exact this
    · exact h
  | take t =>
    simp only [step]
    split
    · rename_i o hr hx hp
      have hnw : ∀ x o', s.pollers x ≠ some (.waiting o') := fun x o' hw => by
        obtain ⟨st, he⟩ := h.waits x o' hw
        rw [hx] at he; cases he
      refine ⟨fun _ _ _ => hr, fun x o' st he => ?_, fun x o' hw => ?_, h.serial, fun x => ?_, fun x => ?_⟩
      · simp only [Option.some.injEq, Prod.mk.injEq] at he
        obtain ⟨rfl, rfl, rfl⟩ := he
        exact setP_self _ _ _
      · by_cases hxt : x = t
        · subst hxt
          have hw' := (setP_self _ _ _).symm.trans hw
          cases hw'
          exact ⟨_, rfl⟩
        · exact absurd ((setP_ne _ _ hxt).symm.trans hw) (hnw x o')
      · have := h.asked x
        by_cases hxt : x = t
        · subst hxt; simp only [unstored, setP_self, hp] at this ⊢; exact this
        · simp only [unstored, setP_ne _ _ hxt, hx] at this ⊢
          rw [this]
          cases hs : s.pollers x with
          | none => rfl
          | some v => cases v with
            | waiting o' => exact absurd hs (hnw x o')
            | _ => rfl
      · have := h.rets x
        by_cases hxt : x = t
        · subst hxt; simp only [unreturned, setP_self, hp] at this ⊢; exact this
        · simp only [unreturned, setP_ne _ _ hxt, hx] at this ⊢
          rw [this]
    · exact h
  | store =>
    simp only [step]
    split
    · rename_i t o hx
      have hp := h.exec _ _ _ hx
      have honly : ∀ x o', s.pollers x = some (.waiting o') → x = t ∧ o' = o := fun x o' hw => by
        obtain ⟨st, he⟩ := h.waits x o' hw
        rw [hx] at he; cases he; exact ⟨rfl, rfl⟩
      refine ⟨h.running, fun x o' st he => ?_, fun x o' hw => ?_, h.serial.snoc t o, fun x => ?_, fun x => ?_⟩
      · simp only [Option.some.injEq, Prod.mk.injEq] at he
        obtain ⟨rfl, rfl, _⟩ := he
        exact hp
      · obtain ⟨rfl, rfl⟩ := honly x o' hw
        exact ⟨_, rfl⟩
      · have := h.asked x
        rw [callsOf_snoc]
        by_cases hxt : x = t
        · subst hxt
          simp only [unstored, hp, hx, List.append_nil, List.map_append, if_pos] at this ⊢
          exact this
        · rw [if_neg (fun h => hxt h.symm), List.append_nil]
          simp only [unstored] at this ⊢
          rw [this]
          cases hs : s.pollers x with
          | none => rfl
          | some v => cases v with
            | waiting o' => exact absurd (honly x o' hs).1 hxt
            | _ => rfl
      · have := h.rets x
        rw [callsOf_snoc]
        by_cases hxt : x = t
        · subst hxt
          simp only [unreturned, hp, hx, List.append_nil, if_pos] at this ⊢
          rw [this]
        · rw [if_neg (fun h => hxt h.symm), List.append_nil]
          simp only [unreturned] at this ⊢
          rw [this]
          cases hs : s.pollers x with
          | none => rfl
          | some v => cases v with
            | waiting o' => exact absurd (honly x o' hs).1 hxt
            | _ => rfl
    · exact h
  | publish =>
    simp only [step]
    split
    · rename_i t o pub ok hx
      have hp := h.exec _ _ _ hx
      have honly : ∀ x o', s.pollers x = some (.waiting o') → x = t ∧ o' = o := fun x o' hw => by
        obtain ⟨st, he⟩ := h.waits x o' hw
        rw [hx] at he; cases he; exact ⟨rfl, rfl⟩
      refine ⟨h.running, fun x o' st he => ?_, fun x o' hw => ?_, h.serial, fun x => ?_, fun x => ?_⟩
      · simp only [Option.some.injEq, Prod.mk.injEq] at he
        obtain ⟨rfl, rfl, _⟩ := he
        exact hp
      · obtain ⟨rfl, rfl⟩ := honly x o' hw
        exact ⟨_, rfl⟩
      · have := h.asked x
        simp only [unstored, hx] at this ⊢
        exact this
      · have := h.rets x
        simp only [unreturned, hx] at this ⊢
        exact this
    · exact h
  | done =>
    simp only [step]
    split
    · rename_i t o ok hx
      have hp := h.exec _ _ _ hx
      have honly : ∀ x o', s.pollers x = some (.waiting o') → x = t ∧ o' = o := fun x o' hw => by
        obtain ⟨st, he⟩ := h.waits x o' hw
        rw [hx] at he; cases he; exact ⟨rfl, rfl⟩
      refine ⟨fun _ _ _ => h.running t _ hp, (fun x o' st he => nomatch he), fun x o' hw => ?_, h.serial, fun x => ?_, fun x => ?_⟩
      · by_cases hxt : x = t
        · subst hxt; exact nomatch (setP_self _ _ _).symm.trans hw
        · exact absurd (honly x o' ((setP_ne _ _ hxt).symm.trans hw)).1 hxt
      · have := h.asked x
        by_cases hxt : x = t
        · subst hxt; simp only [unstored, setP_self, hp, hx] at this ⊢; exact this
        · simp only [unstored, setP_ne _ _ hxt] at this ⊢
          rw [this]
          cases hs : s.pollers x with
          | none => rfl
          | some v => cases v with
            | waiting o' => exact absurd (honly x o' hs).1 hxt
            | _ => rfl
      · have := h.rets x
        by_cases hxt : x = t
        · subst hxt; simp only [unreturned, setP_self, hp, hx] at this ⊢; exact this
        · simp only [unreturned, setP_ne _ _ hxt] at this ⊢
          rw [this]
          cases hs : s.pollers x with
          | none => rfl
          | some v => cases v with
            | waiting o' => exact absurd (honly x o' hs).1 hxt
            | _ => rfl
    · exact h
  | ret t =>
    simp only [step]
    split
    · rename_i o ok hp
      have hne : ∀ {x o}, s.pollers x = some (.waiting o) → x ≠ t := fun hx hxt => by rw [hxt, hp] at hx; cases hx
      refine ⟨fun x v hx => h.running t _ hp, fun x o' st he => ?_, fun x o' hx => ?_, h.serial, fun x => ?_, fun x => ?_⟩
      · have := h.exec x o' st he
        exact (setP_ne _ _ (hne this)).trans this
      · by_cases hxt : x = t
        · subst hxt; exact nomatch (setP_self _ _ _).symm.trans hx
        · exact h.waits x o' ((setP_ne _ _ hxt).symm.trans hx)
      · have := h.asked x
        by_cases hxt : x = t
        · subst hxt; simp only [unstored, setP_self, hp] at this ⊢; exact this
        · simp only [unstored, setP_ne _ _ hxt] at this ⊢; exact this
      · have := h.rets x
        rw [callsOf_snoc]
        by_cases hxt : x = t
        · subst hxt; simp only [unreturned, setP_self, hp, if_pos, List.append_nil] at this ⊢; exact this
        · simp only [unreturned, setP_ne _ _ hxt] at this ⊢
          rw [if_neg (fun h => hxt h.symm), List.append_nil]; exact this
    · exact h
  | recv => exact h.other _ (step_db cfg s.e .recv nofun)
  | «open» => exact h.other _ (step_db cfg s.e .open nofun)
  | request xs => exact h.other _ (step_db cfg s.e (.request xs) nofun)
  | view vis xs => exact h.other _ (step_db cfg s.e (.take vis xs) nofun)
  | restart => exact ⟨nofun, nofun, nofun, .nil _, fun _ => rfl, fun _ => rfl⟩

theorem inv_run (cfg : Cfg) (ops : List Op) : Inv (run cfg ops) := by
  induction ops using Util.snocRec with
  | nil => exact ⟨nofun, nofun, nofun, .nil _, fun _ => rfl, fun _ => rfl⟩
  | append_singleton ops o ih =>
    rw [show run cfg (ops ++ [o]) = step cfg (run cfg ops) o by simp [run]]
    exact inv_step cfg ih o

/-! ## Refinement -/

theorem dispatch_bus (cfg : Cfg) (room : String) (b : List Msg) (l : List (Store.Row × Nat)) : ∀ s : EndToEnd.State,
    l.foldl (EndToEnd.dispatch cfg room) { s with bus := b } = { l.foldl (EndToEnd.dispatch cfg room) s with bus := b } := by
  induction l with
  | nil => intro s; rfl
  | cons x l ih => intro s; exact ih (EndToEnd.dispatch cfg room s x)

theorem handle_bus (cfg : Cfg) (s : EndToEnd.State) (b : List Msg) (m : Msg) :
    EndToEnd.handle cfg { s with bus := b } m = { EndToEnd.handle cfg s m with bus := b } := by
  cases m with
  | acc room nids =>
    simp only [EndToEnd.handle]
    split
    · rfl
    · exact dispatch_bus cfg room b _ s
  | init room snap => simp only [EndToEnd.handle]; split <;> rfl
  | inval room => rfl

theorem flat_eq {s s' : State} (he : s'.e = s.e) (hu : unpublished s' = unpublished s) : flat s' = flat s := by
  unfold flat; rw [he, hu]

/-- C128: every interleaving of the steps of pollers, of the goroutine that makes their calls and of the rest of the process is a run of the model in
which storing and publishing a section is one step (`EndToEnd`): its state is the one of the process, with what is stored but not published at
the end of the messages, and it stores the same sections in the same order. -/
theorem C128_atomic (cfg : Cfg) (ops : List Op) :
    ∃ l : List EndToEnd.Op, EndToEnd.run cfg {} l = flat (run cfg ops) ∧ EndToEnd.polls l = (run cfg ops).all := by
  induction ops using Util.snocRec with
  | nil => exact ⟨[], rfl, rfl⟩
  | append_singleton ops o ih =>
    obtain ⟨l, hl, ha⟩ := ih
    rw [show run cfg (ops ++ [o]) = step cfg (run cfg ops) o by simp [run]]
    generalize run cfg ops = s at *
    have hsnoc : ∀ x, EndToEnd.run cfg {} (l ++ [x]) = EndToEnd.step cfg (flat s) x := fun x => by
      rw [← hl]; simp [EndToEnd.run]
    have stay : ∀ s' : State, s'.e = s.e → unpublished s' = unpublished s → s'.all = s.all →
        ∃ l : List EndToEnd.Op, EndToEnd.run cfg {} l = flat s' ∧ EndToEnd.polls l = s'.all := fun s' h1 h2 h3 =>
      ⟨l, hl.trans (flat_eq h1 h2).symm, ha.trans h3.symm⟩
    cases o with
    | ensure t => simp only [step]; split <;> exact stay _ rfl rfl rfl
    | call t o => simp only [step]; split <;> exact stay _ rfl rfl rfl
    | take t =>
      simp only [step]
      split
      · rename_i o _ hx _
        exact stay _ rfl (by simp only [unpublished, hx]) rfl
      · exact stay _ rfl rfl rfl
    | store =>
      simp only [step]
      split
      · rename_i t o hx
        refine ⟨l ++ [.poll o], ?_, ?_⟩
        · rw [hsnoc]
          simp only [EndToEnd.step, flat, unpublished, hx, List.append_nil]
        · rw [EndToEnd.polls_append, ha]; rfl
      · exact stay _ rfl rfl rfl
    | publish =>
      simp only [step]
      split
      · rename_i t o pub ok hx
        refine ⟨l, hl.trans ?_, ha⟩
        simp only [flat, unpublished, hx, List.append_nil]
      · exact stay _ rfl rfl rfl
    | done =>
      simp only [step]
      split
      · rename_i t o ok hx
        exact stay _ rfl (by simp only [unpublished, hx]) rfl
      · exact stay _ rfl rfl rfl
    | ret t => simp only [step]; split <;> exact stay _ rfl rfl rfl
    | recv =>
      cases hb : s.e.bus with
      | nil =>
        have : step cfg s .recv = s := by simp [step, EndToEnd.step, hb]
        rw [this]; exact ⟨l, hl, ha⟩
      | cons m rest =>
        refine ⟨l ++ [.recv], ?_, ?_⟩
        · rw [hsnoc]
          have e1 : EndToEnd.step cfg (flat s) .recv = EndToEnd.handle cfg { s.e with bus := rest ++ unpublished s } m := by
            simp [EndToEnd.step, flat, hb]
          have e2 : EndToEnd.step cfg s.e .recv = EndToEnd.handle cfg { s.e with bus := rest } m := by
            simp [EndToEnd.step, hb]
          rw [e1, handle_bus]
          simp only [step, flat, e2, handle_bus]
          rfl
        · rw [EndToEnd.polls_append, ha]; simp [EndToEnd.polls, step]
    | «open» =>
      refine ⟨l ++ [.open], ?_, ?_⟩
      · rw [hsnoc]; rfl
      · rw [EndToEnd.polls_append, ha]; simp [EndToEnd.polls, step]
    | request xs =>
      refine ⟨l ++ [.request xs], ?_, ?_⟩
      · rw [hsnoc]; rfl
      · rw [EndToEnd.polls_append, ha]; simp [EndToEnd.polls, step]
    | view vis xs =>
      refine ⟨l ++ [.take vis xs], ?_, ?_⟩
      · rw [hsnoc]; rfl
      · rw [EndToEnd.polls_append, ha]; simp [EndToEnd.polls, step]
    | restart =>
      refine ⟨l ++ [.restart], ?_, ?_⟩
      · rw [hsnoc]; rfl
      · rw [EndToEnd.polls_append, ha]; simp [EndToEnd.polls, step]

/-- C128: the database and what the calls return are those of storing the sections one after the other, in the recorded order, from the database
the process started with. -/
theorem C128_serial (cfg : Cfg) (ops : List Op) : Serial (run cfg ops).db0 (run cfg ops).log (run cfg ops).e.db := (inv_run cfg ops).serial

/-- C128: each poller's calls are stored in the order it makes them, each once, none left out but the one it waits for; and it is told the result of its
own call, after that was stored. -/
theorem C128_once (cfg : Cfg) (ops : List Op) (t : Nat) :
    callsOf t (run cfg ops).asked = (callsOf t (run cfg ops).log).map (·.1) ++ unstored (run cfg ops) t ∧
    callsOf t (run cfg ops).log = callsOf t (run cfg ops).rets ++ unreturned (run cfg ops) t :=
  ⟨(inv_run cfg ops).asked t, (inv_run cfg ops).rets t⟩

/-- So a poller that is in no call has had all its calls stored and been told of each. -/
theorem C128_returned (cfg : Cfg) (ops : List Op) (t : Nat) (h : (run cfg ops).pollers t = some .idle) :
    (callsOf t (run cfg ops).rets).map (·.1) = callsOf t (run cfg ops).asked ∧ callsOf t (run cfg ops).rets = callsOf t (run cfg ops).log := by
  obtain ⟨h1, h2⟩ := C128_once cfg ops t
  simp only [unstored, unreturned, h, List.append_nil] at h1 h2
  exact ⟨by rw [h1, h2], h2.symm⟩

/-! ## Calls return -/

/-- A step of the goroutine that makes the calls. -/
def Own (o : Op) : Prop := o = .store ∨ o = .publish ∨ o = .done

/-- The function that is run comes to its end. -/
theorem finish (cfg : Cfg) {s : State} {u : Nat} {o : Store.Op} {st : Stage} (h : s.exec = some (u, o, st)) :
    ∃ more : List Op, more.length ≤ 3 ∧ (∀ x ∈ more, Own x) ∧ (more.foldl (step cfg) s).exec = none ∧
      (∃ ok, (more.foldl (step cfg) s).pollers u = some (.ready o ok)) ∧ (∀ x, x ≠ u → (more.foldl (step cfg) s).pollers x = s.pollers x) ∧
      (more.foldl (step cfg) s).running = s.running := by
  have h3 : ∀ {s : State} {ok : Bool}, s.exec = some (u, o, .published ok) → (step cfg s .done).exec = none ∧
      (∃ ok, (step cfg s .done).pollers u = some (.ready o ok)) ∧ (∀ x, x ≠ u → (step cfg s .done).pollers x = s.pollers x) ∧
      (step cfg s .done).running = s.running := by
    intro s ok h
    have : step cfg s .done = { s with exec := none, pollers := setP s.pollers u (.ready o ok) } := by simp [step, h]
    rw [this]
    exact ⟨rfl, ⟨ok, setP_self _ _ _⟩, fun x hx => setP_ne _ _ hx, rfl⟩
  have h2 : ∀ {s : State} {pub : List Msg} {ok : Bool}, s.exec = some (u, o, .stored pub ok) →
      (step cfg s .publish).exec = some (u, o, .published ok) ∧ (step cfg s .publish).pollers = s.pollers ∧ (step cfg s .publish).running = s.running := by
    intro s pub ok h
    have : step cfg s .publish = { s with e := { s.e with bus := s.e.bus ++ pub }, exec := some (u, o, .published ok) } := by simp [step, h]
    rw [this]
    exact ⟨rfl, rfl, rfl⟩
  have h1 : ∀ {s : State}, s.exec = some (u, o, .taken) → (∃ pub ok, (step cfg s .store).exec = some (u, o, .stored pub ok)) ∧
      (step cfg s .store).pollers = s.pollers ∧ (step cfg s .store).running = s.running := by
    intro s h
    have : step cfg s .store = { s with
        e := { s.e with db := Store.step s.e.db o }
        exec := some (u, o, .stored (EndToEnd.publish s.e.db o) (succeeds s.e.db o))
        log := s.log ++ [(u, o, succeeds s.e.db o)]
        all := s.all ++ [o] } := by simp [step, h]
    rw [this]
    exact ⟨⟨_, _, rfl⟩, rfl, rfl⟩
  cases st with
  | published ok => exact ⟨[.done], by simp, by simp [Own], h3 h⟩
  | stored pub ok =>
    obtain ⟨a1, a2, a3⟩ := h2 h
    obtain ⟨b1, b2, b3, b4⟩ := h3 a1
    exact ⟨[.publish, .done], by simp, by simp [Own], b1, b2, fun x hx => (b3 x hx).trans (by rw [a2]), b4.trans a3⟩
  | taken =>
    obtain ⟨⟨pub, ok, c1⟩, c2, c3⟩ := h1 h
    obtain ⟨a1, a2, a3⟩ := h2 c1
    obtain ⟨b1, b2, b3, b4⟩ := h3 a1
    exact ⟨[.store, .publish, .done], by simp, by simp [Own], b1, b2, fun x hx => (b3 x hx).trans (by rw [a2, c2]), b4.trans (a3.trans c3)⟩

theorem return_ready (cfg : Cfg) {s : State} {t : Nat} {o : Store.Op} {ok : Bool} (h : s.pollers t = some (.ready o ok)) :
    (step cfg s (.ret t)).pollers t = some .idle := by
  simp [step, h, setP]

/-- C128: no call waits for ever. Whatever the goroutine is doing, a poller's call ends after at most eight steps of the goroutine and the poller. -/
theorem C128_returns (cfg : Cfg) (ops : List Op) (t : Nat) (v : Status) (h : (run cfg ops).pollers t = some v) :
    ∃ more : List Op, more.length ≤ 8 ∧ (∀ o ∈ more, Own o ∨ o = .take t ∨ o = .ret t) ∧ (run cfg (ops ++ more)).pollers t = some .idle := by
  have hI := inv_run cfg ops
  have happ : ∀ more, run cfg (ops ++ more) = more.foldl (step cfg) (run cfg ops) := fun more => by simp [run]
  simp only [happ]
  generalize run cfg ops = s at *
  cases v with
  | idle => exact ⟨[], by simp, by simp, h⟩
  | ready o ok => exact ⟨[.ret t], by simp, by simp, return_ready cfg h⟩
  | waiting o =>
    obtain ⟨st, he⟩ := hI.waits t o h
    obtain ⟨more, h1, h2, _, ⟨ok, h4⟩, _⟩ := finish cfg he
    refine ⟨more ++ [.ret t], by simp; omega, fun x hx => ?_, ?_⟩
    · rcases List.mem_append.1 hx with hx | hx
      · exact Or.inl (h2 x hx)
      · exact Or.inr (Or.inr (List.mem_singleton.1 hx))
    · rw [List.foldl_append]; exact return_ready cfg h4
  | offering o =>
    have hrun := hI.running t _ h
    -- the goroutine comes to an end with what it does
    obtain ⟨pre, p1, p2, p3, p4, p5⟩ : ∃ pre : List Op, pre.length ≤ 3 ∧ (∀ x ∈ pre, Own x) ∧ (pre.foldl (step cfg) s).exec = none ∧
        (pre.foldl (step cfg) s).pollers t = some (.offering o) ∧ (pre.foldl (step cfg) s).running = true := by
      cases hx : s.exec with
      | none => exact ⟨[], by simp, by simp, hx, h, hrun⟩
      | some y =>
        obtain ⟨u, o', st⟩ := y
        obtain ⟨pre, q1, q2, q3, _, q5, q6⟩ := finish cfg hx
        refine ⟨pre, q1, q2, q3, ?_, q6.trans hrun⟩
        rw [q5 t (fun hut => by
          have := hI.exec u o' st hx
          rw [← hut, h] at this
          cases this)]
        exact h
    have htake : step cfg (pre.foldl (step cfg) s) (.take t) =
        { pre.foldl (step cfg) s with exec := some (t, o, .taken), pollers := setP (pre.foldl (step cfg) s).pollers t (.waiting o) } := by
      simp [step, p3, p4, p5]
    obtain ⟨more, h1, h2, _, ⟨ok, h4⟩, _⟩ := finish cfg (s := step cfg (pre.foldl (step cfg) s) (.take t)) (u := t) (o := o) (st := .taken) (by rw [htake])
    refine ⟨pre ++ .take t :: (more ++ [.ret t]), by simp; omega, fun x hx => ?_, ?_⟩
    · simp only [List.mem_append, List.mem_cons, List.not_mem_nil, or_false] at hx
      rcases hx with hx | hx | hx | hx
      · exact Or.inl (p2 x hx)
      · exact Or.inr (Or.inl hx)
      · exact Or.inl (h2 x hx)
      · exact Or.inr (Or.inr hx)
    · rw [List.foldl_append, List.foldl_cons, List.foldl_append]
      exact return_ready cfg h4

/-! ## What it is for -/

/-- C115 for pollers that run side by side: when nothing is under way, the tracker has the last stored memberships. -/
theorem C128_tracker (cfg : Cfg) (ops : List Op) (hok : ∀ o ∈ (run cfg ops).all, Store.OkOp o) (hk : ∀ o ∈ (run cfg ops).all, EndToEnd.KeyOk o) (r u : String)
    (hb : (run cfg ops).e.bus = []) (hp : unpublished (run cfg ops) = []) :
    match EndToEnd.lastMember (run cfg ops).e.db r u with
    | none => Tracker.isUserJoined (run cfg ops).e.disp.jrt u r = false
    | some x =>
      (cfg.mem x.ev.id = "join" → Tracker.isUserJoined (run cfg ops).e.disp.jrt u r = true) ∧
      (cfg.mem x.ev.id = "leave" ∨ cfg.mem x.ev.id = "ban" → Tracker.isUserJoined (run cfg ops).e.disp.jrt u r = false) := by
  obtain ⟨l, hl, ha⟩ := C128_atomic cfg ops
  have := EndToEnd.C115_tracker_partial cfg l (by rw [ha]; exact hok) (by rw [ha]; exact hk) r u (by rw [hl]; simp [flat, hb, hp])
  rw [hl] at this
  exact this

end Verif.Executor
