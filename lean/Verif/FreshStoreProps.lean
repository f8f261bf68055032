import Verif.FreshStore
import Verif.ToDeviceProps
/-!
# C153: a position of an old database does not cost a message of the new one
-/
namespace Verif.FreshStore
open Verif.ToDevice

/-! ## Specification -/

/-- Does the client of the device hold a position of a database that is gone? -/
def stale (acts : List Act) (d : Dev) : Bool := acts.foldl (fun b a =>
  match a with
  | .drop => true
  | .poll e _ r => if e = d ∧ r = true then false else b
  | .forget e => if e = d then false else b
  | _ => b) false

/-- No two users have a device of the same id. -/
def OwnIds (acts : List Act) : Prop := ∀ d e l m q r, Act.poll d l q ∈ acts → Act.poll e m r ∈ acts → d.2 = e.2 → d = e

/-- No response to a client that holds a position of a database that is gone is lost. -/
def FirstHeard (acts : List Act) : Prop := ∀ a d l b, acts = a ++ Act.poll d l false :: b → stale a d = false

/-! ## The invariant -/

theorem run_snoc (l : List Act) (x : Act) : run (l ++ [x]) = step (run l) x := by simp [run]

/-- The rows of a new database, before the client has heard of it. -/
structure Unheard (s : Sys) : Prop where
  sorted : Sorted s.srv
  acked : s.acked ≤ s.srv.seq
  rows : ∀ r ∈ s.srv.rows, r ∈ s.log
  log : ∀ r ∈ s.log, r ∈ s.gone ∨ r ∈ s.srv.rows

/-- Without its position, the client of a new database is like a new one. -/
theorem unheard_forget {s : Sys} (h : Unheard s) : ToDevice.Inv { s with cursor := none } := by
  refine ⟨h.sorted, Nat.zero_le _, h.acked, fun r hr hp => ?_, h.rows, fun r hr => ?_⟩
  · have := h.sorted.2 r hr
    simp only [Option.getD_none] at hp
    omega
  · rcases h.log r hr with h1 | h1
    · exact Or.inl h1
    · exact Or.inr (Or.inl h1)

/-- A request whose position is ignored is one without a position. -/
theorem request_unknown {s : State} (hk : s.known = false) (p : Option Nat) (l : Nat) : request s p l = request s none l := by
  unfold request
  rw [hk]
  rfl

structure G (acts : List Act) (w : W) : Prop where
  fresh : ∀ d, stale acts d = false → ToDevice.Inv (w.sys d)
  old : ∀ d, stale acts d = true → Unheard (w.sys d) ∧ ∀ l q, Act.poll d l q ∈ acts → d.2 ∉ w.known
  knew : ∀ i ∈ w.known, ∃ d l q, Act.poll d l q ∈ acts ∧ d.2 = i

theorem stale_snoc (l : List Act) (x : Act) (d : Dev) : stale (l ++ [x]) d = (match x with
    | .drop => true
    | .poll e _ r => if e = d ∧ r = true then false else stale l d
    | .forget e => if e = d then false else stale l d
    | _ => stale l d) := by
  simp only [stale, List.foldl_append, List.foldl_cons, List.foldl_nil]

theorem unheard_insert {s : Sys} (h : Unheard s) (k : Nat) (ms : List Msg) : Unheard (sysStep s (.insert k ms)) := by
  have h1 := ToDevice.inv_step (unheard_forget h) (.insert k ms)
  refine ⟨h1.sorted, h1.ackedLe, h1.rowsLog, fun r hr => ?_⟩
  simp only [sysStep, List.mem_append, List.mem_filter, decide_eq_true_eq] at hr ⊢
  rcases hr with hr | hr
  · rcases h.log r hr with h2 | h2
    · exact Or.inl (Or.inl h2)
    · cases hc : isCancelled s.srv (cancels ms) r
      · exact Or.inr (List.mem_append_left _ (List.mem_filter.2 ⟨h2, by simp [hc]⟩))
      · exact Or.inl (Or.inr ⟨h2, rfl⟩)
  · exact Or.inr hr.1

theorem put_same (w : W) (d : Dev) (s : Sys) : (w.put d s).sys d = s := by simp [W.put]

theorem put_other (w : W) {d e : Dev} (s : Sys) (h : e ≠ d) : (w.put d s).sys e = w.sys e := by simp [W.put, h]

/-- The poll of a client whose position is ignored. -/
theorem poll_unknown {s : Sys} (h : Unheard s) (hk : s.srv.known = false) (l : Nat) :
    ToDevice.Inv { sysStep s (.poll l true) with acked := s.acked } := by
  have h1 := ToDevice.inv_step (unheard_forget h) (.poll l true)
  have h2 := request_unknown hk s.cursor l
  obtain ⟨a1, a2, a3, a4, a5, a6⟩ := h1
  simp only [sysStep, if_true, Option.getD_none, Nat.max_zero] at a1 a2 a3 a4 a5 a6
  rw [← h2] at a1 a2 a3 a4 a5 a6
  refine ⟨?_, ?_, ?_, ?_, ?_, ?_⟩ <;> simp only [sysStep, if_true]
  · exact a1
  · exact a2
  · exact a3
  · exact a4
  · exact a5
  · exact a6

/-- The poll of a client whose position is good: whether it is ignored does not matter. -/
theorem poll_fresh {s : Sys} (h : ToDevice.Inv s) (b : Bool) (l : Nat) (r : Bool) :
    ToDevice.Inv { sysStep { s with srv := { s.srv with known := b } } (.poll l r) with
      acked := if b then (sysStep { s with srv := { s.srv with known := b } } (.poll l r)).acked else s.acked } := by
  have hb : ToDevice.Inv { s with srv := { s.srv with known := b } } := ⟨h.sorted, h.cur, h.ackedLe, h.seen, h.rowsLog, h.acct⟩
  have h1 := ToDevice.inv_step hb (.poll l r)
  cases b with
  | true => exact h1
  | false =>
    have hrows : ∀ x, x ∈ (request { s.srv with known := false } s.cursor l).1.rows ↔ x ∈ s.srv.rows := fun x => Iff.rfl
    refine ⟨h1.sorted, h1.cur, ?_, h1.seen, h1.rowsLog, fun x hx => ?_⟩
    · have : (sysStep { s with srv := { s.srv with known := false } } (.poll l r)).srv.seq = s.srv.seq := by cases r <;> rfl
      show s.acked ≤ _
      rw [this]
      exact h.ackedLe
    · have hl : (sysStep { s with srv := { s.srv with known := false } } (.poll l r)).log = s.log := by cases r <;> rfl
      have hx : x ∈ s.log := by rw [← hl]; exact hx
      rcases h.acct x hx with h2 | h2 | h2
      · left; cases r <;> exact h2
      · right; left; cases r <;> exact h2
      · right; right
        refine ⟨?_, h2.2⟩
        cases r
        · exact h2.1
        · exact List.mem_append_left _ h2.1

theorem g_run (acts : List Act) (ho : OwnIds acts) (hf : FirstHeard acts) : G acts (run acts) := by
  induction acts using Verif.Util.snocRec with
  | nil => exact ⟨fun _ _ => ToDevice.inv_init, (fun _ h => nomatch h), (fun _ h => nomatch h)⟩
  | append_singleton l x ih =>
    have hi := ih (fun d e a b q r h1 h2 => ho d e a b q r (List.mem_append_left _ h1) (List.mem_append_left _ h2))
      (fun a d n b he => hf a d n (b ++ [x]) (by rw [he]; simp))
    rw [run_snoc]
    cases x with
    | drop =>
      refine ⟨fun d hd => ?_, fun d _ => ⟨⟨⟨.nil, fun r h => nomatch h⟩, Nat.le_refl _, (fun r h => nomatch h), (fun r h => nomatch h)⟩,
        (fun _ _ _ h => nomatch h)⟩, (fun i h => nomatch h)⟩
      rw [stale_snoc] at hd; cases hd
    | restart =>
      refine ⟨fun d hd => ?_, fun d hd => ?_, (fun i h => nomatch h)⟩
      · rw [stale_snoc] at hd; exact hi.fresh d hd
      · rw [stale_snoc] at hd
        exact ⟨(hi.old d hd).1, (fun _ _ _ h => nomatch h)⟩
    | insert e k ms =>
      have hmem : ∀ d a q, Act.poll d a q ∈ l ++ [Act.insert e k ms] → Act.poll d a q ∈ l := by
        intro d a q h
        rcases List.mem_append.1 h with h | h
        · exact h
        · simp at h
      refine ⟨fun d hd => ?_, fun d hd => ?_, fun i h => ?_⟩
      · rw [stale_snoc] at hd
        by_cases hde : d = e
        · subst hde
          simp only [step, put_same]
          exact ToDevice.inv_step (hi.fresh d hd) _
        · simp only [step, put_other _ _ hde]
          exact hi.fresh d hd
      · rw [stale_snoc] at hd
        have := hi.old d hd
        refine ⟨?_, fun a q h => this.2 a q (hmem d a q h)⟩
        by_cases hde : d = e
        · subst hde
          simp only [step, put_same]
          exact unheard_insert this.1 k ms
        · simp only [step, put_other _ _ hde]
          exact this.1
      · obtain ⟨d, a, q, h1, h2⟩ := hi.knew i h
        exact ⟨d, a, q, List.mem_append_left _ h1, h2⟩
    | forget e =>
      have hmem : ∀ d a q, Act.poll d a q ∈ l ++ [Act.forget e] → Act.poll d a q ∈ l := by
        intro d a q h
        rcases List.mem_append.1 h with h | h
        · exact h
        · simp at h
      refine ⟨fun d hd => ?_, fun d hd => ?_, fun i h => ?_⟩
      · rw [stale_snoc] at hd
        by_cases hde : d = e
        · subst hde
          simp only [step, put_same]
          cases hs : stale l d with
          | false => exact ToDevice.inv_step (hi.fresh d hs) _
          | true => exact unheard_forget (hi.old d hs).1
        · simp only [step, put_other _ _ hde]
          exact hi.fresh d (by simpa [Ne.symm hde] using hd)
      · rw [stale_snoc] at hd
        have hde : d ≠ e := by rintro rfl; simp at hd
        have := hi.old d (by simpa [Ne.symm hde] using hd)
        refine ⟨?_, fun a q h => this.2 a q (hmem d a q h)⟩
        simp only [step, put_other _ _ hde]
        exact this.1
      · obtain ⟨d, a, q, h1, h2⟩ := hi.knew i h
        exact ⟨d, a, q, List.mem_append_left _ h1, h2⟩
    | poll e n r =>
      refine ⟨fun d hd => ?_, fun d hd => ?_, fun i h => ?_⟩
      · rw [stale_snoc] at hd
        by_cases hde : d = e
        · subst hde
          simp only [step, poll]
          rw [put_same]
          cases hs : stale l d with
          | false => exact poll_fresh (hi.fresh d hs) _ n r
          | true =>
            have hu := hi.old d hs
            have hr : r = true := by
              cases r with
              | true => rfl
              | false => simp [hs] at hd
            subst hr
            have hn : (run l).known.contains d.2 = false := by
              cases hc : (run l).known.contains d.2 with
              | false => rfl
              | true =>
                have hc : d.2 ∈ (run l).known := by simpa using hc
                obtain ⟨d', a, q, h1, h2⟩ := hi.knew _ hc
                have he := ho d' d a n q true (List.mem_append_left _ h1) (by simp) h2
                subst he
                exact absurd hc (hu.2 a q h1)
            rw [hn]
            exact poll_unknown (s := { (run l).sys d with srv := { ((run l).sys d).srv with known := false } })
              ⟨hu.1.sorted, hu.1.acked, hu.1.rows, hu.1.log⟩ rfl n
        · simp only [step, poll]
          rw [put_other _ _ hde]
          refine hi.fresh d ?_
          simpa [Ne.symm hde] using hd
      · rw [stale_snoc] at hd
        have hde : d ≠ e := by
          rintro rfl
          cases r with
          | true => simp at hd
          | false =>
            have := hf l d n [] rfl
            simp [this] at hd
        have hu := hi.old d (by simpa [Ne.symm hde] using hd)
        refine ⟨?_, fun a q h hk => ?_⟩
        · simp only [step, poll]
          rw [put_other _ _ hde]
          exact hu.1
        · have hl : Act.poll d a q ∈ l := by
            rcases List.mem_append.1 h with h | h
            · exact h
            · simp only [List.mem_singleton, Act.poll.injEq] at h
              exact absurd h.1 hde
          rcases List.mem_cons.1 hk with hk | hk
          · exact hde (ho d e a n q r h (by simp) hk)
          · exact hu.2 a q hl hk
      · rcases List.mem_cons.1 h with h | h
        · exact ⟨e, n, r, by simp, h.symm⟩
        · obtain ⟨d, a, q, h1, h2⟩ := hi.knew i h
          exact ⟨d, a, q, List.mem_append_left _ h1, h2⟩

/-! ## C153 -/

/-- Every message that arrived since the database was made is stored, or was received, or was cancelled; if device ids are not shared and
the first response after the database was dropped is received.  Missing: shared device ids (`C153_violated_shared`) and lost responses
(`C153_violated_lost`). -/
theorem C153_kept_partial (acts : List Act) (ho : OwnIds acts) (hf : FirstHeard acts) (d : Dev) (r : Row) (hr : r ∈ ((run acts).sys d).log) :
    r ∈ ((run acts).sys d).got ∨ r ∈ ((run acts).sys d).gone ∨ r ∈ ((run acts).sys d).srv.rows := by
  have h := g_run acts ho hf
  cases hs : stale acts d with
  | false =>
    rcases (h.fresh d hs).acct r hr with h1 | h1 | h1
    · exact Or.inr (Or.inl h1)
    · exact Or.inr (Or.inr h1)
    · exact Or.inl h1.1
  | true =>
    rcases (h.old d hs).1.log r hr with h1 | h1
    · exact Or.inr (Or.inl h1)
    · exact Or.inr (Or.inr h1)

/-- The first response to a client with a position of a database that is gone has the messages of the new one from the first on, and
deletes none, whatever the position. -/
theorem C153_from_start_partial (acts : List Act) (d : Dev) (l : Nat) (ho : OwnIds (acts ++ [.poll d l true])) (hf : FirstHeard acts)
    (hs : stale acts d = true) :
    ((run (acts ++ [.poll d l true])).sys d).srv.rows = ((run acts).sys d).srv.rows ∧
    ((run (acts ++ [.poll d l true])).sys d).got =
      ((run acts).sys d).got ++ ((run acts).sys d).srv.rows.take (if l = 0 then 100 else l) := by
  have h := g_run acts (fun a e x y q r h1 h2 => ho a e x y q r (List.mem_append_left _ h1) (List.mem_append_left _ h2)) hf
  have hn : (run acts).known.contains d.2 = false := by
    cases hc : (run acts).known.contains d.2 with
    | false => rfl
    | true =>
      have hc : d.2 ∈ (run acts).known := by simpa using hc
      obtain ⟨d', a, q, h1, h2⟩ := h.knew _ hc
      have he := ho d' d a l q true (List.mem_append_left _ h1) (by simp) h2
      subst he
      exact absurd hc ((h.old d' hs).2 a q h1)
  have hso := (h.old d hs).1.sorted
  rw [run_snoc]
  simp only [step, poll]
  rw [put_same]
  refine ⟨?_, ?_⟩
  · simp only [sysStep, if_true, request, hn, Bool.false_eq_true, if_false]
  · simp only [sysStep, if_true, request, hn, Bool.false_eq_true, if_false, messages, Option.getD_none]
    congr 2
    rw [List.filter_eq_self]
    intro r hr
    have := hso.2 r hr
    simp; omega

/-- Two users with devices of the same id: after the database was dropped, the request of the one makes the other's count as seen. The old
position of the other deletes a message that was never sent. -/
theorem C153_violated_shared : ∃ acts d r, FirstHeard acts ∧ r ∈ ((run acts).sys d).log ∧
    r ∉ ((run acts).sys d).got ∧ r ∉ ((run acts).sys d).gone ∧ r ∉ ((run acts).sys d).srv.rows := by
  refine ⟨[.insert ("@b", "D") 4 [⟨"m", "", "", "", "", ""⟩], .poll ("@b", "D") 0 true, .drop, .insert ("@b", "D") 0 [⟨"n", "", "", "", "", ""⟩],
    .poll ("@a", "D") 0 true, .poll ("@b", "D") 0 true], ("@b", "D"), ⟨1, ⟨"n", "", "", "", "", ""⟩⟩, ?_, by decide +kernel, by decide +kernel,
    by decide +kernel, by decide +kernel⟩
  intro a d l b he
  have : Act.poll d l false ∈ a ++ Act.poll d l false :: b := by simp
  rw [← he] at this
  simp at this

/-- One device: the response to its first request after the database was dropped is lost, and the client asks again with its old position. -/
theorem C153_violated_lost : ∃ acts d r, OwnIds acts ∧ r ∈ ((run acts).sys d).log ∧
    r ∉ ((run acts).sys d).got ∧ r ∉ ((run acts).sys d).gone ∧ r ∉ ((run acts).sys d).srv.rows := by
  refine ⟨[.insert ("@b", "D") 4 [⟨"m", "", "", "", "", ""⟩], .poll ("@b", "D") 0 true, .drop, .insert ("@b", "D") 0 [⟨"n", "", "", "", "", ""⟩],
    .poll ("@b", "D") 0 false, .poll ("@b", "D") 0 true], ("@b", "D"), ⟨1, ⟨"n", "", "", "", "", ""⟩⟩, ?_, by decide +kernel, by decide +kernel,
    by decide +kernel, by decide +kernel⟩
  intro d e l m q r h1 h2 _
  simp only [List.mem_cons, Act.poll.injEq, reduceCtorEq, List.not_mem_nil, or_false, false_or] at h1 h2
  have hd : d = ("@b", "D") := by rcases h1 with h | h | h <;> exact h.1
  have he : e = ("@b", "D") := by rcases h2 with h | h | h <;> exact h.1
  rw [hd, he]

/-! ## Examples -/

/-- Two users with a device each; the database is dropped; each gets what came after. -/
def exFine : List Act :=
  [.insert ("@b", "D") 4 [⟨"m", "", "", "", "", ""⟩], .poll ("@b", "D") 0 true, .poll ("@a", "E") 0 true, .drop,
   .insert ("@b", "D") 0 [⟨"n", "", "", "", "", ""⟩], .poll ("@a", "E") 0 true]

theorem exFine_own : OwnIds (exFine ++ [.poll ("@b", "D") 0 true]) := by
  intro d e l m q r h1 h2 h
  simp only [exFine, List.cons_append, List.nil_append, List.mem_cons, Act.poll.injEq, reduceCtorEq, List.not_mem_nil, or_false, false_or] at h1 h2
  rcases h1 with ⟨rfl, _⟩ | ⟨rfl, _⟩ | ⟨rfl, _⟩ | ⟨rfl, _⟩ <;> rcases h2 with ⟨rfl, _⟩ | ⟨rfl, _⟩ | ⟨rfl, _⟩ | ⟨rfl, _⟩ <;>
    first | rfl | (exact absurd h (by decide))

theorem exFine_heard : FirstHeard exFine := by
  intro a d l b he
  have : Act.poll d l false ∈ a ++ Act.poll d l false :: b := by simp
  rw [← he] at this
  simp [exFine] at this

example : stale exFine ("@b", "D") = true ∧ ((run exFine).sys ("@b", "D")).cursor = some 5 ∧
    ((run (exFine ++ [.poll ("@b", "D") 0 true])).sys ("@b", "D")).got = [⟨1, ⟨"n", "", "", "", "", ""⟩⟩] := by
  have hs : stale exFine ("@b", "D") = true := by decide +kernel
  refine ⟨hs, by decide +kernel, ?_⟩
  rw [(C153_from_start_partial exFine ("@b", "D") 0 exFine_own exFine_heard hs).2]
  decide +kernel

end Verif.FreshStore
