import Verif.NumLive
import Verif.ConnLoadProps
/-!
# C110: `num_live` counts the events at the end of the timeline that have just happened
-/
namespace Verif.NumLive

open ConnLoad

/-! ## The positions are those of `ConnLoad` -/

def toOp : Op → Option ConnLoad.Op
  | .append r => some (.append r)
  | .request xs => some (.request xs)
  | .deliver i vis xs => some (.deliver i vis xs)
  | .respond => none

theorem loadsR_c (s : R) (xs : List (Nat × Nat)) : (loadsR s xs).c = loads s.c xs := by
  induction xs generalizing s with
  | nil => rfl
  | cons x xs ih => exact ih (load1R s x)

/-- The steps are those of `ConnLoad`, so C24 holds for this model as well. -/
theorem stepR_c (s : R) (o : Op) : (stepR s o).c = match toOp o with | some o' => step s.c o' | none => s.c := by
  cases o with
  | append r => rfl
  | request xs => exact loadsR_c s xs
  | respond => rfl
  | deliver i vis xs =>
    simp only [stepR, toOp, step]
    cases s.c.log[i]? with
    | none => rfl
    | some r =>
      simp only [deliverR, deliver]
      split
      · rfl
      · split
        · show appendLive (loadsR _ xs).c r (i + 1) = _
          rw [loadsR_c]
        · split
          · rw [loadsR_c]
          · simp only [loadsR_c]

/-! ## Specification -/

/-- Histories of a connection that has all its events yet to come when it is made, with events taken in order. The number is that of the
events taken. -/
inductive Run : Nat → R → Prop
  | start (log : List Nat) : Run log.length (connectR log)
  | append {q : Nat} {s : R} (r : Nat) : Run q s → Run q (stepR s (.append r))
  | request {q : Nat} {s : R} (xs : List (Nat × Nat)) : Run q s → Run q (stepR s (.request xs))
  | deliver {q : Nat} {s : R} (vis : Bool) (xs : List (Nat × Nat)) : Run q s → q < s.c.log.length →
      Run (q + 1) (stepR s (.deliver q vis xs))
  | respond {q : Nat} {s : R} : Run q s → Run q (stepR s .respond)

/-- The last `k` events of the timeline are the last `k` live events of this response, and there are so many. -/
def Counts (tl : List Nat) (k : Nat) (live : List Nat) : Prop :=
  ∃ a b l, tl = a ++ l ∧ live = b ++ l ∧ l.length = k

structure Inv (q : Nat) (s : R) : Prop where
  anchor : s.c.anchor = q
  lp : ∀ r, s.c.lp r ≤ q
  len : q ≤ s.c.log.length
  counts : ∀ r tl k, s.resp r = some (tl, k) → Counts tl k (s.live r) ∧ (s.again r = false → k = (s.live r).length)
  none : ∀ r, s.resp r = none → s.live r = []
  sorted : ∀ r tl k, s.resp r = some (tl, k) → tl.Pairwise (· < ·) ∧ ∀ e ∈ tl, e ≤ s.c.lp r

theorem latest_le {log : List Nat} {to k r n : Nat} (h : (latest log to k r).getLast? = some n) : n ≤ to := by
  have := List.mem_of_getLast? h
  unfold latest lastN at this
  have := (List.mem_filter.1 (List.mem_of_mem_drop this)).2
  simpa using this

theorem latest_sorted (log : List Nat) (to k r : Nat) : (latest log to k r).Pairwise (· < ·) := by
  unfold latest lastN
  exact List.Pairwise.sublist (List.drop_sublist _ _) (List.Pairwise.filter _ (evs_sorted log r))

theorem le_last {l : List Nat} (h : l.Pairwise (· < ·)) {e : Nat} (he : e ∈ l) : e ≤ l.getLast?.getD 0 := by
  rcases List.eq_nil_or_concat l with rfl | ⟨l', x, rfl⟩
  · cases he
  · rw [List.concat_eq_append] at *
    simp only [List.getLast?_append, List.getLast?_singleton, Option.some_or, Option.getD_some]
    rcases List.mem_append.1 he with h1 | h1
    · exact Nat.le_of_lt ((List.pairwise_append.1 h).2.2 _ h1 x (by simp))
    · rw [List.mem_singleton.1 h1]; exact Nat.le_refl _

theorem load1R_inv {q : Nat} {s : R} (h : Inv q s) (x : Nat × Nat) : Inv q (load1R s x) := by
  refine ⟨h.anchor, ?_, h.len, ?_, ?_, ?_⟩
  · intro r
    simp only [load1R, load1, ConnLoad.set]
    split
    · cases hl : (latest s.c.log s.c.anchor x.2 x.1).getLast? with
      | none => simp
      | some n => simpa using (h.anchor ▸ latest_le hl)
    · exact h.lp r
  · intro r tl k hr
    simp only [load1R, ConnLoad.set] at hr ⊢
    by_cases hx : r = x.1
    · subst hx
      simp only [if_true, Option.some.injEq, Prod.mk.injEq] at hr ⊢
      obtain ⟨h1, h2⟩ := hr
      subst h2
      refine ⟨⟨tl, s.live x.1, [], by simp, by simp, rfl⟩, ?_⟩
      intro ha
      simp only [Bool.or_eq_false_iff, Bool.not_eq_false', List.isEmpty_iff] at ha
      rw [ha.2]; rfl
    · simp only [if_neg hx] at hr ⊢
      exact h.counts r tl k hr
  · intro r hr
    simp only [load1R, ConnLoad.set] at hr ⊢
    by_cases hx : r = x.1
    · simp [hx] at hr
    · rw [if_neg hx] at hr; exact h.none r hr
  · intro r tl k hr
    simp only [load1R, load1, ConnLoad.set] at hr ⊢
    by_cases hx : r = x.1
    · simp only [if_pos hx, Option.some.injEq, Prod.mk.injEq] at hr ⊢
      obtain ⟨rfl, _⟩ := hr
      exact ⟨latest_sorted _ _ _ _, fun e he => le_last (latest_sorted _ _ _ _) he⟩
    · simp only [if_neg hx] at hr ⊢
      exact h.sorted r tl k hr

theorem loadsR_inv {q : Nat} {s : R} (h : Inv q s) (xs : List (Nat × Nat)) : Inv q (loadsR s xs) := by
  induction xs generalizing s with
  | nil => exact h
  | cons x xs ih => exact ih (load1R_inv h x)

theorem loadsR_same (s : R) (xs : List (Nat × Nat)) : (loadsR s xs).live = s.live ∧ (loadsR s xs).c.log = s.c.log ∧
    (loadsR s xs).c.anchor = s.c.anchor := by
  induction xs generalizing s with
  | nil => exact ⟨rfl, rfl, rfl⟩
  | cons x xs ih => exact ih (load1R s x)

/-- The last event of a room up to its own position. -/
theorem latest_last {log : List Nat} {i r k : Nat} (hr : log[i]? = some r) (hk : 0 < k) :
    ∃ t, latest log (i + 1) k r = t ++ [i + 1] := by
  have hlt : i < log.length := by
    rcases Nat.lt_or_ge i log.length with h | h
    · exact h
    · rw [List.getElem?_eq_none h] at hr; cases hr
  have hmem : i + 1 ∈ (evs log r).filter (· ≤ i + 1) := by
    unfold evs
    simp only [List.mem_filter, List.mem_map, List.mem_range, decide_eq_true_eq]
    exact ⟨⟨⟨i, hlt, rfl⟩, by simpa using hr⟩, Nat.le_refl _⟩
  have hs : ((evs log r).filter (· ≤ i + 1)).Pairwise (· < ·) := List.Pairwise.filter _ (evs_sorted log r)
  have hle : ∀ e ∈ (evs log r).filter (· ≤ i + 1), e ≤ i + 1 := fun e he => by simpa using (List.mem_filter.1 he).2
  unfold latest
  generalize (evs log r).filter (· ≤ i + 1) = l at *
  rcases List.eq_nil_or_concat l with h | ⟨l', x, h⟩
  · rw [h] at hmem; cases hmem
  · rw [List.concat_eq_append] at h
    have hx : x = i + 1 := by
      have h1 := hle x (by rw [h]; simp)
      rw [h] at hmem hs
      rcases List.mem_append.1 hmem with h2 | h2
      · have := (List.pairwise_append.1 hs).2.2 _ h2 x (by simp)
        omega
      · exact (List.mem_singleton.1 h2).symm
    subst hx
    refine ⟨l'.drop (l'.length + 1 - k), ?_⟩
    unfold lastN
    rw [h, List.length_append, List.length_singleton, List.drop_append]
    have : l'.length + 1 - k - l'.length = 0 := by omega
    rw [this]; rfl

/-- A room that is built has its own event, which makes the position, or has nothing. -/
theorem loadsR_built {s : R} {i r : Nat} (hr : s.c.log[i]? = some r) (ha : s.c.anchor = i + 1) (xs : List (Nat × Nat))
    (hx : xs.any (·.1 = r) = true) :
    ((loadsR s xs).c.lp r = i + 1 ∧ ∃ t, (loadsR s xs).resp r = some (t ++ [i + 1], 0)) ∨
      ((loadsR s xs).c.lp r = 0 ∧ (loadsR s xs).resp r = some ([], 0)) := by
  induction xs using Verif.Util.snocRec generalizing s with
  | nil => simp at hx
  | append_singleton xs x ih =>
    have e : loadsR s (xs ++ [x]) = load1R (loadsR s xs) x := by unfold loadsR; rw [List.foldl_append]; rfl
    rw [e]
    obtain ⟨_, h1, h2⟩ := loadsR_same s xs
    by_cases hxr : x.1 = r
    · subst hxr
      simp only [load1R, load1, ConnLoad.set, if_true]
      rw [h1, h2, ha]
      rcases Nat.eq_zero_or_pos x.2 with h0 | h0
      · right
        have : latest s.c.log (i + 1) x.2 x.1 = [] := by rw [h0]; simp [latest, lastN]
        rw [this]; exact ⟨rfl, rfl⟩
      · left
        obtain ⟨t, ht⟩ := latest_last hr h0
        rw [ht]
        exact ⟨by simp, t, rfl⟩
    · have hne : ¬ r = x.1 := fun h => hxr h.symm
      simp only [load1R, load1, ConnLoad.set, if_neg hne]
      refine ih hr ha ?_
      simpa [List.any_append, hxr] using hx

theorem loadsR_other (s : R) (xs : List (Nat × Nat)) (r : Nat) (hx : xs.any (·.1 = r) = false) :
    (loadsR s xs).c.lp r = s.c.lp r ∧ (loadsR s xs).resp r = s.resp r ∧ (loadsR s xs).again r = s.again r := by
  induction xs generalizing s with
  | nil => exact ⟨rfl, rfl, rfl⟩
  | cons x xs ih =>
    simp only [List.any_cons, Bool.or_eq_false_iff, decide_eq_false_iff_not] at hx
    have hne : ¬ r = x.1 := fun h => hx.1 h.symm
    obtain ⟨h1, h2, h3⟩ := ih (load1R s x) hx.2
    have e : loadsR s (x :: xs) = loadsR (load1R s x) xs := rfl
    rw [e, h1, h2, h3]
    simp [load1R, load1, ConnLoad.set, hne]

theorem counts_snoc {tl live : List Nat} {k n : Nat} (h : Counts tl k live) : Counts (tl ++ [n]) (k + 1) (live ++ [n]) := by
  obtain ⟨a, b, l, rfl, rfl, rfl⟩ := h
  exact ⟨a, b, l ++ [n], by simp, by simp, by simp⟩

theorem run_inv {q : Nat} {s : R} (h : Run q s) : Inv q s := by
  induction h with
  | start log =>
    refine ⟨rfl, ?_, Nat.le_refl _, (fun r tl k h => by cases h), fun _ _ => rfl, (fun r tl k h => by cases h)⟩
    intro r
    show (evs log r).getLast?.getD 0 ≤ log.length
    cases hl : (evs log r).getLast? with
    | none => simp
    | some n =>
      have := List.mem_of_getLast? hl
      unfold evs at this
      simp only [List.mem_filter, List.mem_map, List.mem_range] at this
      obtain ⟨⟨i, hi, rfl⟩, _⟩ := this
      exact hi
  | append r _ ih => exact ⟨ih.anchor, ih.lp, by have := ih.len; simp only [stepR, List.length_append]; omega, ih.counts, ih.none, ih.sorted⟩
  | request xs _ ih => exact loadsR_inv ih xs
  | respond _ ih => exact ⟨ih.anchor, ih.lp, ih.len, (fun r tl k h => by cases h), fun _ _ => rfl, (fun r tl k h => by cases h)⟩
  | @deliver q s vis xs _ hlt ih =>
    have hr : s.c.log[q]? = some s.c.log[q] := List.getElem?_eq_getElem hlt
    generalize hrr : s.c.log[q] = r at hr
    have hskip : ¬ (0 < s.c.lp r ∧ q + 1 < s.c.lp r) := by have := ih.lp r; omega
    have hmax : max s.c.anchor (q + 1) = q + 1 := by have := ih.anchor; omega
    simp only [stepR, hr, deliverR, if_neg hskip]
    rw [hmax]
    have h0 : Inv (q + 1) { s with c := { s.c with anchor := q + 1 } } :=
      ⟨rfl, fun r => Nat.le_succ_of_le (ih.lp r), hlt, ih.counts, ih.none, ih.sorted⟩
    have h1 := loadsR_inv h0 xs
    obtain ⟨hlive, hlog, hanc⟩ := loadsR_same { s with c := { s.c with anchor := q + 1 } } xs
    cases vis with
    | false =>
      simp only [Bool.false_eq_true, if_false]
      split
      · exact h1
      · exact ⟨h1.anchor, h1.lp, h1.len, h1.counts, h1.none, h1.sorted⟩
    | true =>
      simp only [if_true]
      refine ⟨h1.anchor, ?_, h1.len, ?_, ?_, ?_⟩
      · intro r'
        simp only [appendR, appendLive, ConnLoad.set]
        split
        · exact Nat.le_refl _
        · exact h1.lp r'
      · intro r' tl k hrr'
        simp only [appendR, ConnLoad.set] at hrr' ⊢
        by_cases hx : r' = r
        · subst hx
          simp only [if_true, Option.some.injEq, Prod.mk.injEq] at hrr' ⊢
          obtain ⟨rfl, rfl⟩ := hrr'
          cases hb : xs.any (·.1 = r') with
          | true =>
            rcases loadsR_built (s := { s with c := { s.c with anchor := q + 1 } }) hr rfl xs hb with ⟨b1, t, b2⟩ | ⟨b1, b2⟩
            · rw [b1, if_pos (Nat.le_refl _)]
              simp only [b2, Option.getD_some]
              refine ⟨⟨t, _, [q + 1], rfl, rfl, rfl⟩, ?_⟩
              intro ha
              have := (h1.counts r' _ _ b2).2 ha
              rw [List.length_append, ← this]; rfl
            · rw [b1, if_neg (by omega)]
              simp only [b2, Option.getD_some]
              refine ⟨⟨[], _, [q + 1], rfl, rfl, rfl⟩, ?_⟩
              intro ha
              have := (h1.counts r' _ _ b2).2 ha
              rw [List.length_append, ← this]; rfl
          | false =>
            obtain ⟨b1, b2, b3⟩ := loadsR_other { s with c := { s.c with anchor := q + 1 } } xs r' hb
            have hlp := ih.lp r'
            have hn : ¬ q + 1 ≤ (loadsR { s with c := { s.c with anchor := q + 1 } } xs).c.lp r' := by
              rw [b1]; show ¬ q + 1 ≤ s.c.lp r'; omega
            rw [if_neg hn]
            cases hres : (loadsR { s with c := { s.c with anchor := q + 1 } } xs).resp r' with
            | none =>
              simp only [Option.getD_none]
              rw [h1.none r' hres]
              exact ⟨⟨[], [], [q + 1], rfl, rfl, rfl⟩, fun _ => rfl⟩
            | some p =>
              simp only [Option.getD_some]
              obtain ⟨c1, c2⟩ := h1.counts r' p.1 p.2 hres
              refine ⟨counts_snoc c1, fun ha => ?_⟩
              rw [c2 ha, List.length_append]; rfl
        · simp only [if_neg hx] at hrr' ⊢
          exact h1.counts r' tl k hrr'
      · intro r' hrr'
        simp only [appendR, ConnLoad.set] at hrr' ⊢
        by_cases hx : r' = r
        · simp [hx] at hrr'
        · rw [if_neg hx] at hrr' ⊢; exact h1.none r' hrr'
      · intro r' tl k hrr'
        simp only [appendR, appendLive, ConnLoad.set] at hrr' ⊢
        by_cases hx : r' = r
        · simp only [if_pos hx, Option.some.injEq, Prod.mk.injEq] at hrr' ⊢
          obtain ⟨e1, _⟩ := hrr'
          have hle := h1.lp r
          have hs : (((loadsR { s with c := { s.c with anchor := q + 1 } } xs).resp r).getD ([], 0)).1.Pairwise (· < ·) ∧
              ∀ e ∈ (((loadsR { s with c := { s.c with anchor := q + 1 } } xs).resp r).getD ([], 0)).1,
                e ≤ (loadsR { s with c := { s.c with anchor := q + 1 } } xs).c.lp r := by
            cases hres : (loadsR { s with c := { s.c with anchor := q + 1 } } xs).resp r with
            | none => exact ⟨List.Pairwise.nil, fun e he => by cases he⟩
            | some p => exact h1.sorted r p.1 p.2 hres
          split at e1
          · subst e1
            exact ⟨hs.1, fun e he => Nat.le_trans (hs.2 e he) hle⟩
          · rename_i hn
            subst e1
            refine ⟨List.pairwise_append.2 ⟨hs.1, by simp, fun a ha b hb => ?_⟩, fun e he => ?_⟩
            · rw [List.mem_singleton.1 hb]
              have := hs.2 a ha
              exact Nat.lt_of_le_of_lt this (Nat.lt_of_not_le hn)
            · rcases List.mem_append.1 he with h2 | h2
              · exact Nat.le_trans (hs.2 e h2) hle
              · rw [List.mem_singleton.1 h2]; exact Nat.le_refl _
        · simp only [if_neg hx] at hrr' ⊢
          exact h1.sorted r' tl k hrr'

/-! ## C110 -/

/-- C110, in part: the events `num_live` counts are at the end of the timeline and are live events of this response; it counts all of
them unless the room was built again after one; no event is twice in the timeline. This is for connections with no events of before their start in the queue. -/
theorem C110_partial {q : Nat} {s : R} (h : Run q s) (r : Nat) (tl : List Nat) (k : Nat) (hr : s.resp r = some (tl, k)) :
    k ≤ tl.length ∧ (∃ b, s.live r = b ++ tl.drop (tl.length - k)) ∧ (s.again r = false → k = (s.live r).length) ∧
      tl.Pairwise (· < ·) := by
  have hs := ((run_inv h).sorted r tl k hr).1
  obtain ⟨⟨a, b, l, rfl, h2, rfl⟩, h3⟩ := (run_inv h).counts r tl k hr
  refine ⟨by simp, ⟨b, ?_⟩, h3, hs⟩
  rw [h2]
  simp

/-! ## Where it fails -/

/-- The code violates the property: an event of a room is added to the response, then an event of another room moves the first room into a
window of another list, so that it is built again. Its own event is no longer counted, though it is in the timeline. -/
theorem C110_violated_again : ∃ ops, let s := runR (connectR []) ops
    s.resp 0 = some ([1], 0) ∧ s.live 0 = [1] :=
  ⟨[.append 0, .deliver 0 true [], .append 1, .deliver 1 true [(0, 10)]], by decide⟩

/-- The code violates the property: the last event of a room is stored when the connection is made, and still comes as an update. It
is counted although the timeline, which was sent before, does not have it: one live event, in an empty timeline. -/
theorem C110_violated_queued : ∃ ops, let s := runR (connectR [0]) ops
    s.resp 0 = some ([], 1) :=
  ⟨[.request [(0, 10)], .respond, .deliver 0 true []], by decide⟩

/-! ## Cases -/

/-- A response with an old event and two live ones. -/
example : ∃ q s, Run q s ∧ s.resp 0 = some ([1, 2, 3], 2) ∧ s.live 0 = [2, 3] ∧ s.again 0 = false := by
  refine ⟨_, _, Run.deliver true [] (Run.append 0 (Run.deliver true [(0, 5)] (Run.append 0 (Run.start [0])) ?_)) ?_, ?_, ?_, ?_⟩
  all_goals decide

/-- The response after that: a live event in a room that was not built again. -/
example : ∃ q s, Run q s ∧ s.resp 0 = some ([4], 1) ∧ s.live 0 = [4] ∧ s.again 0 = false := by
  refine ⟨_, _, Run.deliver true [] (Run.append 0 (Run.respond (Run.deliver true [] (Run.append 0 (Run.deliver true [(0, 5)] (Run.append 0 (Run.start [0])) ?_)) ?_))) ?_, ?_, ?_, ?_⟩
  all_goals decide

end Verif.NumLive
