import Verif.ConnLoad
/-! # C24: live streaming neither repeats nor skips events -/
namespace Verif.ConnLoad

/-! ## Specification -/

/-- Events are taken from the queue in the order of their positions, starting with number `q`,
each after it was stored (`n` events are stored). -/
def InOrder (n q : Nat) : List Op → Prop
  | [] => True
  | .append _ :: os => InOrder (n + 1) q os
  | .request _ :: os => InOrder n q os
  | .deliver i _ _ :: os => i = q ∧ q < n ∧ InOrder n (q + 1) os

/-- Every timeline limit is at least one. -/
def PosLimits (ops : List Op) : Prop := ∀ o ∈ ops, ∀ r vis xs, (o = .request xs ∨ o = .deliver r vis xs) → ∀ x ∈ xs, 1 ≤ x.2

/-! ## Facts about the log -/

theorem evs_append (log : List Nat) (a r : Nat) :
    evs (log ++ [a]) r = evs log r ++ if a = r then [log.length + 1] else [] := by
  unfold evs
  rw [List.length_append, List.length_singleton, List.range_succ, List.map_append, List.filter_append]
  congr 1
  · apply List.filter_congr
    intro n hn
    simp only [List.mem_map, List.mem_range] at hn
    obtain ⟨i, hi, rfl⟩ := hn
    simp [List.getElem?_append_left hi]
  · by_cases h : a = r <;> simp [h]

theorem evs_le (log : List Nat) (r e : Nat) (h : e ∈ evs log r) : 1 ≤ e ∧ e ≤ log.length := by
  unfold evs at h
  simp only [List.mem_filter, List.mem_map, List.mem_range] at h
  obtain ⟨⟨i, hi, rfl⟩, _⟩ := h
  omega

theorem mem_evs (log : List Nat) (r i : Nat) (h : log[i]? = some r) : i + 1 ∈ evs log r := by
  unfold evs
  have hi : i < log.length := by
    rcases Nat.lt_or_ge i log.length with h' | h'
    · exact h'
    · rw [List.getElem?_eq_none h'] at h; cases h
  simp [hi]
  simpa [List.getElem?_eq_getElem hi] using h

theorem evs_sorted (log : List Nat) (r : Nat) : (evs log r).Pairwise (· < ·) := by
  unfold evs
  apply List.Pairwise.filter
  rw [List.pairwise_map]
  exact List.pairwise_lt_range.imp (by intro a b h; omega)

/-- Last position up to `a`, or 0. -/
def top (log : List Nat) (a r : Nat) : Nat := ((evs log r).filter (· ≤ a)).getLast?.getD 0

theorem getLast_max (l : List Nat) (h : l.Pairwise (· < ·)) : (∀ e ∈ l, e ≤ l.getLast?.getD 0) ∧
    (l.getLast?.getD 0 = 0 ∨ l.getLast?.getD 0 ∈ l) := by
  induction l using Verif.Util.snocRec with
  | nil => simp
  | append_singleton l a ih =>
    rw [List.pairwise_append] at h
    rw [List.getLast?_append, List.getLast?_singleton, Option.some_or]
    refine ⟨?_, Or.inr (by simp)⟩
    intro e he
    rw [List.mem_append, List.mem_singleton] at he
    rcases he with he | rfl
    · have := h.2.2 e he a (by simp)
      simp only [Option.getD_some]; omega
    · simp

theorem top_spec (log : List Nat) (a r : Nat) :
    (∀ e ∈ evs log r, e ≤ a → e ≤ top log a r) ∧ (top log a r = 0 ∨ top log a r ∈ evs log r) ∧ top log a r ≤ a := by
  have h := getLast_max ((evs log r).filter (· ≤ a)) ((evs_sorted log r).filter _)
  refine ⟨?_, ?_, ?_⟩
  · intro e he hle
    exact h.1 e (List.mem_filter.2 ⟨he, by simpa using hle⟩)
  · rcases h.2 with h' | h'
    · exact Or.inl h'
    · exact Or.inr (List.mem_filter.1 h').1
  · rcases h.2 with h' | h'
    · unfold top; omega
    · have := (List.mem_filter.1 h').2
      unfold top
      simpa using this

theorem lastN_last (k : Nat) (l : List Nat) (hk : 1 ≤ k) : (lastN k l).getLast?.getD 0 = l.getLast?.getD 0 := by
  induction l using Verif.Util.snocRec with
  | nil => simp [lastN]
  | append_singleton l a ih =>
    unfold lastN
    rw [List.drop_append_of_le_length (by simp; omega)]
    simp

theorem latest_last (log : List Nat) (a k r : Nat) (hk : 1 ≤ k) : (latest log a k r).getLast?.getD 0 = top log a r :=
  lastN_last k _ hk

theorem filter_top (log : List Nat) (a r : Nat) :
    (evs log r).filter (· ≤ top log a r) = (evs log r).filter (· ≤ a) := by
  apply List.filter_congr
  intro e he
  have h := top_spec log a r
  have := h.1 e he
  rw [decide_eq_decide]
  constructor
  · intro h'; exact Nat.le_trans h' h.2.2
  · exact this

theorem latest_suffix (log : List Nat) (a k r : Nat) : latest log a k r <:+ (evs log r).filter (· ≤ top log a r) := by
  rw [filter_top]
  exact List.drop_suffix _ _

/-- Extending a filtered sorted list by the next element. -/
theorem filter_next (l : List Nat) (h : l.Pairwise (· < ·)) (p n : Nat) (hn : n ∈ l) (hp : p < n)
    (hno : ∀ e ∈ l, e < n → e ≤ p) : l.filter (· ≤ n) = l.filter (· ≤ p) ++ [n] := by
  induction l with
  | nil => cases hn
  | cons a l ih =>
    rw [List.pairwise_cons] at h
    rcases List.mem_cons.1 hn with rfl | hn'
    · have e1 : l.filter (· ≤ n) = [] := by
        rw [List.filter_eq_nil_iff]
        intro e he
        have := h.1 e he
        simp; omega
      have e2 : l.filter (· ≤ p) = [] := by
        rw [List.filter_eq_nil_iff]
        intro e he
        have := h.1 e he
        simp; omega
      have hp' : ¬ n ≤ p := by omega
      simp [e1, e2, hp']
    · have han := h.1 n hn'
      have hap := hno a (by simp) han
      have := ih h.2 hn' (fun e he => hno e (by simp [he]))
      have hle : a ≤ n := by omega
      simp [hap, hle, this]

/-! ## The invariant -/

/-- `A` is the position of the initial load, `q` events were taken from the queue. -/
structure Inv (A q : Nat) (s : State) : Prop where
  anchor : A ≤ s.anchor ∧ q ≤ s.anchor ∧ s.anchor ≤ s.log.length
  lpA : ∀ r, s.lp r ≤ s.anchor
  lpM : ∀ r, s.lp r = 0 ∨ s.lp r ∈ evs s.log r
  known : ∀ r e, e ∈ evs s.log r → e ≤ A → e ≤ s.lp r
  view : ∀ r l, s.view r = some l → l <:+ (evs s.log r).filter (· ≤ s.lp r) ∧
    ∀ e ∈ evs s.log r, e ≤ q → e ≤ s.lp r

theorem inv_connect (log : List Nat) (q : Nat) (hq : q ≤ log.length) : Inv log.length q (connect log) := by
  have hl := fun r => getLast_max (evs log r) (evs_sorted log r)
  refine ⟨by simp [connect]; omega, ?_, ?_, ?_, nofun⟩
  · intro r
    simp only [connect]
    rcases (hl r).2 with h | h
    · omega
    · exact (evs_le log r _ h).2
  · intro r; exact (hl r).2
  · intro r e he _; exact (hl r).1 e he

theorem load1_inv (A q : Nat) (s : State) (x : Nat × Nat) (hx : 1 ≤ x.2) (h : Inv A q s) :
    Inv A q (load1 s x) ∧ (∀ r, s.lp r ≤ (load1 s x).lp r) ∧ (load1 s x).log = s.log ∧ (load1 s x).anchor = s.anchor ∧
    (load1 s x).lp x.1 = top s.log s.anchor x.1 ∧ (∀ r, r ≠ x.1 → (load1 s x).lp r = s.lp r ∧ (load1 s x).view r = s.view r) ∧
    (load1 s x).view x.1 ≠ none := by
  have ht := top_spec s.log s.anchor x.1
  have hlp : (load1 s x).lp = set s.lp x.1 (top s.log s.anchor x.1) := by
    unfold load1
    simp only
    rw [latest_last _ _ _ _ hx]
  have hv : (load1 s x).view = set s.view x.1 (some (latest s.log s.anchor x.2 x.1)) := rfl
  have hlog : (load1 s x).log = s.log := rfl
  have han : (load1 s x).anchor = s.anchor := rfl
  refine ⟨⟨by rw [hlog, han]; exact h.anchor, ?_, ?_, ?_, ?_⟩, ?_, hlog, han, by rw [hlp]; simp [set], ?_, by rw [hv]; simp [set]⟩
  · intro r
    rw [hlp, han]
    unfold set
    split
    · exact ht.2.2
    · exact h.lpA r
  · intro r
    rw [hlp, hlog]
    unfold set
    split
    · rename_i e; subst e; exact ht.2.1
    · exact h.lpM r
  · intro r e he hle
    rw [hlp]
    rw [hlog] at he
    unfold set
    split
    · rename_i e1; subst e1; exact ht.1 e he (Nat.le_trans hle h.anchor.1)
    · exact h.known r e he hle
  · intro r l hl
    rw [hv] at hl
    rw [hlp, hlog]
    unfold set at hl ⊢
    split at hl
    · rename_i e1; subst e1
      simp only [Option.some.injEq] at hl
      subst hl
      simp only [if_true]
      exact ⟨latest_suffix _ _ _ _, fun e he hle => ht.1 e he (Nat.le_trans hle h.anchor.2.1)⟩
    · rename_i e1
      rw [if_neg e1]
      exact h.view r l hl
  · intro r
    rw [hlp]
    unfold set
    split
    · rename_i e; subst e
      rcases h.lpM x.1 with h' | h'
      · omega
      · exact ht.1 _ h' (h.lpA x.1)
    · exact Nat.le_refl _
  · intro r hr
    rw [hlp, hv]
    simp [set, hr]

theorem loads_inv (A q : Nat) (s : State) (xs : List (Nat × Nat)) (hx : ∀ x ∈ xs, 1 ≤ x.2) (h : Inv A q s) :
    Inv A q (loads s xs) ∧ (∀ r, s.lp r ≤ (loads s xs).lp r) ∧ (loads s xs).log = s.log ∧ (loads s xs).anchor = s.anchor ∧
    (∀ r, ((loads s xs).lp r = top s.log s.anchor r ∧ (loads s xs).view r ≠ none ∧ xs.any (·.1 = r) = true) ∨
      ((loads s xs).lp r = s.lp r ∧ (loads s xs).view r = s.view r ∧ xs.any (·.1 = r) = false)) := by
  induction xs generalizing s with
  | nil => exact ⟨h, fun _ => Nat.le_refl _, rfl, rfl, fun r => Or.inr ⟨rfl, rfl, rfl⟩⟩
  | cons x xs ih =>
    obtain ⟨h1, h2, h3, h4, h5, h6, h7⟩ := load1_inv A q s x (hx x (by simp)) h
    obtain ⟨k1, k2, k3, k4, k5⟩ := ih (load1 s x) (fun y hy => hx y (by simp [hy])) h1
    have e : loads s (x :: xs) = loads (load1 s x) xs := rfl
    rw [e]
    refine ⟨k1, fun r => Nat.le_trans (h2 r) (k2 r), k3.trans h3, k4.trans h4, ?_⟩
    intro r
    rcases k5 r with ⟨a, b, c⟩ | ⟨a, b, c⟩
    · left
      rw [h3, h4] at a
      exact ⟨a, b, by simp only [List.any_cons, c, Bool.or_true]⟩
    · by_cases hr : x.1 = r
      · left
        subst hr
        exact ⟨a.trans h5, by rw [b]; exact h7, by simp⟩
      · right
        have hr' : r ≠ x.1 := fun h => hr h.symm
        exact ⟨a.trans (h6 r hr').1, b.trans (h6 r hr').2, by simp [hr, c]⟩

theorem evs_room (log : List Nat) (q r r' : Nat) (hr : log[q]? = some r) (h : q + 1 ∈ evs log r') : r' = r := by
  unfold evs at h
  simp only [List.mem_filter, decide_eq_true_eq] at h
  rw [show q + 1 - 1 = q from rfl, hr] at h
  exact (Option.some.inj h.2).symm

/-- What one in-order delivery does. -/
theorem deliver_inv (A q : Nat) (s : State) (r : Nat) (vis : Bool) (xs : List (Nat × Nat)) (hx : ∀ x ∈ xs, 1 ≤ x.2)
    (hr : s.log[q]? = some r) (h : Inv A q s) (hA : s.anchor = A ∨ s.anchor ≤ q) (s' : State)
    (hs' : s' = deliver s r (q + 1) vis xs) :
    Inv A (q + 1) s' ∧ (s'.anchor = A ∨ s'.anchor ≤ q + 1) ∧ (∀ r', s.lp r' ≤ s'.lp r') ∧ s'.log = s.log ∧
    (vis = true → q + 1 ≤ s'.lp r ∧ (s.lp r < q + 1 → xs.any (·.1 = r) = false →
      s'.view r = some ((s.view r).getD [] ++ [q + 1]))) := by
  have hm := mem_evs s.log r q hr
  have hlen : q < s.log.length := (evs_le _ _ _ hm).2
  unfold deliver at hs'
  by_cases hskip : 0 < s.lp r ∧ q + 1 < s.lp r
  · rw [if_pos hskip] at hs'
    subst hs'
    refine ⟨⟨?_, h.lpA, h.lpM, h.known, ?_⟩, by omega, fun _ => Nat.le_refl _, rfl, fun _ => ⟨by omega, fun _ => by omega⟩⟩
    · have := h.anchor
      have := h.lpA r
      omega
    · intro r' l hl
      refine ⟨(h.view r' l hl).1, ?_⟩
      intro e he hle
      rcases Nat.lt_or_ge q e with h' | h'
      · have e1 : e = q + 1 := by omega
        subst e1
        have := evs_room _ _ _ _ hr he
        subst this; omega
      · exact (h.view r' l hl).2 e he h'
  · rw [if_neg hskip] at hs'
    have han := h.anchor
    have hmax : A ≤ max s.anchor (q+1) ∧ q + 1 ≤ max s.anchor (q+1) ∧ max s.anchor (q+1) ≤ s.log.length ∧
        (max s.anchor (q+1) = q + 1 ∨ (max s.anchor (q+1) = s.anchor ∧ s.anchor = A)) := by
      rcases Nat.le_total s.anchor (q+1) with h' | h'
      · rw [Nat.max_eq_right h']; omega
      · rw [Nat.max_eq_left h']
        refine ⟨han.1, h', han.2.2, ?_⟩
        rcases hA with h1 | h1
        · exact Or.inr ⟨rfl, h1⟩
        · omega
    generalize max s.anchor (q+1) = a' at hmax hs'
    have hs0 : Inv A q { s with anchor := a' } := by
      refine ⟨?_, ?_, h.lpM, h.known, h.view⟩
      · simp only; omega
      · intro r'
        have := h.lpA r'
        simp only; omega
    obtain ⟨k1, k2, k3, k4, k5⟩ := loads_inv A q _ xs hx hs0
    generalize loads { s with anchor := a' } xs = s1 at *
    simp only at k2 k3 k4 k5 hs'
    have htop := top_spec s.log a' r
    have hA' : s1.anchor = A ∨ s1.anchor ≤ q + 1 := by rw [k4]; omega
    -- the clause about taken events for the other rooms
    have other : ∀ r' e, r' ≠ r → e ∈ evs s.log r' → e ≤ q + 1 → e ≤ q := by
      intro r' e hne he hle
      rcases Nat.lt_or_ge q e with h' | h'
      · have e1 : e = q + 1 := by omega
        subst e1
        exact absurd (evs_room _ _ _ _ hr he) hne
      · exact h'
    have hanc : A ≤ s1.anchor ∧ q + 1 ≤ s1.anchor ∧ s1.anchor ≤ s1.log.length := by rw [k4, k3]; omega
    cases vis with
    | true =>
      simp only [if_true] at hs'
      by_cases hle : q + 1 ≤ s1.lp r
      · have heq : s1.lp r = q + 1 := by
          rcases k5 r with ⟨c1, _, _⟩ | ⟨c1, _, _⟩
          · rw [c1]
            rw [c1] at hle
            rcases hmax.2.2.2 with e1 | ⟨e1, e2⟩
            · omega
            · -- the event was known at the initial load, and is the last such event
              have h1 : q + 1 ≤ s.lp r := h.known r _ hm (by omega)
              have h2 : s.lp r = q + 1 := by omega
              rcases htop.2.1 with h3 | h3
              · omega
              · have := h.known r _ h3 (by omega)
                omega
          · omega
        have hse : s' = s1 := by
          rw [hs']
          unfold appendLive
          rw [if_pos hle]
          have : set s1.lp r (q + 1) = s1.lp := by
            funext x
            unfold set
            split
            · rename_i e; rw [e, heq]
            · rfl
          rw [this]
        rw [hse]
        refine ⟨⟨hanc, k1.lpA, k1.lpM, k1.known, ?_⟩, hA', k2, k3, fun _ => ⟨hle, ?_⟩⟩
        · intro r' l hl
          refine ⟨(k1.view r' l hl).1, ?_⟩
          intro e he hle'
          by_cases hrr : r' = r
          · subst hrr; omega
          · exact (k1.view r' l hl).2 e he (other r' e hrr (k3 ▸ he) hle')
        · intro h1 h2
          rcases k5 r with ⟨_, _, c⟩ | ⟨c, _, _⟩
          · rw [h2] at c; cases c
          · omega
      · have hview : s'.view = set s1.view r (some ((s1.view r).getD [] ++ [q + 1])) := by
          rw [hs']; unfold appendLive; simp only [if_neg hle]
        have hlp : s'.lp = set s1.lp r (q + 1) := by rw [hs']; rfl
        have hlog : s'.log = s.log := by rw [hs']; exact k3
        have hanch : s'.anchor = s1.anchor := by rw [hs']; rfl
        refine ⟨⟨by rw [hanch, hlog, ← k3]; exact hanc, ?_, ?_, ?_, ?_⟩, by rw [hanch]; exact hA', ?_, hlog, fun _ => ⟨by rw [hlp]; simp [set], ?_⟩⟩
        · intro r'
          rw [hlp, hanch]; unfold set
          split
          · exact hanc.2.1
          · exact k1.lpA r'
        · intro r'
          rw [hlp, hlog]; unfold set
          split
          · rename_i e; subst e; exact Or.inr hm
          · exact k3 ▸ k1.lpM r'
        · intro r' e he hle'
          rw [hlog, ← k3] at he
          have := k1.known r' e he hle'
          rw [hlp]; unfold set
          split
          · rename_i e1; subst e1; omega
          · exact this
        · intro r' l hl
          rw [hview] at hl
          rw [hlp, hlog]
          unfold set at hl ⊢
          by_cases hrr : r' = r
          · subst hrr
            rw [if_pos rfl] at hl ⊢
            simp only [Option.some.injEq] at hl
            subst hl
            refine ⟨?_, fun e he hle' => hle'⟩
            cases hv : s1.view r' with
            | none =>
              rw [filter_next _ (evs_sorted s.log r') q (q+1) hm (by omega) (by intro e _ h'; omega)]
              exact ⟨_, rfl⟩
            | some l =>
              obtain ⟨v1, v2⟩ := k1.view r' l hv
              rw [k3] at v1 v2
              rw [filter_next _ (evs_sorted s.log r') (s1.lp r') (q+1) hm (by omega) (by
                intro e he h'; exact v2 e he (by omega))]
              obtain ⟨p, hp⟩ := v1
              exact ⟨p, by simp only [Option.getD_some]; rw [← hp, List.append_assoc]⟩
          · rw [if_neg hrr] at hl ⊢
            have := k1.view r' l hl
            rw [k3] at this
            exact ⟨this.1, fun e he hle' => this.2 e he (other r' e hrr he hle')⟩
        · intro r'
          rw [hlp]; unfold set
          split
          · rename_i e; subst e; have := k2 r'; omega
          · exact k2 r'
        · intro h1 h2
          rcases k5 r with ⟨_, _, c⟩ | ⟨_, c, _⟩
          · rw [h2] at c; cases c
          · rw [hview]; simp [set, c]
    | false =>
      simp only [Bool.false_eq_true, if_false] at hs'
      by_cases hin : xs.any (·.1 = r) = true
      · rw [if_pos hin] at hs'
        subst hs'
        refine ⟨⟨hanc, k1.lpA, k1.lpM, k1.known, ?_⟩, hA', k2, k3, nofun⟩
        intro r' l hl
        refine ⟨(k1.view r' l hl).1, ?_⟩
        intro e he hle'
        by_cases hrr : r' = r
        · subst hrr
          rcases k5 r' with ⟨c, _, _⟩ | ⟨_, _, c⟩
          · rw [c]; exact htop.1 e (k3 ▸ he) (by omega)
          · rw [hin] at c; cases c
        · exact (k1.view r' l hl).2 e he (other r' e hrr (k3 ▸ he) hle')
      · rw [if_neg hin] at hs'
        subst hs'
        refine ⟨⟨hanc, k1.lpA, k1.lpM, k1.known, ?_⟩, hA', k2, k3, nofun⟩
        intro r' l hl
        simp only [set] at hl
        split at hl
        · cases hl
        · rename_i hrr
          refine ⟨(k1.view r' l hl).1, ?_⟩
          intro e he hle'
          exact (k1.view r' l hl).2 e he (other r' e hrr (k3 ▸ he) hle')

theorem append_inv (A q r : Nat) (s : State) (h : Inv A q s) : Inv A q { s with log := s.log ++ [r] } := by
  have hnew : ∀ r' e, e ∈ evs (s.log ++ [r]) r' → e ≤ s.log.length → e ∈ evs s.log r' := by
    intro r' e he hle
    rw [evs_append, List.mem_append] at he
    rcases he with he | he
    · exact he
    · split at he
      · simp only [List.mem_singleton] at he; omega
      · cases he
  have han := h.anchor
  refine ⟨by simp; omega, h.lpA, ?_, ?_, ?_⟩
  · intro r'
    rcases h.lpM r' with h' | h'
    · exact Or.inl h'
    · exact Or.inr (by rw [evs_append]; exact List.mem_append_left _ h')
  · intro r' e he hle
    exact h.known r' e (hnew r' e he (by omega)) hle
  · intro r' l hl
    have hv := h.view r' l hl
    have hf : (evs (s.log ++ [r]) r').filter (· ≤ s.lp r') = (evs s.log r').filter (· ≤ s.lp r') := by
      rw [evs_append, List.filter_append]
      have : (if r = r' then [s.log.length + 1] else []).filter (· ≤ s.lp r') = [] := by
        have := h.lpA r'
        split
        · have hn : ¬ s.log.length + 1 ≤ s.lp r' := by omega
          simp [hn]
        · rfl
      rw [this, List.append_nil]
    simp only
    rw [hf]
    exact ⟨hv.1, fun e he hle => hv.2 e (hnew r' e he (by omega)) hle⟩

theorem run_inv (A q : Nat) (s : State) (ops : List Op) (hp : PosLimits ops) (ho : InOrder s.log.length q ops)
    (h : Inv A q s) (hA : s.anchor = A ∨ s.anchor ≤ q) :
    ∃ q', Inv A q' (run s ops) ∧ ∀ r, s.lp r ≤ (run s ops).lp r := by
  induction ops generalizing s q with
  | nil => exact ⟨q, h, fun _ => Nat.le_refl _⟩
  | cons o ops ih =>
    have hp' : PosLimits ops := fun o ho => hp o (by simp [ho])
    have e : run s (o :: ops) = run (step s o) ops := rfl
    rw [e]
    cases o with
    | append r =>
      have hi := append_inv A q r s h
      exact ih q (step s (.append r)) hp' (by simpa [step, InOrder] using ho) hi hA
    | request xs =>
      obtain ⟨k1, k2, k3, k4, _⟩ := loads_inv A q s xs (hp (.request xs) (by simp) 0 false xs (Or.inl rfl)) h
      obtain ⟨q', i1, i2⟩ := ih q (loads s xs) hp' (by rw [k3]; exact ho) k1 (by rw [k4]; exact hA)
      exact ⟨q', i1, fun r => Nat.le_trans (k2 r) (i2 r)⟩
    | deliver i vis xs =>
      obtain ⟨rfl, hlt, ho'⟩ := ho
      have hr : s.log[i]? = some s.log[i] := List.getElem?_eq_getElem hlt
      obtain ⟨k1, k2, k3, k4, _⟩ := deliver_inv A i s _ vis xs (hp (.deliver i vis xs) (by simp) i vis xs (Or.inr rfl)) hr h hA _ rfl
      have es : step s (.deliver i vis xs) = deliver s s.log[i] (i + 1) vis xs := by simp [step, hr]
      rw [es]
      obtain ⟨q', i1, i2⟩ := ih (i + 1) _ hp' (by rw [k4]; exact ho') k1 k2
      exact ⟨q', i1, fun r => Nat.le_trans (k3 r) (i2 r)⟩

/-! ## C24 -/

/-- C24, partial: a connection starts at any time, with any number of already stored events still in its
queue; events are stored, rooms are loaded, and events are taken from the queue in the order of their
positions, in any interleaving.  Then what the client has of a room's timeline is always a
contiguous part of the room's events, without repetition, ending at the load position.
Missing: queues not ordered by position (per-room delays), see `C24_violated_delayed`, and timeline
limits of 0, see `C24_violated_limit0`. -/
theorem C24_stream_partial (log : List Nat) (q : Nat) (hq : q ≤ log.length) (ops : List Op)
    (hp : PosLimits ops) (ho : InOrder log.length q ops) (r : Nat) (l : List Nat)
    (hv : (run (connect log) ops).view r = some l) :
    ∃ before after, evs (run (connect log) ops).log r = before ++ l ++ after ∧
      (∀ e ∈ before ++ l, e ≤ (run (connect log) ops).lp r) ∧ (∀ e ∈ after, (run (connect log) ops).lp r < e) := by
  obtain ⟨q', hi, _⟩ := run_inv log.length q (connect log) ops hp ho (inv_connect log q hq) (Or.inl rfl)
  generalize run (connect log) ops = s at *
  obtain ⟨p, hpl⟩ := (hi.view r l hv).1
  have split : ∀ es : List Nat, es.Pairwise (· < ·) → es.filter (· ≤ s.lp r) ++ es.filter (fun e => ¬ e ≤ s.lp r) = es := by
    intro es
    induction es with
    | nil => intro _; rfl
    | cons a es ih =>
      intro hpw
      rw [List.pairwise_cons] at hpw
      by_cases ha : a ≤ s.lp r
      · have := ih hpw.2
        simp only [List.filter_cons, ha, decide_true, if_true, not_true, decide_false, Bool.false_eq_true, if_false, List.cons_append]
        rw [this]
      · have e1 : es.filter (· ≤ s.lp r) = [] := by
          rw [List.filter_eq_nil_iff]
          intro e he
          have := hpw.1 e he
          simp; omega
        have e2 : es.filter (fun e => ¬ e ≤ s.lp r) = es := by
          rw [List.filter_eq_self]
          intro e he
          have := hpw.1 e he
          simp; omega
        simp only [List.filter_cons, ha, decide_false, Bool.false_eq_true, if_false, not_false_eq_true, decide_true, if_true]
        rw [e1, e2]; rfl
  refine ⟨p, (evs s.log r).filter (fun e => ¬ e ≤ s.lp r), ?_, ?_, ?_⟩
  · rw [hpl]
    exact (split _ (evs_sorted s.log r)).symm
  · rw [hpl]
    intro e he
    simpa using (List.mem_filter.1 he).2
  · intro e he
    have := (List.mem_filter.1 he).2
    simp at this; omega

/-- C24, partial: load positions never decrease (same hypotheses). -/
theorem C24_monotone_partial (log : List Nat) (q : Nat) (hq : q ≤ log.length) (ops1 ops2 : List Op)
    (hp : PosLimits (ops1 ++ ops2)) (ho : InOrder log.length q (ops1 ++ ops2)) (r : Nat) :
    (run (connect log) ops1).lp r ≤ (run (connect log) (ops1 ++ ops2)).lp r := by
  have hsplit : ∀ (ops1 : List Op) (q : Nat) (s : State), PosLimits (ops1 ++ ops2) → InOrder s.log.length q (ops1 ++ ops2) →
      Inv log.length q s → (s.anchor = log.length ∨ s.anchor ≤ q) → (run s ops1).lp r ≤ (run s (ops1 ++ ops2)).lp r := by
    intro ops1
    induction ops1 with
    | nil =>
      intro q s hp ho hi hA
      obtain ⟨_, _, h2⟩ := run_inv log.length q s ops2 hp ho hi hA
      exact h2 r
    | cons o ops1 ih =>
      intro q s hp ho hi hA
      have hp' : PosLimits (ops1 ++ ops2) := fun o ho => hp o (by simp only [List.cons_append, List.mem_cons]; exact Or.inr ho)
      have e1 : run s (o :: ops1) = run (step s o) ops1 := rfl
      have e2 : run s (o :: ops1 ++ ops2) = run (step s o) (ops1 ++ ops2) := rfl
      rw [e1, e2]
      cases o with
      | append x =>
        exact ih q (step s (.append x)) hp' (by simpa [step, InOrder] using ho) (append_inv _ _ _ _ hi) hA
      | request xs =>
        obtain ⟨k1, k2, k3, k4, _⟩ := loads_inv log.length q s xs (hp (.request xs) (by simp) 0 false xs (Or.inl rfl)) hi
        exact ih q (loads s xs) hp' (by rw [k3]; exact ho) k1 (by rw [k4]; exact hA)
      | deliver i vis xs =>
        obtain ⟨rfl, hlt, ho'⟩ := ho
        have hr : s.log[i]? = some s.log[i] := List.getElem?_eq_getElem hlt
        obtain ⟨k1, k2, k3, k4, _⟩ := deliver_inv log.length i s _ vis xs (hp (.deliver i vis xs) (by simp) i vis xs (Or.inr rfl)) hr hi hA _ rfl
        have es : step s (.deliver i vis xs) = deliver s s.log[i] (i + 1) vis xs := by simp [step, hr]
        rw [es]
        exact ih (i + 1) _ hp' (by rw [k4]; exact ho') k1 k2
  exact hsplit ops1 q (connect log) hp ho (inv_connect log q hq) (Or.inl rfl)

/-- C24: an event of interest that is newer than the load position is never skipped, whatever the order of
deliveries: it ends up as the last event of the client's timeline (if the room is not loaded at the same time). -/
theorem C24_not_skipped (s : State) (i r : Nat) (hr : s.log[i]? = some r) (xs : List (Nat × Nat))
    (hx : xs.any (·.1 = r) = false) (hn : s.lp r < i + 1) :
    (step s (.deliver i true xs)).view r = some ((s.view r).getD [] ++ [i + 1]) ∧
    (step s (.deliver i true xs)).lp r = i + 1 := by
  have hl : ∀ (xs : List (Nat × Nat)) (s : State), xs.any (·.1 = r) = false → (loads s xs).lp r = s.lp r ∧ (loads s xs).view r = s.view r := by
    intro xs
    induction xs with
    | nil => intro s _; exact ⟨rfl, rfl⟩
    | cons x xs ih =>
      intro s hx
      simp only [List.any_cons, Bool.or_eq_false_iff, decide_eq_false_iff_not] at hx
      have hne : ¬ r = x.1 := fun h => hx.1 h.symm
      have := ih (load1 s x) hx.2
      have e : loads s (x :: xs) = loads (load1 s x) xs := rfl
      rw [e, this.1, this.2]
      simp [load1, set, hne]
  have hskip : ¬ (0 < s.lp r ∧ i + 1 < s.lp r) := by omega
  simp only [step, hr, deliver, if_neg hskip, if_true]
  obtain ⟨h1, h2⟩ := hl xs { s with anchor := max s.anchor (i + 1) } hx
  simp only at h1 h2
  have hnle : ¬ i + 1 ≤ (loads { s with anchor := max s.anchor (i + 1) } xs).lp r := by rw [h1]; omega
  simp [appendLive, hnle, set, h2]

/-- C24 is violated when the queue is not in the order of positions, as happens when the transaction id
waiter holds back the events of one room: events 1 and 2 of room 0 are delayed, event 3 of room 1 raises
the anchor, then event 1 brings room 0 into the window.  The load position goes back from 2 to 1 and event
2 is sent twice. -/
theorem C24_violated_delayed : ∃ (ops1 ops2 : List Op) (r : Nat),
    PosLimits (ops1 ++ ops2) ∧
    (run (connect []) ops1).view r = some [1, 2] ∧ (run (connect []) ops1).lp r < 2 ∧
    (run (connect []) (ops1 ++ ops2)).view r = some [1, 2, 2] := by
  refine ⟨[.append 0, .append 0, .append 1, .deliver 2 true [], .deliver 0 true [(0, 10)]], [.deliver 1 true []], 0, ?_, ?_, ?_, ?_⟩
  · intro o ho r vis xs h x hx
    simp only [List.cons_append, List.nil_append, List.mem_cons, List.not_mem_nil, or_false] at ho
    rcases ho with rfl | rfl | rfl | rfl | rfl | rfl <;> rcases h with h | h <;> cases h <;>
      simp at hx <;> (subst hx; decide)
  · decide
  · decide
  · decide

/-- C24 is violated by a timeline limit of 0, which the server itself uses when only the required state of a
list changes (`connstate.go:386-395`): the load position is reset to 0, so queued events are
processed again, and event 2 is sent twice although the queue is in order. -/
theorem C24_violated_limit0 : ∃ (log : List Nat) (ops : List Op) (r : Nat),
    InOrder log.length 0 ops ∧ (run (connect log) ops).view r = some [1, 2, 2] := by
  refine ⟨[0, 0], [.request [(0, 0)], .deliver 0 true [(0, 10)], .deliver 1 true []], 0, ?_, ?_⟩
  · exact ⟨rfl, by decide, rfl, by decide, trivial⟩
  · decide

/-- The hypotheses of `C24_stream_partial` are satisfiable: a connection with two queued events, a load in
the middle and new events. -/
example : InOrder 3 1 [.request [(0, 2)], .deliver 1 true [], .append 0, .deliver 2 true [], .deliver 3 true []] ∧
    (run (connect [0, 1, 0]) [.request [(0, 2)], .deliver 1 true [], .append 0, .deliver 2 true [], .deliver 3 true []]).view 0
      = some [1, 3, 4] := by
  refine ⟨⟨rfl, by decide, rfl, by decide, rfl, by decide, trivial⟩, by decide⟩

end Verif.ConnLoad
