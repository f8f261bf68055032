import Verif.ListOpsClient
/-! Replaying the operations of one `CalculateListOps` call. -/
namespace Verif.ListOps
open Verif.Ranges

variable {α : Type _} [DecidableEq α]

/-- The loop body for range `r` is a swap that is right for the move from `O`
to `A`, or a harmless no-op. -/
structure StepOK (ctx : Ctx α) (O A : Int → Option α) (a b : Int) (r : Range) : Prop where
  hf : r.1 ≤ (clip a b r).1 ∧ (clip a b r).1 ≤ r.2
  ht : r.1 ≤ (clip a b r).2 ∧ (clip a b r).2 ≤ r.2
  body : ∃ s, (∃ v, A (clip a b r).2 = some v ∧
      loopBody ctx (clip a b r) = some ([.delete (clip a b r).1, .insert (clip a b r).2 v], s)) ∨
    ((clip a b r).1 = (clip a b r).2 ∧ A (clip a b r).2 = O (clip a b r).2 ∧ (O (clip a b r).2).isSome ∧
      loopBody ctx (clip a b r) = some ([], s))
  sl : ∀ i, (clip a b r).1 ≤ i → i < (clip a b r).2 → A i = O (i + 1) ∧ (O (i + 1)).isSome
  sr : ∀ i, (clip a b r).2 < i → i ≤ (clip a b r).1 → A i = O (i - 1) ∧ (O (i - 1)).isSome

/-- The gap left by what came before does not get in the way of the operations: a `DELETE` that directly follows a
`DELETE` has no higher index. -/
def Follows (gap : Int) (ops : List (Op α)) : Prop :=
  gap = -1 ∨ (0 ≤ gap ∧ ∀ f rest, ops = .delete f :: rest → f ≤ gap)

theorem Follows.head {gap : Int} {o ops : List (Op α)} (h : Follows gap (o ++ ops)) : Follows gap o := by
  rcases h with h | ⟨h, h'⟩
  · exact Or.inl h
  · refine Or.inr ⟨h, fun f rest e => h' f (rest ++ ops) (by rw [e]; rfl)⟩

def seg (a b : Int) (r : Range) (i : Int) : Prop :=
  ((clip a b r).1 ≤ i ∧ i ≤ (clip a b r).2) ∨ ((clip a b r).2 ≤ i ∧ i ≤ (clip a b r).1)

instance (a b : Int) (r : Range) (i : Int) : Decidable (seg a b r i) := by unfold seg; infer_instance

theorem run_swaps {rs : Ranges} (hv : valid rs = true) (ctx : Ctx α) (O A : Int → Option α) (a b : Int) :
    ∀ (L : Ranges) (c : Client α), (∀ r ∈ L, r ∈ rs) → L.Nodup → (∀ r ∈ L, StepOK ctx O A a b r) →
      (∀ r ∈ L, ∀ j, r.1 ≤ j → j ≤ r.2 → (O j).isSome → c.view j = O j) →
      ∃ ops subs, loop ctx (L.map (clip a b)) = some (ops, subs) ∧
        (∀ f rest, ops = .delete f :: rest → ∃ r ∈ L, f ≤ r.2) ∧
        (Follows c.gap ops → ∃ c', ops.foldlM (clientOp rs) c = some c' ∧ (c'.gap = -1 ∨ (ops = [] ∧ c' = c)) ∧
          ∀ i, Covers rs i → c'.view i = if ∃ r ∈ L, seg a b r i then A i else c.view i) := by
  intro L
  induction L with
  | nil =>
    intro c _ _ _ _
    exact ⟨[], [], rfl, nofun, fun _ => ⟨c, rfl, Or.inr ⟨rfl, rfl⟩, by simp⟩⟩
  | cons r L ih =>
    intro c hsub hnd hok hO
    have hr := hsub r (by simp)
    have h0 := valid_le hv r hr
    have ok := hok r (by simp)
    have hOr := hO r (by simp)
    -- one step
    have step : ∃ o s, loopBody ctx (clip a b r) = some (o, s) ∧ (o = [] ∨ ∃ rest, o = .delete (clip a b r).1 :: rest) ∧
        (Follows c.gap o → ∃ c1, o.foldlM (clientOp rs) c = some c1 ∧ (c1.gap = -1 ∨ (o = [] ∧ c1 = c)) ∧
        ∀ i, Covers rs i → c1.view i = if seg a b r i then A i else c.view i) := by
      obtain ⟨s, hb⟩ := ok.body
      rcases hb with ⟨v, hAv, hb⟩ | ⟨hft, hA, hOt, hb⟩
      · refine ⟨_, s, hb, Or.inr ⟨_, rfl⟩, fun hfo => ?_⟩
        have hg1 : c.gap = -1 ∨ (0 ≤ c.gap ∧ (clip a b r).1 ≤ c.gap) := by
          rcases hfo with h | h
          · exact Or.inl h
          · exact Or.inr ⟨h.1, h.2 _ _ rfl⟩
        have hs : (clip a b r).1 ≠ (clip a b r).2 → (c.view (clip a b r).2).isSome := by
          intro hne
          have h1 : (O (clip a b r).2).isSome := by
            by_cases hlt : (clip a b r).1 < (clip a b r).2
            · have := (ok.sl ((clip a b r).2 - 1) (by omega) (by omega)).2
              rwa [show (clip a b r).2 - 1 + 1 = (clip a b r).2 by omega] at this
            · have := (ok.sr ((clip a b r).2 + 1) (by omega) (by omega)).2
              rwa [show (clip a b r).2 + 1 - 1 = (clip a b r).2 by omega] at this
          rw [hOr _ ok.ht.1 ok.ht.2 h1]; exact h1
        obtain ⟨c1, h1, h2, h3⟩ := swap_view (v := v) hr ok.hf ok.ht h0.1 hg1 hs
        refine ⟨c1, h1, Or.inl h2, ?_⟩
        intro i hi
        rw [h3 i hi]
        have hf := ok.hf
        have ht := ok.ht
        by_cases e1 : i = (clip a b r).2
        · rw [if_pos e1, if_pos (by unfold seg; omega), e1, hAv]
        rw [if_neg e1]
        by_cases e2 : (clip a b r).1 ≤ i ∧ i < (clip a b r).2
        · rw [if_pos e2, if_pos (by unfold seg; omega)]
          have := ok.sl i e2.1 e2.2
          rw [this.1]
          exact hOr _ (by omega) (by omega) this.2
        rw [if_neg e2]
        by_cases e3 : (clip a b r).2 < i ∧ i ≤ (clip a b r).1
        · rw [if_pos e3, if_pos (by unfold seg; omega)]
          have := ok.sr i e3.1 e3.2
          rw [this.1]
          exact hOr _ (by omega) (by omega) this.2
        rw [if_neg e3, if_neg (by unfold seg; omega)]
      · refine ⟨[], s, hb, Or.inl rfl, fun _ => ⟨c, rfl, Or.inr ⟨rfl, rfl⟩, ?_⟩⟩
        intro i hi
        by_cases e : seg a b r i
        · rw [if_pos e]
          have e' : i = (clip a b r).2 := by unfold seg at e; omega
          rw [e', hA]
          exact hOr _ ok.ht.1 ok.ht.2 hOt
        · rw [if_neg e]
    obtain ⟨o, s, s1, so, s2⟩ := step
    have hnd' := List.nodup_cons.1 hnd
    have hdis : ∀ q ∈ L, ∀ j, q.1 ≤ j → j ≤ q.2 → ¬ seg a b r j := by
      intro q hq j h1 h2 hs
      have hf := ok.hf
      have ht := ok.ht
      have : r = q := valid_unique hv hr (hsub q (by simp [hq])) (y := j)
        (by unfold seg at hs; omega) ⟨h1, h2⟩
      exact hnd'.1 (this ▸ hq)
    have ihc : ∀ c1 : Client α, (∀ i, Covers rs i → c1.view i = if seg a b r i then A i else c.view i) →
        ∀ q ∈ L, ∀ j, q.1 ≤ j → j ≤ q.2 → (O j).isSome → c1.view j = O j := by
      intro c1 s4 q hq j h1 h2 h3
      rw [s4 j ⟨q, hsub q (by simp [hq]), h1, h2⟩, if_neg (hdis q hq j h1 h2)]
      exact hO q (by simp [hq]) j h1 h2 h3
    have hO' : ∀ q ∈ L, ∀ j, q.1 ≤ j → j ≤ q.2 → (O j).isSome → c.view j = O j := fun q hq => hO q (by simp [hq])
    obtain ⟨ops, subs, l1, lh, _⟩ := ih c (fun q hq => hsub q (by simp [hq])) hnd'.2
      (fun q hq => hok q (by simp [hq])) hO'
    refine ⟨o ++ ops, s ++ subs, by simp [loop, s1, l1], ?_, ?_⟩
    · intro f rest e
      rcases so with rfl | ⟨rest', rfl⟩
      · obtain ⟨q, hq, h⟩ := lh f rest e
        exact ⟨q, by simp [hq], h⟩
      · simp only [List.cons_append, List.cons.injEq, Op.delete.injEq] at e
        exact ⟨r, by simp, by rw [← e.1]; exact ok.hf.2⟩
    intro hfo
    obtain ⟨c1, t1, t2, t4⟩ := s2 hfo.head
    obtain ⟨ops', subs', l1', _, l2⟩ := ih c1 (fun q hq => hsub q (by simp [hq])) hnd'.2
      (fun q hq => hok q (by simp [hq])) (ihc c1 t4)
    rw [l1] at l1'
    simp only [Option.some.injEq, Prod.mk.injEq] at l1'
    obtain ⟨rfl, rfl⟩ := l1'
    obtain ⟨c', m1, m2, m4⟩ := l2 (by
      rcases t2 with h | ⟨rfl, rfl⟩
      · exact Or.inl h
      · exact hfo)
    refine ⟨c', ?_, ?_, ?_⟩
    · rw [List.foldlM_append, t1]; exact m1
    · rcases m2 with h | ⟨rfl, rfl⟩
      · exact Or.inl h
      · rcases t2 with h | ⟨rfl, rfl⟩
        · exact Or.inl h
        · exact Or.inr ⟨rfl, rfl⟩
    · intro i hi
      rw [m4 i hi]
      by_cases e : ∃ q ∈ L, seg a b q i
      · rw [if_pos e, if_pos (by obtain ⟨q, hq, h⟩ := e; exact ⟨q, by simp [hq], h⟩)]
      · rw [if_neg e, t4 i hi]
        by_cases e2 : seg a b r i
        · rw [if_pos e2, if_pos ⟨r, by simp, e2⟩]
        · rw [if_neg e2, if_neg]
          rintro ⟨q, hq, h⟩
          rcases List.mem_cons.1 hq with rfl | hq
          · exact e2 h
          · exact e ⟨q, hq, h⟩

theorem getI_nonneg {l : List α} {i : Int} (h : 0 ≤ i) : getI l i = l[i.toNat]? := by
  unfold getI; rw [if_neg (by omega)]

theorem getI_isSome {l : List α} {i : Int} : (getI l i).isSome ↔ 0 ≤ i ∧ i < l.length := by
  unfold getI
  split
  · simp; omega
  · rw [Option.isSome_iff_ne_none]; simp; omega

theorem getI_insert (l1 l2 : List α) (x : α) (i : Int) :
    getI (l1 ++ x :: l2) i =
      if i < l1.length then getI (l1 ++ l2) i
      else if i = l1.length then some x else getI (l1 ++ l2) (i - 1) := by
  by_cases h0 : i < 0
  · simp [getI, h0]; omega
  · obtain ⟨n, rfl⟩ := Int.eq_ofNat_of_zero_le (by omega : 0 ≤ i)
    simp only [Int.ofNat_lt, Int.ofNat_inj]
    split
    · rename_i h
      rw [getI_nonneg (by omega), getI_nonneg (by omega)]
      simp only [Int.toNat_natCast]
      rw [List.getElem?_append_left (by omega), List.getElem?_append_left (by omega)]
    · rename_i h
      split
      · rename_i h2
        rw [getI_nonneg (by omega)]
        simp [h2]
      · rename_i h2
        rw [getI_nonneg (by omega), getI_nonneg (by omega)]
        rw [List.getElem?_append_right (by simp; omega), List.getElem?_append_right (by omega)]
        have e1 : (n : Int).toNat - l1.length = (n - l1.length - 1) + 1 := by simp; omega
        have e2 : ((n : Int) - 1).toNat - l1.length = n - l1.length - 1 := by omega
        rw [e1, e2, List.getElem?_cons_succ]

/-- Membership splits a duplicate free list at the position of the element. -/
theorem split_at {l : List α} {x : α} (h : x ∈ l) :
    ∃ l1 l2, l = l1 ++ x :: l2 ∧ l.erase x = l1 ++ l2 ∧ indexOf l x = some (l1.length : Int) := by
  obtain ⟨l1, l2, hn, hl, he⟩ := List.exists_erase_eq h
  refine ⟨l1, l2, hl, he, ?_⟩
  unfold indexOf
  rw [if_pos h, hl]
  congr 2
  rw [List.idxOf_append, if_neg hn]
  simp

theorem clip_in {a b : Int} {r : Range} (hle : r.1 ≤ r.2) (ht : touches a b r) :
    (r.1 ≤ (clip a b r).1 ∧ (clip a b r).1 ≤ r.2) ∧ (r.1 ≤ (clip a b r).2 ∧ (clip a b r).2 ≤ r.2) ∧
    (a ≤ b → a ≤ (clip a b r).1 ∧ (clip a b r).1 ≤ (clip a b r).2 ∧ (clip a b r).2 ≤ b) ∧
    (b < a → b ≤ (clip a b r).2 ∧ (clip a b r).2 ≤ (clip a b r).1 ∧ (clip a b r).1 ≤ a) := by
  unfold touches at ht
  unfold clip
  split
  · refine ⟨⟨?_, ?_⟩, ⟨?_, ?_⟩, fun h => ⟨?_, ?_, ?_⟩, fun h => ?_⟩ <;> simp <;> omega
  · refine ⟨⟨?_, ?_⟩, ⟨?_, ?_⟩, fun h => ?_, fun h => ⟨?_, ?_, ?_⟩⟩ <;> simp <;> omega

/-- An index of a touched range lying between the ends is in the segment. -/
theorem seg_of {a b : Int} {r : Range} {i : Int} (hi : r.1 ≤ i ∧ i ≤ r.2)
    (hb : (a ≤ i ∧ i ≤ b) ∨ (b ≤ i ∧ i ≤ a)) : seg a b r i := by
  unfold seg clip
  split
  · left; simp; omega
  · right; simp; omega

theorem touches_of {a b : Int} {r : Range} {i : Int} (hi : r.1 ≤ i ∧ i ≤ r.2)
    (hb : (a ≤ i ∧ i ≤ b) ∨ (b ≤ i ∧ i ≤ a)) : touches a b r := by
  unfold touches; omega

theorem loop_append (ctx : Ctx α) (p q : List (Int × Int)) :
    loop ctx (p ++ q) = (do
      let x ← loop ctx p
      let y ← loop ctx q
      pure (x.1 ++ y.1, x.2 ++ y.2)) := by
  induction p with
  | nil => simp [loop]; cases loop ctx q <;> rfl
  | cons h p ih =>
    simp only [List.cons_append, loop, ih, Option.bind_eq_bind, Option.pure_def]
    cases loopBody ctx h with
    | none => rfl
    | some x =>
      cases loop ctx p with
      | none => rfl
      | some y =>
        cases loop ctx q with
        | none => rfl
        | some z => simp

/-- Facts about a list `A` obtained from `O` by moving one room from index `a`
to index `b` (`a` may be one past the end). -/
structure MoveFacts (O A : Int → Option α) (a b n : Int) (room : α) (op : LOp) : Prop where
  sl : ∀ i, a ≤ i → i < b → A i = O (i + 1) ∧ (O (i + 1)).isSome
  sr : ∀ i, b < i → i ≤ a → A i = O (i - 1) ∧ (O (i - 1)).isSome
  out : ∀ i, 0 ≤ i → i < n → (i < a ∧ i < b) ∨ (a < i ∧ b < i) → A i = O i ∧ (O i).isSome
  dom : ∀ i, 0 ≤ i → i ≤ a ∨ i ≤ b → (A i).isSome
  noop : op = .change → O a = some room

theorem move_run {rs : Ranges} (hv : valid rs = true) {ctx : Ctx α} {O : Int → Option α} {a b : Int}
    {c : Client α} (hrs : ctx.rs = rs) (hop : ctx.op ≠ .del)
    (hwi : ctx.wasInside = true → Covers rs a)
    (hf : MoveFacts O (getI ctx.after) a b ctx.after.length ctx.room ctx.op)
    (hm : ∀ i, Covers rs i → (O i).isSome → c.view i = O i)
    {L : Ranges} (hL : L.Perm (rs.filter fun r => decide (touches a b r)))
    (hn : ctx.nPairs = L.length) :
    ∃ ops subs, loop ctx (L.map (clip a b)) = some (ops, subs) ∧
      (Follows c.gap ops → ∃ c', ops.foldlM (clientOp rs) c = some c' ∧ (c'.gap = -1 ∨ 0 ≤ c'.gap) ∧
        ∀ i, Covers rs i → i < ctx.after.length → c'.view i = getI ctx.after i) := by
  have hle : ∀ r ∈ rs, 0 ≤ r.1 ∧ r.1 ≤ r.2 := fun r hr => valid_le hv r hr
  have memL : ∀ r, r ∈ L ↔ r ∈ rs ∧ touches a b r := by
    intro r; rw [hL.mem_iff]; simp
  have hnd : L.Nodup := hL.nodup_iff.2 ((valid_nodup hv).filter _)
  have ok : ∀ r ∈ L, StepOK ctx O (getI ctx.after) a b r := by
    intro r hr
    obtain ⟨hr1, hr2⟩ := (memL r).1 hr
    obtain ⟨c1, c2, c3, c4⟩ := clip_in (hle r hr1).2 hr2
    have h0 := (hle r hr1).1
    have hdom : (getI ctx.after (clip a b r).2).isSome := by
      apply hf.dom _ (by omega)
      by_cases h : a ≤ b
      · have := c3 h; omega
      · have := c4 (by omega); omega
    obtain ⟨v, hv'⟩ := Option.isSome_iff_exists.1 hdom
    refine ⟨c1, c2, ?_, ?_, ?_⟩
    · unfold loopBody
      simp only [hv', Option.bind_eq_bind, Option.bind_some]
      by_cases h1 : v = ctx.room ∧ (clip a b r).1 = (clip a b r).2 ∧ ctx.op = .change ∧
          ctx.wasInside = true ∧ ctx.nPairs = 1
      · rw [if_pos h1]
        refine ⟨[], Or.inr ⟨h1.2.1, ?_, ?_, rfl⟩⟩
        all_goals
          obtain ⟨e1, e2, e3, e4, e5⟩ := h1
          obtain ⟨q, hq1, hq2⟩ := hwi e4
          have hqL : q ∈ L := (memL q).2 ⟨hq1, touches_of hq2 (by omega)⟩
          have hqr : q = r := by
            rw [hn, List.length_eq_one_iff] at e5
            obtain ⟨x, hx⟩ := e5
            rw [hx] at hqL hr
            simp at hqL hr
            rw [hqL, hr]
          have ha : (clip a b r).2 = a := by
            rw [← e2]
            subst hqr
            unfold clip
            split <;> simp <;> omega
          rw [ha, hf.noop e3]
        · rw [e1]
        · rfl
      · rw [if_neg h1, if_neg (by simp [hop])]
        exact ⟨_, Or.inl ⟨v, rfl, rfl⟩⟩
    · intro i h1 h2
      by_cases h : a ≤ b
      · have := c3 h
        exact hf.sl i (by omega) (by omega)
      · have := c4 (by omega); omega
    · intro i h1 h2
      by_cases h : a ≤ b
      · have := c3 h; omega
      · have := c4 (by omega)
        exact hf.sr i (by omega) (by omega)
  obtain ⟨ops, subs, l1, _, l2⟩ := run_swaps hv ctx O (getI ctx.after) a b L c
    (fun r hr => ((memL r).1 hr).1) hnd ok (by
      intro r hr j h1 h2 h3
      exact hm j ⟨r, ((memL r).1 hr).1, h1, h2⟩ h3)
  refine ⟨ops, subs, l1, fun hfo => ?_⟩
  obtain ⟨c', l2, l3, l4⟩ := l2 hfo
  refine ⟨c', l2, ?_, ?_⟩
  · rcases l3 with h | ⟨_, h⟩
    · exact Or.inl h
    · rw [h]; exact hfo.imp id (·.1)
  intro i hi hin
  rw [l4 i hi]
  split
  · rfl
  · rename_i hns
    obtain ⟨r, hr, hri⟩ := hi
    have hnb : ¬ ((a ≤ i ∧ i ≤ b) ∨ (b ≤ i ∧ i ≤ a)) := by
      intro hb
      exact hns ⟨r, (memL r).2 ⟨hr, touches_of hri hb⟩, seg_of hri hb⟩
    have := hf.out i (by have := hle r hr; omega) hin (by omega)
    rw [this.1]
    exact hm i ⟨r, hr, hri⟩ this.2

/-- Facts about a list `A` obtained from `O` by removing the room at index `a`. -/
structure DelFacts (O A : Int → Option α) (a n : Int) : Prop where
  ha : 0 ≤ a ∧ a ≤ n
  hn : 1 ≤ n
  sl : ∀ i, a ≤ i → i < n → A i = O (i + 1) ∧ (O (i + 1)).isSome
  out : ∀ i, 0 ≤ i → i < a → A i = O i ∧ (O i).isSome

theorem del_run {rs : Ranges} (hv : valid rs = true) {ctx : Ctx α} {O : Int → Option α} {a : Int}
    {c : Client α} (hrs : ctx.rs = rs) (hop : ctx.op = .del)
    (hto : ctx.toIndex = (ctx.after.length : Int) - 1) (hroom : ctx.room ∉ ctx.after)
    (hf : DelFacts O (getI ctx.after) a ctx.after.length)
    (hnp : ¬ (a = ctx.after.length ∧ ∃ r ∈ rs, r.1 = ctx.after.length))
    (hm : ∀ i, Covers rs i → (O i).isSome → c.view i = O i)
    {L : Ranges} (hL : L.Perm (rs.filter fun r => decide (touches a ((ctx.after.length : Int) - 1) r)))
    (hL2 : ∀ r, inside rs ((ctx.after.length : Int) - 1) = some r → ∃ L1 L2, L = L1 ++ r :: L2 ∧
      ∀ q ∈ L2, between a ((ctx.after.length : Int) - 1) q) :
    ∃ ops subs, loop ctx (L.map (clip a ((ctx.after.length : Int) - 1))) = some (ops, subs) ∧
      (Follows c.gap ops → ∃ c', ops.foldlM (clientOp rs) c = some c' ∧ (c'.gap = -1 ∨ 0 ≤ c'.gap) ∧
        ∀ i, Covers rs i → i < ctx.after.length → c'.view i = getI ctx.after i) := by
  obtain ⟨n, hn⟩ : ∃ n : Int, (ctx.after.length : Int) = n := ⟨_, rfl⟩
  rw [hn] at hf hnp hL hL2 ⊢
  obtain ⟨b, hb⟩ : ∃ b, n - 1 = b := ⟨_, rfl⟩
  rw [hb] at hL hL2 ⊢
  have hab := hf.ha
  have hn1 := hf.hn
  have hle : ∀ r ∈ rs, 0 ≤ r.1 ∧ r.1 ≤ r.2 := fun r hr => valid_le hv r hr
  have memL : ∀ r, r ∈ L ↔ r ∈ rs ∧ touches a b r := by
    intro r; rw [hL.mem_iff]; simp
  have hnd : L.Nodup := hL.nodup_iff.2 ((valid_nodup hv).filter _)
  have hdomA : ∀ i, 0 ≤ i → i < n → (getI ctx.after i).isSome := by
    intro i h1 h2; rw [getI_isSome]; omega
  -- ranges of the last-element case contain `b`
  have hlast : b < a → ∀ r ∈ L, r.1 ≤ b ∧ b ≤ r.2 := by
    intro h r hr
    obtain ⟨hr1, hr2⟩ := (memL r).1 hr
    have : r.1 ≠ n := fun e => hnp ⟨by omega, r, hr1, e⟩
    have := hle r hr1
    unfold touches at hr2
    omega
  have htb : ∀ r ∈ L, (clip a b r).2 ≤ b := by
    intro r hr
    obtain ⟨hr1, hr2⟩ := (memL r).1 hr
    obtain ⟨c1, c2, c3, c4⟩ := clip_in (hle r hr1).2 hr2
    by_cases h : a ≤ b
    · have := c3 h; omega
    · have := hlast (by omega) r hr
      unfold clip; rw [if_neg h]; simp; omega
  have ok : ∀ r ∈ L, ¬ ((r.1 ≤ b ∧ b ≤ r.2) ∧ Covers rs n) → StepOK ctx O (getI ctx.after) a b r := by
    intro r hr hnl
    obtain ⟨hr1, hr2⟩ := (memL r).1 hr
    obtain ⟨c1, c2, c3, c4⟩ := clip_in (hle r hr1).2 hr2
    have h0 := (hle r hr1).1
    have hdom := hdomA (clip a b r).2 (by omega) (by have := htb r hr; omega)
    obtain ⟨v, hv'⟩ := Option.isSome_iff_exists.1 hdom
    have hvr : v ≠ ctx.room := by
      rintro rfl
      apply hroom
      rw [getI_nonneg (by omega)] at hv'
      exact List.mem_of_getElem? hv'
    refine ⟨c1, c2, ?_, ?_, ?_⟩
    · unfold loopBody
      simp only [hv', Option.bind_eq_bind, Option.bind_some]
      rw [if_neg (by simp [hop]), if_neg]
      · exact ⟨_, Or.inl ⟨v, rfl, rfl⟩⟩
      · rintro ⟨h1, _, h2⟩
        rcases h2 with h2 | ⟨h2, h3⟩
        · exact hvr h2
        · rw [hrs, hn, inside_isSome_iff] at h3
          exact hnl ⟨by omega, h3⟩
    · intro i h1 h2
      by_cases h : a ≤ b
      · have := c3 h
        exact hf.sl i (by omega) (by omega)
      · have := c4 (by omega); omega
    · intro i h1 h2
      by_cases h : a ≤ b
      · have := c3 h; omega
      · exfalso
        have h5 := c4 (by omega)
        have h6 := hlast (by omega) r hr
        refine hnl ⟨h6, r, hr1, ?_⟩
        omega
  have agree : ∀ i, 0 ≤ i → i < n → Covers rs i → (¬ ∃ r ∈ L, seg a b r i) → getI ctx.after i = O i ∧ (O i).isSome := by
    intro i h0 h1 hi hns
    apply hf.out i h0
    apply Classical.byContradiction
    intro hc
    obtain ⟨r, hr, hri⟩ := hi
    exact hns ⟨r, (memL r).2 ⟨hr, touches_of hri (by omega)⟩, seg_of hri (by omega)⟩
  by_cases hlone : Covers rs b ∧ Covers rs n
  · -- a lone DELETE for the range containing `b`
    obtain ⟨r, hr⟩ := Option.isSome_iff_exists.1 (inside_isSome_iff.2 hlone.1)
    obtain ⟨L1, L2, hLe, hbt⟩ := hL2 r hr
    obtain ⟨hrm, hrb⟩ := inside_some hr
    have hrL : r ∈ L := by rw [hLe]; simp
    have h0 := (hle r hrm).1
    obtain ⟨c1, c2, c3, c4⟩ := clip_in (hle r hrm).2 ((memL r).1 hrL).2
    have htb' : (clip a b r).2 = b := by
      unfold clip; split <;> simp <;> omega
    have hsub : ∀ q ∈ L1 ++ L2, q ∈ L ∧ q ≠ r := by
      intro q hq
      rw [hLe, List.nodup_append, List.nodup_cons] at hnd
      obtain ⟨d1, ⟨d2, d3⟩, d4⟩ := hnd
      rcases List.mem_append.1 hq with h | h
      · exact ⟨by rw [hLe]; simp [h], d4 q h r (by simp)⟩
      · exact ⟨by rw [hLe]; simp [h], fun e => d2 (e ▸ h)⟩
    have hnob : ∀ q ∈ L1 ++ L2, ¬ (q.1 ≤ b ∧ b ≤ q.2) := by
      intro q hq h
      exact (hsub q hq).2 (valid_unique hv ((memL q).1 (hsub q hq).1).1 hrm h hrb)
    have ok' : ∀ q ∈ L1 ++ L2, StepOK ctx O (getI ctx.after) a b q := fun q hq =>
      ok q (hsub q hq).1 (fun h => hnob q hq h.1)
    have hnd1 : L1.Nodup ∧ L2.Nodup := by
      rw [hLe, List.nodup_append, List.nodup_cons] at hnd
      exact ⟨hnd.1, hnd.2.1.2⟩
    obtain ⟨ops1, subs1, l1, _, p1⟩ := run_swaps hv ctx O (getI ctx.after) a b L1 c
      (fun q hq => ((memL q).1 (hsub q (by simp [hq])).1).1) hnd1.1 (fun q hq => ok' q (by simp [hq])) (by
        intro q hq j h1 h2 h3
        exact hm j ⟨q, ((memL q).1 (hsub q (by simp [hq])).1).1, h1, h2⟩ h3)
    obtain ⟨ops2, subs2, n1, nh, _⟩ := run_swaps hv ctx O (getI ctx.after) a b L2 c
      (fun q hq => ((memL q).1 (hsub q (by simp [hq])).1).1) hnd1.2 (fun q hq => ok' q (by simp [hq])) (by
        intro q hq j h1 h2 h3
        exact hm j ⟨q, ((memL q).1 (hsub q (by simp [hq])).1).1, h1, h2⟩ h3)
    -- indices of L1 segments
    have seg1 : ∀ q ∈ L1 ++ L2, ∀ j, seg a b q j → q.1 ≤ j ∧ j ≤ q.2 ∧ (a ≤ b → a ≤ j ∧ j ≤ b) := by
      intro q hq j hs
      have hq' := (memL q).1 (hsub q hq).1
      obtain ⟨e1, e2, e3, e4⟩ := clip_in (hle q hq'.1).2 hq'.2
      unfold seg at hs
      refine ⟨by omega, by omega, fun h => ?_⟩
      have := e3 h
      omega
    have hbelow : ∀ q ∈ L2, q.2 < (clip a b r).1 := by
      intro q hq
      have hq' := (memL q).1 (hsub q (by simp [hq])).1
      have hql := hle q hq'.1
      have hbt' := hbt q hq
      unfold between at hbt'
      have : ¬ r.1 ≤ q.2 := by
        intro h
        exact (hsub q (by simp [hq])).2 (valid_unique hv hq'.1 hrm (y := q.2) (by omega) (by omega))
      omega
    have hcov1 : ∀ q ∈ L2, ∀ j, q.1 ≤ j → j ≤ q.2 → ¬ ∃ p ∈ L1, seg a b p j := by
      rintro q hq j h1 h2 ⟨p, hp, hs⟩
      have := seg1 p (by simp [hp]) j hs
      have e : p = q := valid_unique hv ((memL p).1 (hsub p (by simp [hp])).1).1
        ((memL q).1 (hsub q (by simp [hq])).1).1 (y := j) ⟨this.1, this.2.1⟩ ⟨h1, h2⟩
      rw [hLe, List.nodup_append] at hnd
      exact hnd.2.2 p hp q (by simp [hq]) e
    obtain ⟨v, hv'⟩ := Option.isSome_iff_exists.1 (hdomA (clip a b r).2 (by omega) (by omega))
    have hbody : loopBody ctx (clip a b r) = some ([.delete (clip a b r).1], []) := by
      unfold loopBody
      simp only [hv', Option.bind_eq_bind, Option.bind_some]
      rw [if_neg (by simp [hop]), if_pos]
      · have : (inside rs (clip a b r).1).isNone = false := by
          have := inside_isSome_iff.2 (⟨r, hrm, c1⟩ : Covers rs (clip a b r).1)
          cases hh : inside rs (clip a b r).1
          · rw [hh] at this; cases this
          · rfl
        unfold writeDeleteOp
        rw [if_neg (by omega), hrs, this]
        rfl
      · refine ⟨by simp; omega, hop, Or.inr ⟨by omega, ?_⟩⟩
        rw [hrs, hn, inside_isSome_iff]; exact hlone.2
    refine ⟨ops1 ++ ([Op.delete (clip a b r).1] ++ ops2), subs1 ++ ([] ++ subs2), ?_, fun hfo => ?_⟩
    · rw [hLe, List.map_append, loop_append, List.map_cons]
      simp [loop, l1, hbody, n1]
    obtain ⟨k1, l2, l3, l4⟩ := p1 hfo.head
    obtain ⟨k2, m1, m2, m3⟩ := delete_view (rs := rs) (c := k1) (f := (clip a b r).1) (by
      rcases l3 with h | ⟨h, rfl⟩
      · exact Or.inl h
      · rw [h] at hfo
        rcases hfo with h | h
        · exact Or.inl h
        · exact Or.inr ⟨h.1, h.2 _ _ rfl⟩) (by omega)
    obtain ⟨_, _, n1', _, n2⟩ := run_swaps hv ctx O (getI ctx.after) a b L2 k2
      (fun q hq => ((memL q).1 (hsub q (by simp [hq])).1).1) hnd1.2 (fun q hq => ok' q (by simp [hq])) (by
        intro q hq j h1 h2 h3
        have hc : Covers rs j := ⟨q, ((memL q).1 (hsub q (by simp [hq])).1).1, h1, h2⟩
        have := hbelow q hq
        rw [m3 j hc (fun h => by omega), if_pos (by omega), l4 j hc, if_neg (hcov1 q hq j h1 h2)]
        exact hm j hc h3)
    rw [n1] at n1'
    simp only [Option.some.injEq, Prod.mk.injEq] at n1'
    obtain ⟨rfl, rfl⟩ := n1'
    obtain ⟨k3, n2, n3, n4⟩ := n2 (Or.inr ⟨by omega, by
      intro f rest e
      obtain ⟨q, hq, h⟩ := nh f rest e
      have := hbelow q hq
      omega⟩)
    have hfold : (ops1 ++ ([Op.delete (clip a b r).1] ++ ops2)).foldlM (clientOp rs) c = some k3 := by
      simp only [List.foldlM_append, l2, List.foldlM_cons, List.foldlM_nil, m1, Option.bind_eq_bind, Option.bind_some]
      exact n2
    refine ⟨k3, hfold, ?_, ?_⟩
    · rcases n3 with h | ⟨_, rfl⟩
      · exact Or.inl h
      · right; rw [m2]; omega
    · intro i hi hin
      have hi0 : 0 ≤ i := by obtain ⟨q, hq, h⟩ := hi; have := hle q hq; omega
      rw [n4 i hi]
      split
      · rfl
      rename_i hns2
      have hcv : (clip a b r).1 ≤ i → Covers rs (i + 1) := by
        intro hif
        by_cases h : i = b
        · rw [h, show b + 1 = n by omega]; exact hlone.2
        · exact ⟨r, hrm, by omega, by omega⟩
      rw [m3 i hi hcv]
      by_cases hif : i < (clip a b r).1
      · rw [if_pos hif, l4 i hi]
        split
        · rfl
        rename_i hns1
        have hia : i < a := by
          apply Classical.byContradiction
          intro hc
          obtain ⟨q, hq, hqi⟩ := hi
          have hqL : q ∈ L := (memL q).2 ⟨hq, touches_of hqi (by omega)⟩
          have hs : seg a b q i := seg_of hqi (by omega)
          rw [hLe] at hqL
          rcases List.mem_append.1 hqL with h | h
          · exact hns1 ⟨q, h, hs⟩
          · rcases List.mem_cons.1 h with rfl | h
            · unfold seg at hs
              have := c3 (by omega)
              omega
            · exact hns2 ⟨q, h, hs⟩
        have := hf.out i hi0 hia
        rw [this.1]
        exact hm i hi this.2
      · rw [if_neg hif]
        have hab' : a ≤ b := by
          by_cases h : a ≤ b
          · exact h
          · exfalso
            have : (clip a b r).1 = n := by
              obtain ⟨p, hp, hpn⟩ := hlone.2
              have hp1 : p.1 ≠ n := fun e => hnp ⟨by omega, p, hp, e⟩
              have : p = r := valid_unique hv hp hrm (y := b) (by omega) hrb
              subst this
              unfold clip; rw [if_neg h]; simp; omega
            omega
        have hc3 := c3 hab'
        have hcv := hcv (by omega)
        rw [l4 (i + 1) hcv, if_neg]
        · have := hf.sl i (by omega) hin
          rw [this.1]
          exact hm (i + 1) hcv this.2
        · rintro ⟨q, hq, hs⟩
          have hs1 := seg1 q (by simp [hq]) (i + 1) hs
          have := hs1.2.2 hab'
          exact (hsub q (by simp [hq])).2 (valid_unique hv ((memL q).1 (hsub q (by simp [hq])).1).1 hrm
            (y := i + 1) ⟨hs1.1, hs1.2.1⟩ (by omega))
  · -- only swaps
    have ok' : ∀ q ∈ L, StepOK ctx O (getI ctx.after) a b q := fun q hq =>
      ok q hq (fun h => hlone ⟨⟨q, ((memL q).1 hq).1, h.1⟩, h.2⟩)
    obtain ⟨ops, subs, l1, _, l2⟩ := run_swaps hv ctx O (getI ctx.after) a b L c
      (fun r hr => ((memL r).1 hr).1) hnd ok' (by
        intro r hr j h1 h2 h3
        exact hm j ⟨r, ((memL r).1 hr).1, h1, h2⟩ h3)
    refine ⟨ops, subs, l1, fun hfo => ?_⟩
    obtain ⟨c', l2, l3, l4⟩ := l2 hfo
    refine ⟨c', l2, ?_, ?_⟩
    · rcases l3 with h | ⟨_, h⟩
      · exact Or.inl h
      · rw [h]; exact hfo.imp id (·.1)
    intro i hi hin
    have hi0 : 0 ≤ i := by obtain ⟨q, hq, h⟩ := hi; have := hle q hq; omega
    rw [l4 i hi]
    split
    · rfl
    · rename_i hns
      have := agree i hi0 hin hi hns
      rw [this.1]
      exact hm i hi this.2

end Verif.ListOps
