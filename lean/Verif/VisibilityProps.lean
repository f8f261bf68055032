import Verif.Visibility
/-! C42: the visible timeline is the user's last membership period. -/
namespace Verif.Visibility

/-! ### Specification -/

/-- The user is joined to the room after position `p`: some join at or before `p` has no later leave
or ban at or before `p`. -/
def JoinedAt (rows : List MEv) (room : String) (p : Int) : Prop :=
  ∃ e ∈ rows, e.room = room ∧ e.membership = "join" ∧ e.nid ≤ p ∧
    ∀ x ∈ rows, x.room = room → (x.membership = "leave" ∨ x.membership = "ban") → e.nid < x.nid → x.nid ≤ p → False

/-- Rows as PostgreSQL hands them out: strictly ascending positive NIDs. -/
def Sorted (rows : List MEv) : Prop := rows.Pairwise (fun a b => a.nid < b.nid) ∧ ∀ e ∈ rows, 0 < e.nid

/-! ### Folding the membership -/

def upd (j : Bool) (m : String) : Bool :=
  if m = "join" then true else if m = "leave" ∨ m = "ban" then false else j

def cur (init : Bool) (l : List MEv) : Bool := l.foldl (fun j e => upd j e.membership) init

def at' (init : Bool) (l : List MEv) (p : Int) : Bool := cur init (l.filter fun e => decide (e.nid ≤ p))

theorem cur_append (i : Bool) (l l' : List MEv) : cur i (l ++ l') = cur (cur i l) l' := by
  simp [cur, List.foldl_append]

theorem cur_true_iff (i : Bool) (l : List MEv) :
    cur i l = true ↔ (∃ a e b, l = a ++ e :: b ∧ e.membership = "join" ∧
      ∀ x ∈ b, ¬ (x.membership = "leave" ∨ x.membership = "ban")) ∨
      (i = true ∧ ∀ x ∈ l, ¬ (x.membership = "leave" ∨ x.membership = "ban")) := by
  induction l using Verif.Util.snocRec with
  | nil => simp [cur]
  | append_singleton l e ih =>
    rw [cur_append]
    show upd (cur i l) e.membership = true ↔ _
    by_cases hj : e.membership = "join"
    · simp only [upd, hj, if_true, true_iff]
      exact Or.inl ⟨l, e, [], rfl, hj, by simp⟩
    · by_cases hl : e.membership = "leave" ∨ e.membership = "ban"
      · simp only [upd, hj, if_false, hl, if_true, Bool.false_eq_true, false_iff]
        rintro (⟨a, x, b, hab, hx, hb⟩ | ⟨_, h⟩)
        · rcases List.eq_nil_or_concat b with rfl | ⟨b', y, rfl⟩
          · have := List.append_inj' hab rfl
            simp only [List.cons.injEq, and_true] at this
            rw [← this.2] at hx
            exact hj hx
          · have h2 : l ++ [e] = (a ++ x :: b') ++ [y] := by simpa using hab
            have := List.append_inj' h2 rfl
            simp only [List.cons.injEq, and_true] at this
            exact hb y (by simp) (this.2 ▸ hl)
        · exact h e (by simp) hl
      · simp only [upd, hj, if_false, hl]
        rw [ih]
        constructor
        · rintro (⟨a, x, b, rfl, hx, hb⟩ | ⟨h1, h2⟩)
          · refine Or.inl ⟨a, x, b ++ [e], by simp, hx, ?_⟩
            intro y hy
            rcases List.mem_append.1 hy with hy | hy
            · exact hb y hy
            · rw [List.mem_singleton.1 hy]; exact hl
          · refine Or.inr ⟨h1, ?_⟩
            intro y hy
            rcases List.mem_append.1 hy with hy | hy
            · exact h2 y hy
            · rw [List.mem_singleton.1 hy]; exact hl
        · rintro (⟨a, x, b, hab, hx, hb⟩ | ⟨h1, h2⟩)
          · rcases List.eq_nil_or_concat b with rfl | ⟨b', y, rfl⟩
            · have := List.append_inj' hab rfl
              simp only [List.cons.injEq, and_true] at this
              exact absurd (this.2 ▸ hx) hj
            · have h2 : l ++ [e] = (a ++ x :: b') ++ [y] := by simpa using hab
              have := List.append_inj' h2 rfl
              exact Or.inl ⟨a, x, b', this.1, hx, fun z hz => hb z (by simp [hz])⟩
          · exact Or.inr ⟨h1, fun y hy => h2 y (by simp [hy])⟩

theorem at_snoc (i : Bool) (l : List MEv) (e : MEv) (h : ∀ x ∈ l, x.nid < e.nid) (p : Int) :
    at' i (l ++ [e]) p = if e.nid ≤ p then upd (cur i l) e.membership else at' i l p := by
  simp only [at', List.filter_append]
  split
  · rename_i hp
    have : l.filter (fun e => decide (e.nid ≤ p)) = l := by
      apply List.filter_eq_self.2
      intro x hx
      have := h x hx
      exact decide_eq_true (by omega)
    rw [this, cur_append]
    simp [cur, hp]
  · rename_i hp
    simp [hp]

/-- Invariant of the loop over the processed prefix `l`. -/
structure LInv (i : Bool) (lo : Int) (l : List MEv) (s : Acc) : Prop where
  joined : s.joined = cur i l
  start : s.joined = true → lo ≤ s.start ∧ (∀ p, s.start ≤ p → at' i l p = true) ∧
    ((s.start = lo ∧ i = true) ∨ (lo < s.start ∧ at' i l (s.start - 1) = false ∧
      ∃ e ∈ l, e.nid = s.start ∧ e.membership = "join"))
  none : s.joined = false → s.result = [] → i = false ∧
    ∀ e ∈ l, e.membership ≠ "join" ∧ e.membership ≠ "invite"
  some : s.joined = false → ∀ a b, s.result.getLast? = some (a, b) →
    lo ≤ a ∧ a ≤ b ∧ (∀ p, b ≤ p → at' i l p = false) ∧ (∀ p, a ≤ p → p < b → at' i l p = true) ∧
    ((a < b ∧ ((a = lo ∧ i = true) ∨ (lo < a ∧ at' i l (a - 1) = false ∧
        ∃ e ∈ l, e.nid = a ∧ e.membership = "join")) ∧
      ∃ e ∈ l, e.nid = b ∧ (e.membership = "leave" ∨ e.membership = "ban")) ∨
     (a = b ∧ ∃ e ∈ l, e.nid = b ∧ e.membership = "invite"))

theorem calc_inv (i : Bool) (lo : Int) (l : List MEv) (hs : l.Pairwise fun a b => a.nid < b.nid)
    (hlo : ∀ e ∈ l, lo < e.nid) :
    LInv i lo l (l.foldl calcStep ⟨i, if i then lo else -1, []⟩) := by
  induction l using Verif.Util.snocRec with
  | nil =>
    refine ⟨rfl, ?_, ?_, ?_⟩
    · intro h
      have h : i = true := h
      subst h
      exact ⟨Int.le_refl _, fun p _ => rfl, Or.inl ⟨rfl, rfl⟩⟩
    · intro h _
      exact ⟨h, by simp⟩
    · intro _ a b h
      cases h
  | append_singleton l e ih =>
    have hs' := List.pairwise_append.1 hs
    have hlt : ∀ x ∈ l, x.nid < e.nid := fun x hx => hs'.2.2 x hx e (by simp)
    have hle : lo < e.nid := hlo e (by simp)
    have ih := ih hs'.1 fun x hx => hlo x (by simp [hx])
    rw [List.foldl_append]
    generalize l.foldl calcStep ⟨i, if i then lo else -1, []⟩ = s at ih ⊢
    obtain ⟨j, st, res⟩ := s
    obtain ⟨hj, hst, hn, hsm⟩ := ih
    simp only at hj hst hn hsm
    have hat := at_snoc i l e hlt
    have hcur : cur i (l ++ [e]) = upd (cur i l) e.membership := by rw [cur_append]; rfl
    have hbefore : ∀ p, p < e.nid → at' i (l ++ [e]) p = at' i l p := by
      intro p hp; rw [hat p, if_neg (by omega)]
    have hafter : ∀ p, e.nid ≤ p → at' i (l ++ [e]) p = upd j e.membership := by
      intro p hp; rw [hat p, if_pos hp, ← hj]
    rw [← hj] at hcur
    show LInv i lo (l ++ [e]) (calcStep ⟨j, st, res⟩ e)
    -- the current period began before this event
    have hstlt : j = true → st < e.nid := by
      intro h
      rcases (hst h).2.2 with ⟨h1, _⟩ | ⟨_, _, x, hx, h1, _⟩
      · omega
      · have := hlt x hx; omega
    have lift : ∀ {m : Int}, (∃ x ∈ l, x.nid = m ∧ x.membership = "join") →
        ∃ x ∈ l ++ [e], x.nid = m ∧ x.membership = "join" := by
      rintro m ⟨x, hx, h⟩
      exact ⟨x, by simp [hx], h⟩
    by_cases hinv : j = false ∧ e.membership = "invite"
    · obtain ⟨hj0, hm⟩ := hinv
      subst hj0
      have hu : upd false e.membership = false := by simp [upd, hm]
      simp only [calcStep, hm, Bool.not_false, decide_true, Bool.and_self, if_true]
      refine ⟨by rw [hcur, hu], by simp, by simp, ?_⟩
      intro _ a b hab
      simp only [List.getLast?_append, List.getLast?_singleton, Option.some_or, Option.some.injEq,
        Prod.mk.injEq] at hab
      obtain ⟨rfl, rfl⟩ := hab
      refine ⟨by omega, by omega, ?_, ?_, Or.inr ⟨rfl, e, by simp, rfl, hm⟩⟩
      · intro p hp; rw [hafter p hp, hu]
      · intro p h1 h2; omega
    · have hc1 : (!j && decide (e.membership = "invite")) = false := by
        cases j
        · have : e.membership ≠ "invite" := fun h => hinv ⟨rfl, h⟩
          simp [this]
        · rfl
      simp only [calcStep, hc1, Bool.false_eq_true, if_false]
      cases j with
      | true =>
        obtain ⟨h1, h2, h3⟩ := hst rfl
        have hstl := hstlt rfl
        by_cases hl : e.membership = "leave" ∨ e.membership = "ban"
        · have hu : upd true e.membership = false := by
            have : e.membership ≠ "join" := by rcases hl with h | h <;> rw [h] <;> decide
            simp [upd, this, hl]
          have hc2 : (decide (e.membership = "leave") || decide (e.membership = "ban")) = true := by
            simp [hl]
          simp only [hc2, Bool.and_self, Bool.true_or, if_true]
          refine ⟨by rw [hcur, hu], by simp, by simp, ?_⟩
          intro _ a b hab
          simp only [List.getLast?_append, List.getLast?_singleton, Option.some_or, Option.some.injEq,
            Prod.mk.injEq] at hab
          obtain ⟨rfl, rfl⟩ := hab
          refine ⟨h1, by omega, ?_, ?_, Or.inl ⟨hstl, ?_, e, by simp, rfl, hl⟩⟩
          · intro p hp; rw [hafter p hp, hu]
          · intro p hp1 hp2; rw [hbefore p hp2]; exact h2 p hp1
          · rcases h3 with h3 | ⟨h3, h4, h5⟩
            · exact Or.inl h3
            · exact Or.inr ⟨h3, by rw [hbefore _ (by omega)]; exact h4, lift h5⟩
        · have hu : upd true e.membership = true := by simp [upd, hl]
          have hc2 : (decide (e.membership = "leave") || decide (e.membership = "ban")) = false := by
            simpa using hl
          simp only [hc2, Bool.and_false, Bool.not_true, Bool.false_and, Bool.or_self,
            Bool.false_eq_true, if_false]
          refine ⟨by rw [hcur, hu], ?_, by simp, by simp⟩
          intro _
          refine ⟨h1, ?_, ?_⟩
          · intro p hp
            by_cases hpe : e.nid ≤ p
            · rw [hafter p hpe, hu]
            · rw [hbefore p (by omega)]; exact h2 p hp
          · rcases h3 with h3 | ⟨h3, h4, h5⟩
            · exact Or.inl h3
            · exact Or.inr ⟨h3, by rw [hbefore _ (by show st - 1 < e.nid; omega)]; exact h4, lift h5⟩
      | false =>
        have hne : e.membership ≠ "invite" := fun h => hinv ⟨rfl, h⟩
        by_cases hm : e.membership = "join"
        · have hu : upd false e.membership = true := by simp [upd, hm]
          simp only [hm, Bool.false_and, Bool.not_false, decide_true, Bool.and_self, Bool.or_true, if_true,
            Bool.false_eq_true, if_false]
          refine ⟨by rw [hcur, hu], ?_, by simp, by simp⟩
          intro _
          refine ⟨by show lo ≤ e.nid; omega, ?_, Or.inr ⟨hle, ?_, e, by simp, rfl, hm⟩⟩
          · intro p hp; rw [hafter p hp, hu]
          · show at' i (l ++ [e]) (e.nid - 1) = false
            rw [hbefore _ (by omega)]
            have : l.filter (fun x => decide (x.nid ≤ e.nid - 1)) = l := by
              apply List.filter_eq_self.2
              intro x hx
              have := hlt x hx
              exact decide_eq_true (by omega)
            rw [at', this, ← hj]
        · have hu : upd false e.membership = false := by
            simp [upd, hm]
          simp only [hm, Bool.false_and, Bool.not_false, decide_false, Bool.and_false, Bool.or_self,
            Bool.false_eq_true, if_false]
          refine ⟨by rw [hcur, hu], by simp, ?_, ?_⟩
          · intro _ hr
            obtain ⟨h1, h2⟩ := hn rfl hr
            refine ⟨h1, ?_⟩
            intro x hx
            rcases List.mem_append.1 hx with hx | hx
            · exact h2 x hx
            · rw [List.mem_singleton.1 hx]; exact ⟨hm, hne⟩
          · intro _ a b hab
            obtain ⟨h1, h2, h3, h4, h5⟩ := hsm rfl a b hab
            have hbl : b < e.nid := by
              rcases h5 with ⟨_, _, x, hx, h6, _⟩ | ⟨_, x, hx, h6, _⟩ <;> have := hlt x hx <;> omega
            refine ⟨h1, h2, ?_, ?_, ?_⟩
            · intro p hp
              by_cases hpe : e.nid ≤ p
              · rw [hafter p hpe, hu]
              · rw [hbefore p (by omega)]; exact h3 p hp
            · intro p hp1 hp2
              rw [hbefore p (by omega)]; exact h4 p hp1 hp2
            · rcases h5 with ⟨h5, h6, x, hx, h7⟩ | ⟨h5, x, hx, h7⟩
              · refine Or.inl ⟨h5, ?_, x, by simp [hx], h7⟩
                rcases h6 with h6 | ⟨h6, h8, h9⟩
                · exact Or.inl h6
                · exact Or.inr ⟨h6, by rw [hbefore _ (by omega)]; exact h8, lift h9⟩
              · exact Or.inr ⟨h5, x, by simp [hx], h7⟩

/-! ### From the specification to the fold -/

def logsOf (rows : List MEv) (room : String) : List MEv := rows.filter fun e => decide (e.room = room)

theorem joinedAt_iff {rows : List MEv} (hs : Sorted rows) (room : String) (p : Int) :
    JoinedAt rows room p ↔ at' false (logsOf rows room) p = true := by
  have hsF : ((logsOf rows room).filter fun e => decide (e.nid ≤ p)).Pairwise fun a b => a.nid < b.nid :=
    (hs.1.filter _).filter _
  have hmem : ∀ x, x ∈ (logsOf rows room).filter (fun e => decide (e.nid ≤ p)) ↔
      x ∈ rows ∧ x.room = room ∧ x.nid ≤ p := by
    intro x
    simp only [logsOf, List.mem_filter, decide_eq_true_eq, and_assoc]
  rw [at', cur_true_iff]
  constructor
  · rintro ⟨e, he, hr, hj, hp, hx⟩
    obtain ⟨a, b, hab⟩ := List.append_of_mem ((hmem e).2 ⟨he, hr, hp⟩)
    refine Or.inl ⟨a, e, b, hab, hj, ?_⟩
    intro x hxb hl
    have h1 := (hmem x).1 (by rw [hab]; simp [hxb])
    rw [hab, List.pairwise_append, List.pairwise_cons] at hsF
    exact hx x h1.1 h1.2.1 hl (hsF.2.1.1 x hxb) h1.2.2
  · rintro (⟨a, e, b, hab, hj, hb⟩ | ⟨h, _⟩)
    · have h1 := (hmem e).1 (by rw [hab]; simp)
      refine ⟨e, h1.1, h1.2.1, hj, h1.2.2, ?_⟩
      intro x hx hr hl hlt hxp
      have h2 := (hmem x).2 ⟨hx, hr, hxp⟩
      rw [hab] at h2
      rw [hab, List.pairwise_append, List.pairwise_cons] at hsF
      rcases List.mem_append.1 h2 with h2 | h2
      · have := hsF.2.2 x h2 e (by simp)
        omega
      · rcases List.mem_cons.1 h2 with h2 | h2
        · rw [h2] at hlt; omega
        · exact hb x h2 hl
    · cases h

theorem filter_split {l : List MEv} (hs : l.Pairwise fun a b => a.nid < b.nid) {lo p : Int} (h : lo ≤ p) :
    l.filter (fun e => decide (e.nid ≤ p)) =
      l.filter (fun e => decide (e.nid ≤ lo)) ++
        l.filter (fun e => decide (lo < e.nid) && decide (e.nid ≤ p)) := by
  induction l with
  | nil => rfl
  | cons e l ih =>
    rw [List.pairwise_cons] at hs
    have ih := ih hs.2
    by_cases h1 : e.nid ≤ lo
    · have h2 : e.nid ≤ p := by omega
      have h3 : ¬ lo < e.nid := by omega
      simp only [List.filter_cons, h1, h2, h3, decide_true, decide_false, if_true, Bool.false_and,
        Bool.false_eq_true, if_false, List.cons_append]
      rw [ih]
    · have h3 : lo < e.nid := by omega
      have hnil : l.filter (fun e => decide (e.nid ≤ lo)) = [] := by
        rw [List.filter_eq_nil_iff]
        intro x hx
        have := hs.1 x hx
        simp; omega
      rw [hnil, List.nil_append] at ih
      simp only [List.filter_cons, h1, h3, decide_true, decide_false, Bool.false_eq_true, if_false, hnil,
        List.nil_append, Bool.true_and]
      split <;> rw [ih]

theorem determineJoined_spec (l : List MEv) (room : String) :
    (determineJoined l room).isSome = cur false (logsOf l room) := by
  induction l using Verif.Util.snocRec with
  | nil => rfl
  | append_singleton l e ih =>
    have hlog : logsOf (l ++ [e]) room = logsOf l room ++ if e.room = room then [e] else [] := by
      simp only [logsOf, List.filter_append, List.filter_cons, List.filter_nil]
      by_cases h : e.room = room <;> simp [h]
    rw [hlog, cur_append, ← ih]
    simp only [determineJoined, List.foldl_append, List.foldl_cons, List.foldl_nil]
    generalize hm : (l.foldl (fun m ev =>
      if ev.membership = "join" then
        match m ev.room with
        | some _ => m
        | none => fun r => if r = ev.room then some ev.nid else m r
      else if ev.membership = "ban" ∨ ev.membership = "leave" then
        fun r => if r = ev.room then none else m r
      else m) (fun _ => none) : String → Option Int) = m
    by_cases hr : e.room = room
    · subst hr
      simp only [if_true]
      show _ = upd _ _
      by_cases hj : e.membership = "join"
      · simp only [hj, if_true, upd]
        cases h : m e.room with
        | none => simp
        | some v => simp [h]
      · by_cases hl : e.membership = "ban" ∨ e.membership = "leave"
        · simp [hj, hl, upd, Or.comm.1 hl]
        · have hl' : ¬ (e.membership = "leave" ∨ e.membership = "ban") := fun h => hl h.symm
          simp [hj, hl, upd, hl']
    · have hr' : ¬ room = e.room := fun h => hr h.symm
      simp only [if_neg hr, cur, List.foldl_nil]
      by_cases hj : e.membership = "join"
      · simp only [hj, if_true]
        cases h : m e.room with
        | none => simp [hr']
        | some v => rfl
      · by_cases hl : e.membership = "ban" ∨ e.membership = "leave"
        · simp [hj, hl, hr']
        · simp [hj, hl]

/-- What `betweenForRooms` computes for one of the requested rooms. -/
theorem between_eq {rows : List MEv} (hs : Sorted rows) {rooms : List String} {room : String}
    (hroom : room ∈ rooms) {lo hi : Int} (hlo : 0 ≤ lo) :
    betweenForRooms rows rooms lo hi room =
      if at' false (logsOf rows room) lo = true then
        some (calcRange true lo hi ((logsOf rows room).filter fun e => decide (lo < e.nid) && decide (e.nid ≤ hi)))
      else if (logsOf rows room).filter (fun e => decide (lo < e.nid) && decide (e.nid ≤ hi)) = [] then none
      else some (calcRange false lo hi
        ((logsOf rows room).filter fun e => decide (lo < e.nid) && decide (e.nid ≤ hi))) := by
  have hsel : ∀ a b : Int, logsOf (selectIn rows rooms a b) room =
      (logsOf rows room).filter fun e => decide (a < e.nid) && decide (e.nid ≤ b) := by
    intro a b
    simp only [logsOf, selectIn, List.filter_filter]
    apply List.filter_congr
    intro e _
    by_cases h : e.room = room
    · simp [h, hroom]
    · simp [h]
  have hj : (determineJoined (if lo ≠ 0 then selectIn rows rooms 0 lo else []) room).isSome =
      at' false (logsOf rows room) lo := by
    rw [determineJoined_spec]
    by_cases h0 : lo = 0
    · subst h0
      have hnil : (logsOf rows room).filter (fun e => decide (e.nid ≤ 0)) = [] := by
        rw [List.filter_eq_nil_iff]
        intro x hx
        have := hs.2 x (List.mem_filter.1 hx).1
        simp; omega
      rw [at', hnil]
      simp [logsOf]
    · rw [if_pos h0, hsel, at']
      congr 1
      apply List.filter_congr
      intro e he
      have := hs.2 e (List.mem_filter.1 he).1
      simp [this]
  simp only [betweenForRooms, withData]
  have hl : (selectIn rows rooms lo hi).filter (fun e => decide (e.room = room)) = _ := hsel lo hi
  rw [hl]
  generalize hd : determineJoined (if lo ≠ 0 then selectIn rows rooms 0 lo else []) room = d at hj
  cases d with
  | none => rw [← hj]; simp
  | some v => rw [← hj]; simp

/-! ### C42 -/

/-- The computed range, in terms of the membership at each position:

* joined at the end: the range runs from the beginning of the current membership (or from `lo`, if
  it began at or before `lo`) to `hi`;
* not joined at the end, and a range other than the empty `(0, 0)`: it is the last period in which
  the user was joined, up to and including the leave, or else one invite on its own; and the user is
  not joined at any later position;
* otherwise the user was at no position in the interval joined or invited. -/
theorem C42_range {rows : List MEv} (hs : Sorted rows) {rooms : List String} {room : String}
    (hroom : room ∈ rooms) {lo hi : Int} (hlo : 0 ≤ lo) (hhi : lo ≤ hi) :
    (JoinedAt rows room hi ∧ ∃ a, betweenForRooms rows rooms lo hi room = some (a, hi) ∧
      lo ≤ a ∧ a ≤ hi ∧ (∀ p, a ≤ p → p ≤ hi → JoinedAt rows room p) ∧
      (a = lo ∨ ¬ JoinedAt rows room (a - 1))) ∨
    (¬ JoinedAt rows room hi ∧ ∃ a b, betweenForRooms rows rooms lo hi room = some (a, b) ∧
      lo ≤ a ∧ a ≤ b ∧ b ≤ hi ∧ (∀ p, b ≤ p → p ≤ hi → ¬ JoinedAt rows room p) ∧
      (∀ p, a ≤ p → p < b → JoinedAt rows room p) ∧
      ((a < b ∧ (a = lo ∨ ¬ JoinedAt rows room (a - 1)) ∧
        ∃ e ∈ rows, e.room = room ∧ e.nid = b ∧ (e.membership = "leave" ∨ e.membership = "ban")) ∨
       (a = b ∧ ∃ e ∈ rows, e.room = room ∧ e.nid = b ∧ e.membership = "invite"))) ∨
    ((∀ p, lo ≤ p → p ≤ hi → ¬ JoinedAt rows room p) ∧
      (∀ e ∈ rows, e.room = room → lo < e.nid → e.nid ≤ hi → e.membership ≠ "invite") ∧
      (betweenForRooms rows rooms lo hi room = none ∨
        betweenForRooms rows rooms lo hi room = some (0, 0))) := by
  have hJ := joinedAt_iff hs room
  rw [between_eq hs hroom hlo]
  generalize hL : logsOf rows room = L at hJ
  have hsL : L.Pairwise fun a b => a.nid < b.nid := by rw [← hL]; exact hs.1.filter _
  have hLm : ∀ e ∈ L, e ∈ rows ∧ e.room = room := by
    intro e he; rw [← hL] at he; simpa [logsOf] using he
  generalize hi0 : at' false L lo = i
  generalize hlogs : (L.filter fun e => decide (lo < e.nid) && decide (e.nid ≤ hi)) = logs
  have hsl : logs.Pairwise fun a b => a.nid < b.nid := by rw [← hlogs]; exact hsL.filter _
  have hlm : ∀ e ∈ logs, e ∈ L ∧ lo < e.nid ∧ e.nid ≤ hi := by
    intro e he; rw [← hlogs] at he; simpa [List.mem_filter] using he
  -- membership at a position, from the interval's logs only
  have hat : ∀ p, lo ≤ p → p ≤ hi → at' false L p = at' i logs p := by
    intro p h1 h2
    rw [at', filter_split hsL h1, cur_append]
    show cur (at' false L lo) _ = _
    rw [hi0, at', ← hlogs, List.filter_filter]
    congr 1
    apply List.filter_congr
    intro e _
    by_cases h : e.nid ≤ p
    · have : e.nid ≤ hi := by omega
      simp [h, this]
    · simp [h]
  have hJ' : ∀ p, lo ≤ p → p ≤ hi → (JoinedAt rows room p ↔ at' i logs p = true) := by
    intro p h1 h2; rw [hJ, hat p h1 h2]
  have hatlo : at' i logs lo = i := by rw [← hat lo (Int.le_refl _) hhi, hi0]
  have hathi : at' i logs hi = cur i logs := by
    have : logs.filter (fun e => decide (e.nid ≤ hi)) = logs := by
      apply List.filter_eq_self.2
      intro x hx
      exact decide_eq_true (hlm x hx).2.2
    rw [at', this]
  have hinv := calc_inv i lo logs hsl fun e he => (hlm e he).2.1
  by_cases hnil : logs = []
  · -- no membership change in the interval
    have hall : ∀ p, lo ≤ p → p ≤ hi → (JoinedAt rows room p ↔ i = true) := by
      intro p h1 h2; rw [hJ' p h1 h2, hnil]; simp [at', cur]
    cases i with
    | true =>
      left
      refine ⟨(hall hi hhi (Int.le_refl _)).2 rfl, lo, ?_, Int.le_refl _, hhi, ?_, Or.inl rfl⟩
      · simp [calcRange, hnil]
      · intro p h1 h2; exact (hall p h1 h2).2 rfl
    | false =>
      right; right
      refine ⟨?_, ?_, Or.inl ?_⟩
      · intro p h1 h2 h; cases (hall p h1 h2).1 h
      · intro e he hr h1 h2 hm
        have : e ∈ logs := by
          rw [← hlogs, ← hL]
          simp [List.mem_filter, logsOf, he, hr, h1, h2]
        rw [hnil] at this; cases this
      · simp [hnil]
  · have hres : (if i = true then some (calcRange true lo hi logs) else if logs = [] then none
        else some (calcRange false lo hi logs)) = some (calcRange i lo hi logs) := by
      cases i <;> simp [hnil]
    rw [hres]
    simp only [calcRange, hnil, if_false]
    generalize hs0 : logs.foldl calcStep ⟨i, if i = true then lo else -1, []⟩ = s at hinv
    obtain ⟨j, st, res⟩ := s
    obtain ⟨h1, h2, h3, h4⟩ := hinv
    simp only at h1 h2 h3 h4 ⊢
    cases j with
    | true =>
      left
      obtain ⟨ha, hb, hc⟩ := h2 rfl
      have hst : st ≤ hi := by
        rcases hc with ⟨hc, _⟩ | ⟨_, _, e, he, hc, _⟩
        · omega
        · have := (hlm e he).2.2; omega
      refine ⟨(hJ' hi hhi (Int.le_refl _)).2 (by rw [hathi, ← h1]), st, ?_, ha, hst, ?_, ?_⟩
      · simp
      · intro p hp1 hp2
        exact (hJ' p (by omega) hp2).2 (hb p hp1)
      · rcases hc with ⟨hc, _⟩ | ⟨hc, hc2, _⟩
        · exact Or.inl hc
        · right
          rw [hJ' (st - 1) (by omega) (by omega), hc2]
          simp
    | false =>
      right
      cases hl : res.getLast? with
      | none =>
        right
        have hres : res = [] := by simpa using hl
        obtain ⟨ha, hb⟩ := h3 rfl hres
        subst ha
        refine ⟨?_, ?_, Or.inr (by simp [hl])⟩
        · intro p hp1 hp2 hjp
          rw [hJ' p hp1 hp2, at', cur_true_iff] at hjp
          rcases hjp with ⟨x, e, y, hxy, hj, _⟩ | ⟨h, _⟩
          · have : e ∈ logs := (List.mem_filter.1 (by rw [hxy]; simp : e ∈ logs.filter _)).1
            exact (hb e this).1 hj
          · cases h
        · intro e he hr hp1 hp2
          exact (hb e (by rw [← hlogs, ← hL]; simp [List.mem_filter, logsOf, he, hr, hp1, hp2])).2
      | some ab =>
        obtain ⟨a, b⟩ := ab
        left
        obtain ⟨ha, hb, hc, hd, he⟩ := h4 rfl a b hl
        have hbh : b ≤ hi := by
          rcases he with ⟨_, _, e, he, h, _⟩ | ⟨_, e, he, h, _⟩ <;> have := (hlm e he).2.2 <;> omega
        refine ⟨?_, a, b, by simp [hl], ha, hb, hbh, ?_, ?_, ?_⟩
        · rw [hJ' hi hhi (Int.le_refl _), hathi, ← h1]; simp
        · intro p hp1 hp2
          rw [hJ' p (by omega) hp2, hc p hp1]; simp
        · intro p hp1 hp2
          rw [hJ' p (by omega) (by omega)]
          exact hd p hp1 hp2
        · rcases he with ⟨he, hf, e, hel, h5, h6⟩ | ⟨he, e, hel, h5, h6⟩
          · refine Or.inl ⟨he, ?_, e, (hLm e (hlm e hel).1).1, (hLm e (hlm e hel).1).2, h5, h6⟩
            rcases hf with ⟨hf, _⟩ | ⟨hf, hf2, _⟩
            · exact Or.inl hf
            · right
              rw [hJ' (a - 1) (by omega) (by omega), hf2]; simp
          · exact Or.inr ⟨he, e, (hLm e (hlm e hel).1).1, (hLm e (hlm e hel).1).2, h5, h6⟩

/-- Nothing outside the user's membership is visible: every position in the range lies in the asked
interval, and there the user is joined, or is leaving, or is being invited. -/
theorem C42_sound {rows : List MEv} (hs : Sorted rows) {rooms : List String} {room : String}
    (hroom : room ∈ rooms) {lo hi : Int} (hlo : 0 ≤ lo) (hhi : lo ≤ hi) {a b : Int}
    (h : betweenForRooms rows rooms lo hi room = some (a, b)) {p : Int} (h0 : 0 < p) (ha : a ≤ p) (hb : p ≤ b) :
    lo ≤ p ∧ p ≤ hi ∧ (JoinedAt rows room p ∨ ∃ e ∈ rows, e.room = room ∧ e.nid = p ∧
      (((e.membership = "leave" ∨ e.membership = "ban") ∧ JoinedAt rows room (p - 1)) ∨
        e.membership = "invite")) := by
  rcases C42_range hs hroom hlo hhi with ⟨_, a', h1, h2, h3, h4, _⟩ | ⟨_, a', b', h1, h2, h3, h4, _, h6, h7⟩ |
    ⟨_, _, h1 | h1⟩
  · rw [h] at h1
    simp only [Option.some.injEq, Prod.mk.injEq] at h1
    obtain ⟨rfl, rfl⟩ := h1
    exact ⟨by omega, hb, Or.inl (h4 p ha hb)⟩
  · rw [h] at h1
    simp only [Option.some.injEq, Prod.mk.injEq] at h1
    obtain ⟨rfl, rfl⟩ := h1
    refine ⟨by omega, by omega, ?_⟩
    by_cases hpb : p < b
    · exact Or.inl (h6 p ha hpb)
    · have : p = b := by omega
      subst this
      right
      rcases h7 with ⟨h8, _, e, he, hr, hn, hm⟩ | ⟨_, e, he, hr, hn, hm⟩
      · exact ⟨e, he, hr, hn, Or.inl ⟨hm, h6 _ (by omega) (by omega)⟩⟩
      · exact ⟨e, he, hr, hn, Or.inr hm⟩
  · rw [h] at h1; cases h1
  · rw [h] at h1
    simp only [Option.some.injEq, Prod.mk.injEq] at h1
    omega

/-- Rooms that were not asked for are not in the result. -/
theorem C42_only_requested (rows : List MEv) (rooms : List String) (lo hi : Int) (room : String)
    (h : room ∉ rooms) : betweenForRooms rows rooms lo hi room = none := by
  have hsel : ∀ a b : Int, logsOf (selectIn rows rooms a b) room = [] := by
    intro a b
    simp only [logsOf, selectIn, List.filter_filter, List.filter_eq_nil_iff]
    intro e _ hc
    simp only [Bool.and_eq_true, decide_eq_true_eq, List.contains_eq_mem] at hc
    exact h (hc.1 ▸ hc.2.2)
  have hj : determineJoined (if lo ≠ 0 then selectIn rows rooms 0 lo else []) room = none := by
    have := determineJoined_spec (if lo ≠ 0 then selectIn rows rooms 0 lo else []) room
    split at this
    · rename_i h0
      rw [hsel] at this
      simpa [h0, cur] using this
    · rename_i h0
      simpa [h0, cur, logsOf] using this
  simp only [betweenForRooms, withData, hj]
  have hl : (selectIn rows rooms lo hi).filter (fun e => decide (e.room = room)) = [] := hsel lo hi
  simp [hl]

/-! ### The timeline itself -/

theorem cutAtGap_spec (l : List TEv) :
    (cutAtGap l) <+: l ∧ (∀ e ∈ (cutAtGap l).dropLast, e.missingPrevious = false) ∧
      (cutAtGap l ≠ l → ∃ e, (cutAtGap l).getLast? = some e ∧ e.missingPrevious = true) := by
  induction l with
  | nil => simp [cutAtGap]
  | cons e l ih =>
    simp only [cutAtGap]
    cases hm : e.missingPrevious with
    | true =>
      refine ⟨by simp [List.prefix_cons_iff], by simp, fun _ => ⟨e, by simp, hm⟩⟩
    | false =>
      simp only [Bool.false_eq_true, if_false]
      refine ⟨?_, ?_, ?_⟩
      · exact (List.cons_prefix_cons).2 ⟨rfl, ih.1⟩
      · intro x hx
        cases hc : cutAtGap l with
        | nil => rw [hc] at hx; simp at hx
        | cons y ys =>
          rw [hc, List.dropLast_cons_of_ne_nil (by simp)] at hx
          rcases List.mem_cons.1 hx with hx | hx
          · rw [hx]; exact hm
          · exact ih.2.1 x (by rw [hc]; exact hx)
      · intro hne
        have : cutAtGap l ≠ l := fun h => hne (by rw [h])
        obtain ⟨x, hx, hxm⟩ := ih.2.2 this
        refine ⟨x, ?_, hxm⟩
        rw [List.getLast?_cons, hx]; rfl

theorem collect_all (limit : Nat) (l : List TEv) (h : l.length ≤ limit) (acc : List TEv)
    (ha : acc.length + l.length ≤ limit) : collect limit acc l = acc ++ l := by
  induction l generalizing acc with
  | nil => simp [collect]
  | cons e l ih =>
    simp only [collect, List.length_append, List.length_cons, List.length_nil] at *
    split
    · have hl : l = [] := List.eq_nil_of_length_eq_zero (by omega)
      rw [hl]
    · rw [ih (by omega) (acc ++ [e]) (by simp; omega)]
      simp

/-- The timeline given to a user for a room is a run of the newest events of the room in the visible
range: it is a suffix of those events, has at most `limit` (and at most `MaxTimelineLimit`) of them,
no event in it except the first is missing its predecessor, and it only stops short of the limit at
the start of the range or at such a gap. -/
theorem C42_timeline {rows : List MEv} {tl : List TEv} {rooms : List String} {hi : Int} {maxLimit limit : Nat}
    {room : String} {t : List TEv} (h : latestEvents rows tl rooms hi maxLimit limit room = some t) :
    ∃ a b, betweenForRooms rows rooms 0 hi room = some (a, b) ∧
      let visible := tl.filter fun e =>
        decide (a ≤ e.nid) && decide (e.nid ≤ b) && decide (e.room = room) && !e.isState
      t <:+ visible ∧ t.length ≤ limit ∧ (maxLimit ≠ 0 → t.length ≤ maxLimit) ∧
      (∀ e ∈ t.tail, e.missingPrevious = false) ∧
      (t = visible ∨ t.length = (if maxLimit ≠ 0 ∧ limit > maxLimit then maxLimit else limit) ∨
        ∃ e, t.head? = some e ∧ e.missingPrevious = true) := by
  simp only [latestEvents, Option.map_eq_some_iff] at h
  obtain ⟨⟨a, b⟩, hr, ht⟩ := h
  refine ⟨a, b, hr, ?_⟩
  dsimp only at ht ⊢
  generalize hlim : (if maxLimit ≠ 0 ∧ limit > maxLimit then maxLimit else limit) = lim at ht
  have hlim1 : lim ≤ limit := by rw [← hlim]; split <;> omega
  have hlim2 : maxLimit ≠ 0 → lim ≤ maxLimit := by intro h0; rw [← hlim]; split <;> omega
  have hvis : (tl.reverse.filter fun e =>
      decide (a - 1 < e.nid) && decide (e.nid ≤ b) && decide (e.room = room) && !e.isState) =
      (tl.filter fun e =>
        decide (a ≤ e.nid) && decide (e.nid ≤ b) && decide (e.room = room) && !e.isState).reverse := by
    rw [← List.filter_reverse]
    apply List.filter_congr
    intro e _
    have : (a - 1 < e.nid) ↔ (a ≤ e.nid) := by omega
    simp [this]
  generalize (tl.filter fun e =>
    decide (a ≤ e.nid) && decide (e.nid ≤ b) && decide (e.room = room) && !e.isState) = vis at hvis ⊢
  simp only [selectLatestBetween, hvis] at ht
  obtain ⟨hc1, hc2, hc3⟩ := cutAtGap_spec (vis.reverse.take lim)
  generalize hc : cutAtGap (vis.reverse.take lim) = c at ht hc1 hc2 hc3
  have hclen : c.length ≤ lim := by
    have := hc1.length_le
    rw [List.length_take] at this
    omega
  rw [collect_all lim c hclen [] (by simpa using hclen), List.nil_append] at ht
  subst ht
  refine ⟨?_, by simp; omega, fun h0 => by have := hlim2 h0; simp; omega, ?_, ?_⟩
  · have h1 : c <+: vis.reverse := hc1.trans (List.take_prefix _ _)
    have := List.reverse_suffix.2 h1
    rwa [List.reverse_reverse] at this
  · intro e he
    rw [List.tail_reverse] at he
    exact hc2 e (List.mem_reverse.1 he)
  · by_cases hcc : c = vis.reverse.take lim
    · by_cases hfull : lim ≤ vis.length
      · right; left
        rw [hcc]; simp; omega
      · left
        rw [hcc, List.take_of_length_le (by simp; omega), List.reverse_reverse]
    · right; right
      obtain ⟨e, he, hm⟩ := hc3 hcc
      exact ⟨e, by rw [List.head?_reverse]; exact he, hm⟩

/-! ### Cases -/

/-- Room D of the comment at state/storage.go 871-877: join 1, leave 6, join 8, leave 10. -/
def exD : List MEv :=
  [⟨"D", 1, "join"⟩, ⟨"E", 3, "invite"⟩, ⟨"D", 6, "leave"⟩, ⟨"D", 8, "join"⟩, ⟨"D", 10, "leave"⟩,
   ⟨"E", 13, "join"⟩]

example : Sorted exD := by unfold Sorted; decide
example : betweenForRooms exD ["D", "E"] 1 15 "D" = some (8, 10) := by decide
example : betweenForRooms exD ["D", "E"] 1 15 "E" = some (13, 15) := by decide
example : betweenForRooms exD ["D", "E"] 1 9 "E" = some (3, 3) := by decide
example : betweenForRooms exD ["D", "E"] 0 5 "D" = some (1, 5) := by decide
example : latestEvents exD [⟨"D", 2, false, false⟩, ⟨"D", 8, false, true⟩, ⟨"D", 9, false, false⟩,
    ⟨"D", 12, false, false⟩] ["D"] 15 50 5 "D" =
    some [⟨"D", 8, false, true⟩, ⟨"D", 9, false, false⟩] := by decide

end Verif.Visibility
