import Verif.PrevBatch
import Verif.Util
/-! # C89: `prev_batch` tokens -/
namespace Verif.PrevBatch

/-! ## Specification -/

/-- Paging back from a token gives every event before the place `p`: nothing is left out before a timeline that starts there. -/
def NoGap (t p : Nat) : Prop := ∀ q, q < p → q < t

/-- A sync of a poller: the events `i … i + n - 1` of the upstream timeline, with the token for what is before them or none; or a
state block. -/
inductive Sync
  | room (limited token : Bool) (i n : Nat)
  | state (block : List Nat)

def Sync.op : Sync → Op
  | .room l t i n => .timeline l (if t then some i else none) ((List.range' i n).map some)
  | .state b => .state b

def opsOf (h : List Sync) : List Op := h.map Sync.op

/-- How far the timelines went. -/
def reached : List Sync → Nat
  | [] => 0
  | .room _ _ i n :: h => max (i + n) (reached h)
  | .state _ :: h => reached h

/-- Timelines have events and none ends before an earlier one did: no poller lags behind. -/
def InOrder (h : List Sync) : Prop :=
  ∀ a l t i n b, h = a ++ .room l t i n :: b → 0 < n ∧ reached a ≤ i + n

/-- Limited timelines have a token. -/
def LimitedToken (os : List Op) : Prop :=
  ∀ t items, .timeline true t items ∈ os → ∃ i l, t = some i ∧ items = some i :: l

/-! ## Parsing and filtering -/

theorem parse_range (token : Option Nat) (n : Nat) : ∀ (i : Nat) (first : Bool) (seen : List Nat), (∀ x ∈ seen, x < i) →
    parse token first seen ((List.range' i n).map some) =
      (List.range' i n).map fun p => { pos := p, tag := if first && p == i then token else none } := by
  induction n with
  | zero => intros; rfl
  | succ n ih =>
    intro i first seen hs
    rw [List.range'_succ]
    simp only [List.map_cons, parse]
    rw [if_neg (fun hm => Nat.lt_irrefl _ (hs i hm))]
    congr 1
    · simp
    · rw [ih (i + 1) false (i :: seen) (fun x hx => by
        rcases List.mem_cons.1 hx with hx | hx
        · omega
        · have := hs x hx; omega)]
      apply List.map_congr_left
      intro p hp
      have := List.mem_range'_1.1 hp
      have hne : (p == i) = false := by simp; omega
      simp [hne]

theorem mem_known {rows : List Row} {p : Nat} : known rows p = true ↔ ∃ r ∈ rows, r.pos = p := by
  simp [known]

theorem afterKnown_suffix (rows : List Row) (l : List Ev) : ∃ a, l = a ++ afterKnown rows l := by
  induction l with
  | nil => exact ⟨[], rfl⟩
  | cons e l ih =>
    unfold afterKnown
    split
    · obtain ⟨a, ha⟩ := ih; exact ⟨e :: a, by rw [List.cons_append, ← ha]⟩
    · split
      · exact ⟨[e], rfl⟩
      · exact ⟨[], rfl⟩

theorem afterKnown_new {rows : List Row} {l : List Ev} {e : Ev} (h : e ∈ afterKnown rows l) : known rows e.pos = false := by
  induction l with
  | nil => cases h
  | cons x l ih =>
    unfold afterKnown at h
    split at h
    · exact ih h
    · rename_i hn
      have hl : ∀ y ∈ l, known rows y.pos = false := by
        intro y hy
        cases hk : known rows y.pos
        · rfl
        · exact absurd (List.any_eq_true.2 ⟨y, hy, hk⟩) hn
      split at h
      · exact hl e h
      · rename_i hx
        rcases List.mem_cons.1 h with h | h
        · subst h; simpa using hx
        · exact hl e h

/-- What comes after a known event in the list is all that is left. -/
theorem afterKnown_after {rows : List Row} {a b : List Ev} {x : Ev} (hx : known rows x.pos = true) :
    ∃ a', b = a' ++ afterKnown rows (a ++ x :: b) := by
  induction a with
  | nil =>
    simp only [List.nil_append, afterKnown]
    split
    · exact afterKnown_suffix rows b
    · exact ⟨[], rfl⟩
  | cons y a ih =>
    obtain ⟨a', ha⟩ := ih
    refine ⟨a', ?_⟩
    rw [List.cons_append, afterKnown, if_pos (by
      rw [List.any_eq_true]; exact ⟨x, by simp, hx⟩)]
    exact ha

theorem afterKnown_none {rows : List Row} {l : List Ev} (h : ∀ e ∈ l, known rows e.pos = false) : afterKnown rows l = l := by
  cases l with
  | nil => rfl
  | cons e l =>
    rw [afterKnown, if_neg, if_neg (by rw [h e (by simp)]; simp)]
    rw [List.any_eq_true]
    rintro ⟨x, hx, hk⟩
    rw [h x (by simp [hx])] at hk
    cases hk

/-! ## Rows -/

/-- Positions follow the place in the table. -/
def Numbered (rows : List Row) : Prop := ∀ i (h : i < rows.length), rows[i].nid = i

theorem insert_numbered {rows : List Row} (h : Numbered rows) (b : Bool) (e : Ev) : Numbered (insertRow b rows e) := by
  unfold insertRow
  split
  · exact h
  · intro i hi
    rw [List.getElem_append]
    split
    · exact h i _
    · simp at hi ⊢
      omega

theorem nid_lt {rows : List Row} (h : Numbered rows) {r : Row} (hr : r ∈ rows) : r.nid < rows.length := by
  obtain ⟨i, hi, rfl⟩ := List.mem_iff_getElem.1 hr
  rw [h i hi]; exact hi

/-- The timeline rows are in upstream order, all before `m`, and tokens are where they belong. -/
structure Inv (rows : List Row) (m : Nat) : Prop where
  num : Numbered rows
  ord : ∀ a ∈ rows, ∀ b ∈ rows, a.isState = false → b.isState = false → a.nid < b.nid → a.pos < b.pos
  below : ∀ r ∈ rows, r.isState = false → r.pos < m
  tag : ∀ r ∈ rows, ∀ t, r.tag = some t → t = r.pos ∧ r.isState = false

theorem inv_mono {rows : List Row} {m m' : Nat} (h : Inv rows m) (hm : m ≤ m') : Inv rows m' :=
  ⟨h.num, h.ord, fun r hr hs => Nat.lt_of_lt_of_le (h.below r hr hs) hm, h.tag⟩

theorem insert_state {rows : List Row} {m : Nat} (h : Inv rows m) (p : Nat) : Inv (insertRow true rows { pos := p }) m := by
  refine ⟨insert_numbered h.num _ _, ?_, ?_, ?_⟩ <;> unfold insertRow <;> split
  · exact h.ord
  · intro a ha b hb sa sb
    simp only [List.mem_append, List.mem_singleton] at ha hb
    rcases ha with ha | ha
    · rcases hb with hb | hb
      · exact h.ord a ha b hb sa sb
      · subst hb; cases sb
    · subst ha; cases sa
  · exact h.below
  · intro r hr hs
    simp only [List.mem_append, List.mem_singleton] at hr
    rcases hr with hr | hr
    · exact h.below r hr hs
    · subst hr; cases hs
  · exact h.tag
  · intro r hr t ht
    simp only [List.mem_append, List.mem_singleton] at hr
    rcases hr with hr | hr
    · exact h.tag r hr t ht
    · subst hr; cases ht

theorem insert_timeline {rows : List Row} {e : Ev} (h : Inv rows e.pos) (ht : ∀ t, e.tag = some t → t = e.pos) :
    Inv (insertRow false rows e) (e.pos + 1) := by
  by_cases hk : known rows e.pos = true
  · rw [insertRow, if_pos hk]; exact inv_mono h (Nat.le_succ _)
  · have hn := insert_numbered h.num false e
    rw [insertRow, if_neg hk] at hn ⊢
    refine ⟨hn, ?_, ?_, ?_⟩
    · intro a ha b hb sa sb hlt
      simp only [List.mem_append, List.mem_singleton] at ha hb
      rcases ha with ha | ha
      · rcases hb with hb | hb
        · exact h.ord a ha b hb sa sb hlt
        · subst hb; exact h.below a ha sa
      · subst ha
        rcases hb with hb | hb
        · have := nid_lt h.num hb
          simp only at hlt
          omega
        · subst hb; simp at hlt
    · intro r hr hs
      simp only [List.mem_append, List.mem_singleton] at hr
      rcases hr with hr | hr
      · exact Nat.lt_succ_of_lt (h.below r hr hs)
      · subst hr; exact Nat.lt_succ_self _
    · intro r hr t htt
      simp only [List.mem_append, List.mem_singleton] at hr
      rcases hr with hr | hr
      · exact h.tag r hr t htt
      · subst hr; exact ⟨ht t htt, rfl⟩

theorem known_insert {rows : List Row} {b : Bool} {e : Ev} {p : Nat} :
    known (insertRow b rows e) p = true ↔ known rows p = true ∨ e.pos = p := by
  unfold insertRow
  split
  · rename_i hk
    constructor
    · exact .inl
    · rintro (h | h)
      · exact h
      · rw [← h]; exact hk
  · simp [known, List.any_append]

theorem known_fold (b : Bool) (l : List Ev) (rows : List Row) (p : Nat) :
    known (l.foldl (insertRow b) rows) p = true ↔ known rows p = true ∨ ∃ e ∈ l, e.pos = p := by
  induction l generalizing rows with
  | nil => simp
  | cons e l ih =>
    rw [List.foldl_cons, ih, known_insert]
    simp [or_assoc]

theorem fold_state {rows : List Row} {m : Nat} (h : Inv rows m) (b : List Nat) :
    Inv ((b.map fun p => ({ pos := p } : Ev)).foldl (insertRow true) rows) m := by
  induction b generalizing rows with
  | nil => exact h
  | cons p b ih => exact ih (insert_state h p)

/-- Storing events in ascending order, all at or after `m`. -/
theorem fold_timeline (l : List Ev) : ∀ {rows : List Row} {m : Nat}, Inv rows m → (∀ e ∈ l, m ≤ e.pos) →
    l.Pairwise (fun a b => a.pos < b.pos) → (∀ e ∈ l, ∀ t, e.tag = some t → t = e.pos) →
    ∀ k, m ≤ k → (∀ e ∈ l, e.pos < k) → Inv (l.foldl (insertRow false) rows) k := by
  induction l with
  | nil => intro rows m h _ _ _ k hk _; exact inv_mono h hk
  | cons e l ih =>
    intro rows m h hm hp ht k hk hlt
    rw [List.pairwise_cons] at hp
    rw [List.foldl_cons]
    exact ih (insert_timeline (inv_mono h (hm e (by simp))) (ht e (by simp))) (fun x hx => hp.1 x hx) hp.2
      (fun x hx => ht x (by simp [hx])) k (hlt e (by simp)) (fun x hx => hlt x (by simp [hx]))

theorem mark_mem {l : Bool} {inc evs : List Ev} {e : Ev} (h : e ∈ markFirst l inc evs) : ∃ x ∈ evs, x.pos = e.pos ∧ x.tag = e.tag := by
  cases evs with
  | nil => cases h
  | cons y evs =>
    rcases List.mem_cons.1 h with h | h
    · subst h; exact ⟨y, by simp, rfl, rfl⟩
    · exact ⟨e, by simp [h], rfl, rfl⟩

theorem mark_map (l : Bool) (inc evs : List Ev) : (markFirst l inc evs).map (·.pos) = evs.map (·.pos) := by
  cases evs <;> rfl

/-! ## In order -/

/-- Rows after syncs in order: the last place reached is known. -/
def Good (h : List Sync) (rows : List Row) : Prop :=
  Inv rows (reached h) ∧ (reached h ≠ 0 → known rows (reached h - 1) = true)

theorem reached_snoc_room (h : List Sync) (l t : Bool) (i n : Nat) : reached (h ++ [.room l t i n]) = max (reached h) (i + n) := by
  induction h with
  | nil => simp [reached]
  | cons s h ih => cases s <;> simp only [List.cons_append, reached, ih, Nat.max_assoc]

theorem reached_snoc_state (h : List Sync) (b : List Nat) : reached (h ++ [.state b]) = reached h := by
  induction h with
  | nil => rfl
  | cons s h ih => cases s <;> simp only [List.cons_append, reached, ih]

/-- What a timeline in order adds: events at or after the place reached, in order, up to its end. -/
theorem filter_spec {h : List Sync} {rows : List Row} (hg : Good h rows) (token : Option Nat) (i n : Nat) (hn : 0 < n)
    (hr : reached h ≤ i + n) (evs : List Ev)
    (hev : evs = (List.range' i n).map fun p => { pos := p, tag := if true && p == i then token else none }) :
    (∃ a, evs = a ++ filterToNew rows evs) ∧ (∀ e ∈ filterToNew rows evs, known rows e.pos = false → reached h ≤ e.pos) ∧
      (known rows (i + n - 1) = true ∨ ∃ e ∈ filterToNew rows evs, e.pos = i + n - 1) := by
  have hlen : evs.length = n := by rw [hev]; simp
  have hpos : evs.map (·.pos) = List.range' i n := by rw [hev]; simp [Function.comp_def]
  have hlast : ∃ e ∈ evs, e.pos = i + n - 1 := by
    have : i + n - 1 ∈ evs.map (·.pos) := by rw [hpos, List.mem_range'_1]; omega
    obtain ⟨e, he, hp⟩ := List.mem_map.1 this
    exact ⟨e, he, hp⟩
  have hmem : ∀ e ∈ evs, i ≤ e.pos ∧ e.pos < i + n := by
    intro e he
    have : e.pos ∈ evs.map (·.pos) := List.mem_map_of_mem he
    rw [hpos, List.mem_range'_1] at this
    exact this
  by_cases h1 : evs.length ≤ 1
  · have hf : filterToNew rows evs = evs := by rw [filterToNew, if_pos h1]
    rw [hf]
    refine ⟨⟨[], rfl⟩, fun e he hk => ?_, .inr hlast⟩
    have := hmem e he
    rcases Nat.lt_or_ge e.pos (reached h) with hlt | hge
    · have hk' := hg.2 (by omega)
      have : reached h - 1 = e.pos := by omega
      rw [this] at hk'
      rw [hk] at hk'; cases hk'
    · exact hge
  · have hf : filterToNew rows evs = afterKnown rows evs := by rw [filterToNew, if_neg h1]
    rw [hf]
    obtain ⟨a, ha⟩ := afterKnown_suffix rows evs
    refine ⟨⟨a, ha⟩, fun e he _ => ?_, ?_⟩
    · have hein : e ∈ evs := by rw [ha]; exact List.mem_append_right _ he
      have hb := hmem e hein
      rcases Nat.lt_or_ge e.pos (reached h) with hlt | hge
      · exfalso
        have hk' := hg.2 (by omega)
        have hin : reached h - 1 ∈ evs.map (·.pos) := by rw [hpos, List.mem_range'_1]; omega
        obtain ⟨x, hx, hxp⟩ := List.mem_map.1 hin
        obtain ⟨u, v, huv⟩ := List.append_of_mem hx
        obtain ⟨a', ha'⟩ := afterKnown_after (rows := rows) (a := u) (b := v) (x := x) (by rw [hxp]; exact hk')
        rw [← huv] at ha'
        have hev : e ∈ v := by rw [ha']; exact List.mem_append_right _ he
        have hpw : (evs.map (·.pos)).Pairwise (· < ·) := by rw [hpos]; exact List.pairwise_lt_range'
        rw [huv, List.map_append, List.map_cons, List.pairwise_append, List.pairwise_cons] at hpw
        have := hpw.2.1.1 e.pos (List.mem_map_of_mem hev)
        omega
      · exact hge
    · obtain ⟨e, he, hp⟩ := hlast
      cases hk : known rows (i + n - 1)
      · right
        rw [ha] at he
        rcases List.mem_append.1 he with he | he
        · -- something after it is known, or it itself is: but it is the last
          exfalso
          obtain ⟨u, v, huv⟩ := List.append_of_mem he
          have hall : ∀ y ∈ v ++ afterKnown rows evs, False := by
            intro y hy
            have hpw : (evs.map (·.pos)).Pairwise (· < ·) := by rw [hpos]; exact List.pairwise_lt_range'
            have hyin : y ∈ evs := by
              rw [ha, huv]
              simp only [List.append_assoc, List.cons_append, List.mem_append, List.mem_cons] at hy ⊢
              exact .inr (.inr hy)
            rw [ha, huv, List.append_assoc, List.cons_append, List.map_append, List.map_cons, List.pairwise_append,
              List.pairwise_cons] at hpw
            have := hpw.2.1.1 y.pos (List.mem_map_of_mem hy)
            have := hmem y hyin
            omega
          have hnil : afterKnown rows evs = [] :=
            List.eq_nil_iff_forall_not_mem.2 fun y hy => hall y (List.mem_append_right _ hy)
          -- the last event is unknown, so the rest is not empty
          have hne : ∀ l : List Ev, l ≠ [] → (∀ y ∈ l.getLast?, known rows y.pos = false) → afterKnown rows l ≠ [] := by
            intro l
            induction l with
            | nil => intro h; exact absurd rfl h
            | cons x l ih =>
              intro _ hl
              unfold afterKnown
              split
              · rename_i hany
                have hl0 : l ≠ [] := by intro e; subst e; simp at hany
                refine ih hl0 (fun y hy => hl y ?_)
                rw [List.getLast?_cons, Option.mem_def.1 hy]; rfl
              · split
                · rename_i hx
                  cases l with
                  | nil => have := hl x (by simp); rw [this] at hx; cases hx
                  | cons z l => simp
                · simp
          refine hne evs (List.ne_nil_of_length_pos (by omega)) ?_ hnil
          intro y hy
          have hv : v = [] := List.eq_nil_iff_forall_not_mem.2 fun y hy => hall y (List.mem_append_left _ hy)
          have : evs = u ++ [e] := by rw [ha, hnil, huv, hv]; simp
          rw [this] at hy
          simp at hy
          rw [← hy, hp]; exact hk
        · exact ⟨e, he, hp⟩
      · exact .inl rfl

theorem step_good {h : List Sync} {rows : List Row} (hg : Good h rows) (s : Sync)
    (ho : ∀ l t i n, s = .room l t i n → 0 < n ∧ reached h ≤ i + n) : Good (h ++ [s]) (step rows s.op) := by
  cases s with
  | state b =>
    rw [Good, reached_snoc_state]
    refine ⟨fold_state hg.1 b, fun hne => ?_⟩
    show known ((b.map _).foldl (insertRow true) rows) _ = true
    rw [known_fold]
    exact .inl (hg.2 hne)
  | room l t i n =>
    obtain ⟨hn, hr⟩ := ho l t i n rfl
    have hmax : max (reached h) (i + n) = i + n := Nat.max_eq_right hr
    rw [Good, reached_snoc_room, hmax]
    simp only [Sync.op, step]
    have hparse := parse_range (if t then some i else none) n i true [] (by simp)
    rw [hparse]
    generalize hev : ((List.range' i n).map fun p =>
      ({ pos := p, tag := if true && p == i then (if t then some i else none) else none } : Ev)) = evs
    obtain ⟨⟨a, ha⟩, hge, hlast⟩ := filter_spec hg _ i n hn hr evs hev.symm
    have hpos : evs.map (·.pos) = List.range' i n := by rw [← hev]; simp [Function.comp_def]
    have hmem : ∀ e ∈ filterToNew rows evs, e ∈ evs := fun e he => by rw [ha]; exact List.mem_append_right _ he
    have hrange : ∀ e ∈ evs, i ≤ e.pos ∧ e.pos < i + n := by
      intro e he
      have : e.pos ∈ evs.map (·.pos) := List.mem_map_of_mem he
      rw [hpos, List.mem_range'_1] at this
      exact this
    have htag : ∀ e ∈ evs, ∀ x, e.tag = some x → x = e.pos := by
      intro e he x hx
      rw [← hev] at he
      obtain ⟨p, _, rfl⟩ := List.mem_map.1 he
      simp only at hx
      split at hx
      · rename_i hp
        split at hx
        · cases hx; simp at hp; exact hp.symm
        · cases hx
      · cases hx
    have hknown : ∀ p, known ((markFirst l evs (filterToNew rows evs)).foldl (insertRow false) rows) p = true ↔
        known rows p = true ∨ ∃ e ∈ filterToNew rows evs, e.pos = p := by
      intro p
      rw [known_fold]
      have : (∃ e ∈ markFirst l evs (filterToNew rows evs), e.pos = p) ↔ ∃ e ∈ filterToNew rows evs, e.pos = p := by
        rw [← List.mem_map, ← List.mem_map, mark_map]
      rw [this]
    refine ⟨?_, fun _ => (hknown _).2 hlast⟩
    -- known events are not stored again
    by_cases hall : ∀ e ∈ filterToNew rows evs, known rows e.pos = false
    · refine fold_timeline _ hg.1 (fun e he => ?_) ?_ (fun e he x hx => ?_) (i + n) hr (fun e he => ?_)
      · obtain ⟨x, hx, hp, _⟩ := mark_mem he
        rw [← hp]; exact hge x hx (hall x hx)
      · have : ((markFirst l evs (filterToNew rows evs)).map (·.pos)).Pairwise (· < ·) := by
          rw [mark_map]
          have hpw : (evs.map (·.pos)).Pairwise (· < ·) := by rw [hpos]; exact List.pairwise_lt_range'
          rw [ha, List.map_append, List.pairwise_append] at hpw
          exact hpw.2.1
        exact List.pairwise_map.1 this
      · obtain ⟨y, hy, hp, ht⟩ := mark_mem he
        rw [← hp]; exact htag y (hmem y hy) x (by rw [ht]; exact hx)
      · obtain ⟨x, hx, hp, _⟩ := mark_mem he
        rw [← hp]; exact (hrange x (hmem x hx)).2
    · -- only a single event is not filtered
      have hex : ∃ e ∈ filterToNew rows evs, known rows e.pos = true := by
        apply Classical.byContradiction
        intro hno
        refine hall fun e he => ?_
        cases hk : known rows e.pos
        · rfl
        · exact absurd ⟨e, he, hk⟩ hno
      obtain ⟨e, he, hk⟩ := hex
      have h1 : evs.length ≤ 1 := by
        apply Classical.byContradiction
        intro h1
        rw [filterToNew, if_neg h1] at he
        rw [afterKnown_new he] at hk; cases hk
      rw [filterToNew, if_pos h1] at he ⊢
      cases evs with
      | nil => cases he
      | cons x evs =>
        cases evs with
        | cons y evs => simp at h1
        | nil =>
          rw [List.mem_singleton] at he
          subst he
          simp only [markFirst, List.foldl_cons, List.foldl_nil, insertRow]
          rw [if_pos hk]
          exact inv_mono hg.1 hr

theorem run_good (h : List Sync) (ho : InOrder h) : Good h (run [] (opsOf h)) := by
  induction h using Verif.Util.snocRec with
  | nil =>
    refine ⟨⟨fun i hi => (by simp [run, opsOf] at hi), ?_, ?_, ?_⟩, fun hne => absurd rfl hne⟩ <;>
      (intro r hr; simp [run, opsOf] at hr)
  | append_singleton h s ih =>
    have e : run [] (opsOf (h ++ [s])) = step (run [] (opsOf h)) s.op := by simp [run, opsOf, List.foldl_append]
    rw [e]
    refine step_good (ih ?_) s ?_
    · intro a l t i n b hb
      exact ho a l t i n (b ++ [s]) (by rw [hb]; simp)
    · intro l t i n hs
      exact ho h l t i n [] (by rw [hs])

theorem cut_mem {l : List Row} {r : Row} (h : r ∈ cutMissing l) : r ∈ l := by
  induction l with
  | nil => cases h
  | cons x l ih =>
    unfold cutMissing at h
    split at h
    · exact List.mem_cons.2 (.inl (List.mem_singleton.1 h))
    · rcases List.mem_cons.1 h with h | h
      · exact List.mem_cons.2 (.inl h)
      · exact List.mem_cons_of_mem _ (ih h)

theorem latest_mem {rows : List Row} {lo hi k : Nat} {r : Row} (h : r ∈ latest rows lo hi k) :
    r ∈ rows ∧ lo ≤ r.nid ∧ r.nid ≤ hi ∧ r.isState = false := by
  have := List.mem_filter.1 (List.mem_reverse.1 (List.mem_of_mem_take (cut_mem h)))
  simp only [Bool.and_eq_true, decide_eq_true_eq, Bool.not_eq_true'] at this
  exact ⟨this.1, this.2.1.1, this.2.1.2, this.2.2⟩

/-! ## C89 -/

/-- C89, partial: if no poller lags behind, then whatever token comes with a timeline, paging back from it misses nothing before the
first event of the timeline.
Missing: pollers that lag behind, and that there is a token, see the violations. -/
theorem C89_no_gap_partial (h : List Sync) (ho : InOrder h) (lo hi limit : Nat) (e : Row)
    (he : (latest (run [] (opsOf h)) lo hi limit).getLast? = some e) (t : Nat)
    (ht : Closest (run [] (opsOf h)) e.nid t) : NoGap t e.pos := by
  obtain ⟨hi, _⟩ := run_good h ho
  obtain ⟨r, hr, htag, hle⟩ := ht
  obtain ⟨rfl, hs⟩ := hi.tag r hr t htag
  obtain ⟨her, _, _, hes⟩ := latest_mem (List.mem_of_getLast? he)
  intro q hq
  rcases Nat.lt_or_ge e.nid r.nid with hlt | hge
  · exact Nat.lt_trans hq (hi.ord e her r hr hes hs hlt)
  · have hn : e.nid = r.nid := Nat.le_antisymm hle hge
    obtain ⟨i, hi1, he1⟩ := List.mem_iff_getElem.1 her
    obtain ⟨j, hj1, hr1⟩ := List.mem_iff_getElem.1 hr
    have a := hi.num i hi1
    have b := hi.num j hj1
    rw [he1] at a
    rw [hr1] at b
    have : i = j := by omega
    subst this
    have : e = r := he1.symm.trans hr1
    rw [← this]; exact hq

/-- Every row without its predecessor has its own token. -/
def GapTag (rows : List Row) : Prop := ∀ r ∈ rows, r.missing = true → r.tag = some r.pos

theorem insert_gap {rows : List Row} (b : Bool) {e : Ev} (h : GapTag rows) (he : e.missing = true → e.tag = some e.pos) :
    GapTag (insertRow b rows e) := by
  unfold insertRow
  split
  · exact h
  · intro r hr hm
    simp only [List.mem_append, List.mem_singleton] at hr
    rcases hr with hr | hr
    · exact h r hr hm
    · subst hr; exact he hm

theorem fold_gap (b : Bool) (l : List Ev) {rows : List Row} (h : GapTag rows) (hl : ∀ e ∈ l, e.missing = true → e.tag = some e.pos) :
    GapTag (l.foldl (insertRow b) rows) := by
  induction l generalizing rows with
  | nil => exact h
  | cons e l ih => exact ih (insert_gap b h (hl e (by simp))) (fun x hx => hl x (by simp [hx]))

theorem parse_plain (token : Option Nat) (items : List (Option Nat)) : ∀ (first : Bool) (seen : List Nat),
    ∀ e ∈ parse token first seen items, e.missing = false ∧ e.pos ∉ seen := by
  induction items with
  | nil => intro _ _ e he; cases he
  | cons x items ih =>
    intro first seen e he
    cases x with
    | none => exact ih false seen e he
    | some p =>
      unfold parse at he
      split at he
      · exact ih false seen e he
      · rename_i hp
        rcases List.mem_cons.1 he with he | he
        · subst he; exact ⟨rfl, hp⟩
        · have := ih false (p :: seen) e he
          exact ⟨this.1, fun h => this.2 (List.mem_cons_of_mem _ h)⟩

theorem filter_sub {rows : List Row} {l : List Ev} {e : Ev} (h : e ∈ filterToNew rows l) : e ∈ l := by
  unfold filterToNew at h
  split at h
  · exact h
  · obtain ⟨a, ha⟩ := afterKnown_suffix rows l
    rw [ha]; exact List.mem_append_right _ h

theorem step_gap {rows : List Row} (h : GapTag rows) (o : Op) (ho : LimitedToken [o]) : GapTag (step rows o) := by
  cases o with
  | state b =>
    refine fold_gap true _ h (fun e he hm => ?_)
    obtain ⟨p, _, rfl⟩ := List.mem_map.1 he
    cases hm
  | timeline l t items =>
    refine fold_gap false _ h (fun e he hm => ?_)
    cases hf : filterToNew rows (parse t true [] items) with
    | nil => rw [hf] at he; cases he
    | cons x evs =>
      have hsub : ∀ y, y = x ∨ y ∈ evs → y ∈ parse t true [] items := fun y hy =>
        filter_sub (rows := rows) (by rw [hf]; exact List.mem_cons.2 hy)
      rw [hf] at he
      rcases List.mem_cons.1 he with he | he
      · subst he
        simp only [Bool.and_eq_true, decide_eq_true_eq] at hm
        obtain ⟨hl, hh⟩ := hm
        subst hl
        obtain ⟨i, l, rfl, rfl⟩ := ho t items (by simp)
        simp only [parse, List.not_mem_nil, if_false, if_true, List.head?_cons, Option.map_some, Option.some.injEq] at hh
        have hx := hsub x (.inl rfl)
        simp only [parse, List.not_mem_nil, if_false, if_true] at hx
        rcases List.mem_cons.1 hx with hx | hx
        · subst hx; rfl
        · exact absurd (parse_plain _ _ _ _ x hx).2 (by rw [← hh]; simp)
      · rw [(parse_plain _ _ _ _ e (hsub e (.inr he))).1] at hm; cases hm

/-- C89: if limited timelines come with a token, then a timeline that starts where earlier events are not stored has a token, and
its own is among those that may be given. Pollers may lag behind here. -/
theorem C89_gap (os : List Op) (ho : LimitedToken os) (lo hi limit : Nat) (e : Row)
    (he : (latest (run [] os) lo hi limit).getLast? = some e) (hm : e.missing = true) :
    Closest (run [] os) e.nid e.pos := by
  have gen : ∀ (os : List Op) (rows : List Row), GapTag rows → LimitedToken os → GapTag (run rows os) := by
    intro os
    induction os with
    | nil => intro rows h _; exact h
    | cons o os ih =>
      intro rows h ho
      exact ih _ (step_gap h o (fun t items hi => ho t items (by rw [List.mem_singleton.1 hi]; simp)))
        (fun t items hi => ho t items (by simp [hi]))
  have hg := gen os [] (fun r hr => (by cases hr)) ho
  have her := (latest_mem (List.mem_of_getLast? he)).1
  exact ⟨e, her, hg e her hm, Nat.le_refl _⟩

/-! ### Violations -/

instance (rows : List Row) (nid t : Nat) : Decidable (Closest rows nid t) :=
  inferInstanceAs (Decidable (∃ r ∈ rows, r.tag = some t ∧ nid ≤ r.nid))

/-- C89 is violated by short timelines: there is no token for a timeline that starts inside the newest sync v2 timeline, although
there are earlier events, so the client cannot page back. -/
theorem C89_violated_none :
    let rows := run [] (opsOf [.room false true 0 3, .room false true 3 2])
    (latest rows 0 10 1).map (·.pos) = [4] ∧ ∀ r ∈ rows, r.tag ≠ none → r.nid < 4 := by decide +kernel

/-- C89 is violated if the first event of a timeline is known: the token is dropped with it, here between a first timeline and
one that overlaps it. -/
theorem C89_violated_overlap :
    let rows := run [] (opsOf [.room false true 0 3, .room false true 2 3])
    (latest rows 0 10 2).map (·.pos) = [4, 3] ∧ ∀ r ∈ rows, r.tag ≠ none → r.nid = 0 := by decide +kernel

/-- C89 is violated if the first event of a timeline cannot be parsed: the token is dropped, although the timeline is limited. -/
theorem C89_violated_unparsed :
    let rows := run [] [.timeline true (some 3) [none, some 4, some 5]]
    (latest rows 0 10 5).map (·.pos) = [5, 4] ∧ ∀ r ∈ rows, r.tag = none := by decide +kernel

/-- C89 is violated if a poller lags behind: one poller skipped from 0 to 5 and 6, then a slower one brings 1 to 4. The timeline
starts with 6, its only token is 1, and paging back from there the client never gets 5. -/
theorem C89_violated_lagging :
    let rows := run [] (opsOf [.room false true 0 1, .room true true 5 2, .room false true 1 4])
    (latest rows 0 10 5).map (fun r => (r.nid, r.pos)) = [(6, 4), (5, 3), (4, 2), (3, 1), (2, 6)] ∧ Closest rows 2 1 ∧
      (∀ r ∈ rows, 2 ≤ r.nid → r.tag ≠ none → r.tag = some 1) ∧ ¬ NoGap 1 6 := by
  refine ⟨by decide +kernel, by decide +kernel, by decide +kernel, fun h => ?_⟩
  have := h 5 (by omega)
  omega

/-- C89 is violated as to the nearest token: the query has no order, so that a later one may be given, from which the client pages
through events it already has. -/
theorem C89_violated_far :
    let rows := run [] (opsOf [.room true true 0 2, .room false true 2 2, .room false true 4 2])
    (latest rows 0 10 4).map (·.pos) = [5, 4, 3, 2] ∧ Closest rows 2 2 ∧ Closest rows 2 4 := by decide +kernel

/-- C89 is violated for users who left: the timeline ends at their leaving, position 3, but the token may be of a later event. -/
theorem C89_violated_left :
    let rows := run [] (opsOf [.room true true 0 2, .room false true 2 2, .room false true 4 2])
    (latest rows 0 3 1).map (·.pos) = [3] ∧ Closest rows 3 4 ∧ ¬ Closest rows 3 2 := by decide +kernel

/-- The hypotheses of `C89_no_gap_partial` and `C89_gap` are met by overlapping timelines, one with a single event, and a gap. -/
example :
    let h : List Sync := [.room false true 0 3, .state [1, 5], .room false true 1 3, .room false true 3 1, .room true true 7 3]
    InOrder h ∧ LimitedToken (opsOf h) ∧ ((latest (run [] (opsOf h)) 0 20 10).getLast?.map fun e => (e.pos, e.missing)) = some (7, true) := by
  refine ⟨?_, ?_, by decide +kernel⟩
  · intro a l t i n b hb
    rcases a with _ | ⟨_, _ | ⟨_, _ | ⟨_, _ | ⟨_, _ | ⟨_, _ | ⟨_, _⟩⟩⟩⟩⟩⟩ <;> simp at hb
    · obtain ⟨⟨rfl, rfl, rfl, rfl⟩, _⟩ := hb; simp [reached]
    · obtain ⟨rfl, rfl, ⟨rfl, rfl, rfl, rfl⟩, _⟩ := hb; simp [reached]
    · obtain ⟨rfl, rfl, rfl, ⟨rfl, rfl, rfl, rfl⟩, _⟩ := hb; simp [reached]
    · obtain ⟨rfl, rfl, rfl, rfl, ⟨rfl, rfl, rfl, rfl⟩, _⟩ := hb; simp [reached]
  · intro t items hm
    simp [opsOf, Sync.op] at hm
    obtain ⟨rfl, rfl⟩ := hm
    exact ⟨7, [some 8, some 9], rfl, rfl⟩

end Verif.PrevBatch
