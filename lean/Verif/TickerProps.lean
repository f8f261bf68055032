import Verif.Ticker
/-! C54: device-data notifications are batched but never lost. -/
namespace Verif.Ticker

/-! ### Specification -/

/-- A payload lists a device. -/
def Listed (p : List (String × List String)) (k : Pid) : Prop := ∃ ds, (k.1, ds) ∈ p ∧ k.2 ∈ ds

instance (p : List (String × List String)) (k : Pid) : Decidable (Listed p k) :=
  decidable_of_iff (∃ e ∈ p, e.1 = k.1 ∧ k.2 ∈ e.2)
    ⟨fun ⟨e, h1, h2, h3⟩ => ⟨e.2, by rw [← h2]; exact h1, h3⟩, fun ⟨ds, h1, h2⟩ => ⟨_, h1, rfl, h2⟩⟩

/-- The history from a state. -/
def from' (s : State) (ops : List Op) : State × List (List (String × List String)) :=
  ops.foldl (fun s o => ((step s.1 o).1, s.2 ++ (step s.1 o).2.toList)) (s, [])

/-- Number of payloads that list the device. -/
def listings (outs : List (List (String × List String))) (k : Pid) : Nat := (outs.filter fun p => decide (Listed p k)).length

/-- How often the device was remembered. -/
def remembered (ops : List Op) (k : Pid) : Nat := (ops.filter fun o => decide (o = .remember k)).length

/-! ### Payloads -/

theorem group_snoc (l : List Pid) (p : Pid) : group (l ++ [p]) =
    if (group l).any (fun e => decide (e.1 = p.1)) then (group l).map fun e => if e.1 = p.1 then (e.1, e.2 ++ [p.2]) else e
    else group l ++ [(p.1, [p.2])] := by
  unfold group; rw [List.foldl_append]; rfl

/-- Each user once, with their devices in order. -/
theorem group_spec (l : List Pid) :
    ((group l).map (·.1)).Nodup ∧ (∀ u, u ∈ (group l).map (·.1) ↔ u ∈ l.map (·.1)) ∧
    ∀ e ∈ group l, e.2 = (l.filter fun p => decide (p.1 = e.1)).map (·.2) := by
  induction l using Verif.Util.snocRec with
  | nil => simp [group]
  | append_singleton l p ih =>
    obtain ⟨h1, h2, h3⟩ := ih
    rw [group_snoc]
    by_cases ha : (group l).any (fun e => decide (e.1 = p.1)) = true
    · rw [if_pos ha]
      have hmap : ((group l).map fun e => if e.1 = p.1 then (e.1, e.2 ++ [p.2]) else e).map (·.1) = (group l).map (·.1) := by
        rw [List.map_map]
        apply List.map_congr_left
        intro e _
        simp only [Function.comp]
        split <;> rfl
      rw [hmap]
      refine ⟨h1, ?_, ?_⟩
      · intro u
        rw [h2]
        simp only [List.any_eq_true, decide_eq_true_eq] at ha
        obtain ⟨e, he, heq⟩ := ha
        have : p.1 ∈ l.map (·.1) := (h2 _).1 (List.mem_map.2 ⟨e, he, heq⟩)
        simp only [List.map_append, List.map_cons, List.map_nil, List.mem_append, List.mem_singleton]
        constructor
        · exact Or.inl
        · rintro (h | h)
          · exact h
          · rw [h]; exact this
      · intro e he
        obtain ⟨x, hx, rfl⟩ := List.mem_map.1 he
        have := h3 x hx
        by_cases hxp : x.1 = p.1
        · simp [hxp, List.filter_append, this]
        · simp [hxp, List.filter_append, this, Ne.symm hxp]
    · rw [if_neg ha]
      have hnot : p.1 ∉ (group l).map (·.1) := by
        intro hm
        obtain ⟨e, he, heq⟩ := List.mem_map.1 hm
        exact ha (List.any_eq_true.2 ⟨e, he, by simpa using heq⟩)
      refine ⟨?_, ?_, ?_⟩
      · rw [List.map_append, List.nodup_append]
        refine ⟨h1, by simp, ?_⟩
        intro a hma b hb he
        simp at hb
        exact hnot (by rw [← hb, ← he]; exact hma)
      · intro u
        simp only [List.map_append, List.mem_append, h2]
        simp
      · intro e he
        rcases List.mem_append.1 he with he | he
        · have hne : ¬ p.1 = e.1 := fun h => hnot (by rw [h]; exact List.mem_map_of_mem he)
          simp [List.filter_append, hne, h3 e he]
        · rw [List.mem_singleton.1 he]
          have : l.filter (fun q => decide (q.1 = p.1)) = [] := by
            rw [List.filter_eq_nil_iff]
            intro q hq hqp
            apply hnot
            rw [h2]
            exact List.mem_map.2 ⟨q, hq, by simpa using hqp⟩
          simp [List.filter_append, this]

theorem listed_group (l : List Pid) (k : Pid) : Listed (group l) k ↔ k ∈ l := by
  obtain ⟨_, h2, h3⟩ := group_spec l
  constructor
  · rintro ⟨ds, h, hk⟩
    have := h3 _ h
    simp only at this
    rw [this] at hk
    obtain ⟨q, hq, he⟩ := List.mem_map.1 hk
    obtain ⟨hq1, hq2⟩ := List.mem_filter.1 hq
    have : q = k := Prod.ext (by simpa using hq2) he
    rw [← this]; exact hq1
  · intro hk
    have hu := (h2 k.1).2 (List.mem_map_of_mem hk)
    obtain ⟨e, he, heq⟩ := List.mem_map.1 hu
    refine ⟨e.2, by rw [← heq]; exact he, ?_⟩
    rw [h3 e he]
    exact List.mem_map.2 ⟨k, List.mem_filter.2 ⟨hk, by simp [heq]⟩, rfl⟩

/-! ### Well-formed states -/

def Wf (s : State) : Prop := (s.act.map (·.id)).Nodup ∧
  ∀ e ∈ s.act, e.visited.Nodup ∧ ∀ k, e.pend = some k → k ∈ e.visited

theorem find_mem {s : State} {id : Nat} {e : Emission} (h : find s id = some e) : e ∈ s.act ∧ e.id = id :=
  ⟨List.mem_of_find?_eq_some h, by simpa using List.find?_some h⟩

theorem find_none {s : State} {id : Nat} (h : find s id = none) : ∀ e ∈ s.act, e.id ≠ id := by
  simpa [find] using h

theorem mem_replace {s : State} {e e' x : Emission} (he : e ∈ s.act) (hid : e'.id = e.id) :
    x ∈ replace s e' ↔ x = e' ∨ (x ∈ s.act ∧ x.id ≠ e.id) := by
  simp only [replace, List.mem_map]
  constructor
  · rintro ⟨y, hy, rfl⟩
    by_cases h : y.id = e'.id
    · simp [h]
    · rw [if_neg h]; rw [hid] at h; exact Or.inr ⟨hy, h⟩
  · rintro (rfl | ⟨h1, h2⟩)
    · exact ⟨e, he, by rw [if_pos hid.symm]⟩
    · exact ⟨x, h1, by rw [if_neg (by rw [hid]; exact h2)]⟩

theorem replace_ids {s : State} {e' : Emission} : (replace s e').map (·.id) = s.act.map (·.id) := by
  simp only [replace, List.map_map]
  apply List.map_congr_left
  intro x _
  simp only [Function.comp]
  split
  · rename_i h; exact h.symm
  · rfl

theorem eq_of_id {s : State} (h : Wf s) {e x : Emission} (he : e ∈ s.act) (hx : x ∈ s.act) (hid : x.id = e.id) : x = e := by
  have := h.1
  generalize s.act = l at he hx this
  induction l with
  | nil => cases he
  | cons a l ih =>
    simp only [List.map_cons, List.nodup_cons] at this
    rcases List.mem_cons.1 he with he | he <;> rcases List.mem_cons.1 hx with hx | hx
    · rw [he, hx]
    · exact absurd (List.mem_map.2 ⟨x, hx, by rw [hid, he]⟩) this.1
    · exact absurd (List.mem_map.2 ⟨e, he, by rw [← hid, hx]⟩) this.1
    · exact ih he hx this.2

theorem wf_step {s : State} (h : Wf s) (o : Op) : Wf (step s o).1 := by
  cases o with
  | remember k =>
    refine ⟨?_, ?_⟩
    · simp only [step, List.map_map]; exact h.1
    · intro e he
      obtain ⟨x, hx, rfl⟩ := List.mem_map.1 he
      exact h.2 x hx
  | start id =>
    simp only [step]
    cases hf : find s id with
    | some e => exact h
    | none =>
      refine ⟨?_, ?_⟩
      · simp only [List.map_append, List.map_cons, List.map_nil]
        rw [List.nodup_append]
        refine ⟨h.1, by simp, ?_⟩
        intro a ha b hb he
        obtain ⟨x, hx, rfl⟩ := List.mem_map.1 ha
        exact find_none hf x hx (he.trans (List.mem_singleton.1 hb))
      · intro e he
        rcases List.mem_append.1 he with he | he
        · exact h.2 e he
        · rw [List.mem_singleton.1 he]; exact ⟨by simp, by intro k hk; cases hk⟩
  | visit id k =>
    simp only [step]
    cases hf : find s id with
    | none => exact h
    | some e =>
      simp only
      split
      · rename_i hc
        obtain ⟨he, _⟩ := find_mem hf
        refine ⟨by rw [replace_ids]; exact h.1, ?_⟩
        intro x hx
        rcases (mem_replace he (by rfl)).1 hx with rfl | ⟨hx, _⟩
        · refine ⟨?_, by intro q hq; simp only [Option.some.injEq] at hq; simp [hq]⟩
          simp only
          rw [List.nodup_append]
          refine ⟨(h.2 e he).1, by simp, ?_⟩
          intro a ha b hb hab
          rw [List.mem_singleton.1 hb] at hab
          exact hc.2.1 (by rw [← hab]; exact ha)
        · exact h.2 x hx
      · exact h
  | delete id =>
    simp only [step]
    cases hf : find s id with
    | none => exact h
    | some e =>
      simp only
      cases hp : e.pend with
      | none => exact h
      | some k =>
        obtain ⟨he, _⟩ := find_mem hf
        refine ⟨?_, ?_⟩
        · rw [List.map_map]
          exact (replace_ids (s := s) (e' := { e with pend := none })) ▸ h.1
        · intro x hx
          obtain ⟨y, hy, rfl⟩ := List.mem_map.1 hx
          rcases (mem_replace he (by rfl)).1 hy with rfl | ⟨hy, _⟩
          · exact ⟨(h.2 e he).1, by intro q hq; cases hq⟩
          · exact h.2 y hy
  | finish id =>
    simp only [step]
    cases hf : find s id with
    | none => exact h
    | some e =>
      simp only
      split
      · exact ⟨(List.filter_sublist.map _).nodup h.1, fun x hx => h.2 x (List.mem_filter.1 hx).1⟩
      · exact h

theorem from'_snoc (s : State) (ops : List Op) (o : Op) :
    from' s (ops ++ [o]) = ((step (from' s ops).1 o).1, (from' s ops).2 ++ (step (from' s ops).1 o).2.toList) := by
  simp only [from', List.foldl_append, List.foldl_cons, List.foldl_nil]

theorem from'_append (s : State) (a b : List Op) :
    from' s (a ++ b) = ((from' (from' s a).1 b).1, (from' s a).2 ++ (from' (from' s a).1 b).2) := by
  induction b using Verif.Util.snocRec with
  | nil => simp [from']
  | append_singleton b o ih =>
    rw [← List.append_assoc, from'_snoc, from'_snoc, ih]
    simp

theorem wf_from' {s : State} (h : Wf s) (ops : List Op) : Wf (from' s ops).1 := by
  induction ops using Verif.Util.snocRec with
  | nil => exact h
  | append_singleton ops o ih => rw [from'_snoc]; exact wf_step ih o

theorem wf_init : Wf {} := ⟨by simp, by simp⟩

theorem run_eq (ops : List Op) : run ops = from' {} ops := rfl

/-! ### Never lost -/

/-- The device will be listed: in a payload being made, or it is still in the map (and, if `b`, an emission in progress must visit it). -/
def Owed (b : Bool) (k : Pid) (s : State) : Prop :=
  (∃ e ∈ s.act, k ∈ e.visited) ∨ (k ∈ s.map ∧ (b = true → ∃ e ∈ s.act, k ∈ e.must))

theorem owed_step {b : Bool} {k : Pid} {s : State} (hw : Wf s) (h : Owed b k s) (o : Op) :
    Owed b k (step s o).1 ∨ ∃ p, (step s o).2 = some p ∧ Listed p k := by
  cases o with
  | remember q =>
    left
    rcases h with ⟨e, he, hk⟩ | ⟨hm, hb⟩
    · exact Or.inl ⟨_, List.mem_map_of_mem he, hk⟩
    · refine Or.inr ⟨?_, fun h => ?_⟩
      · simp only [step]; split
        · exact hm
        · simp [hm]
      · obtain ⟨e, he, hk⟩ := hb h
        exact ⟨_, List.mem_map_of_mem he, hk⟩
  | start id =>
    left
    simp only [step]
    cases hf : find s id with
    | some e => exact h
    | none =>
      rcases h with ⟨e, he, hk⟩ | ⟨hm, hb⟩
      · exact Or.inl ⟨e, by simp [he], hk⟩
      · refine Or.inr ⟨hm, fun h => ?_⟩
        obtain ⟨e, he, hk⟩ := hb h
        exact ⟨e, by simp [he], hk⟩
  | visit id q =>
    left
    simp only [step]
    cases hf : find s id with
    | none => exact h
    | some e =>
      simp only
      split
      · obtain ⟨he, _⟩ := find_mem hf
        rcases h with ⟨x, hx, hk⟩ | ⟨hm, hb⟩
        · left
          by_cases hid : x.id = e.id
          · have := eq_of_id hw he hx hid; subst this
            exact ⟨_, (mem_replace he (by rfl)).2 (Or.inl rfl), by simp [hk]⟩
          · exact ⟨x, (mem_replace he (by rfl)).2 (Or.inr ⟨hx, hid⟩), hk⟩
        · by_cases hq : k = q
          · left; exact ⟨_, (mem_replace he (by rfl)).2 (Or.inl rfl), by simp [hq]⟩
          · right
            refine ⟨hm, fun h => ?_⟩
            obtain ⟨x, hx, hk⟩ := hb h
            by_cases hid : x.id = e.id
            · have := eq_of_id hw he hx hid; subst this
              exact ⟨_, (mem_replace he (by rfl)).2 (Or.inl rfl), List.mem_filter.2 ⟨hk, by simpa using hq⟩⟩
            · exact ⟨x, (mem_replace he (by rfl)).2 (Or.inr ⟨hx, hid⟩), hk⟩
      · exact h
  | delete id =>
    left
    simp only [step]
    cases hf : find s id with
    | none => exact h
    | some e =>
      simp only
      cases hp : e.pend with
      | none => exact h
      | some q =>
        obtain ⟨he, _⟩ := find_mem hf
        rcases h with ⟨x, hx, hk⟩ | ⟨hm, hb⟩
        · left
          by_cases hid : x.id = e.id
          · have := eq_of_id hw he hx hid; subst this
            exact ⟨_, List.mem_map_of_mem ((mem_replace he (by rfl)).2 (Or.inl rfl)), hk⟩
          · exact ⟨_, List.mem_map_of_mem ((mem_replace he (by rfl)).2 (Or.inr ⟨hx, hid⟩)), hk⟩
        · by_cases hq : k = q
          · left
            subst hq
            exact ⟨_, List.mem_map_of_mem ((mem_replace he (by rfl)).2 (Or.inl rfl)), (hw.2 e he).2 k hp⟩
          · right
            refine ⟨List.mem_filter.2 ⟨hm, by simpa using hq⟩, fun h => ?_⟩
            obtain ⟨x, hx, hk⟩ := hb h
            by_cases hid : x.id = e.id
            · have := eq_of_id hw he hx hid; subst this
              exact ⟨_, List.mem_map_of_mem ((mem_replace he (by rfl)).2 (Or.inl rfl)), List.mem_filter.2 ⟨hk, by simpa using hq⟩⟩
            · exact ⟨_, List.mem_map_of_mem ((mem_replace he (by rfl)).2 (Or.inr ⟨hx, hid⟩)),
                List.mem_filter.2 ⟨hk, by simpa using hq⟩⟩
  | finish id =>
    simp only [step]
    cases hf : find s id with
    | none => exact Or.inl h
    | some e =>
      simp only
      split
      · rename_i hc
        obtain ⟨he, heid⟩ := find_mem hf
        have hstay : ∀ x ∈ s.act, x.id ≠ e.id → x ∈ s.act.filter fun x => decide (x.id ≠ id) := fun x hx hne =>
          List.mem_filter.2 ⟨hx, by simp only [decide_eq_true_eq]; rw [← heid]; exact hne⟩
        rcases h with ⟨x, hx, hk⟩ | ⟨hm, hb⟩
        · by_cases hid : x.id = e.id
          · have := eq_of_id hw he hx hid; subst this
            right
            have hne : x.visited ≠ [] := fun h => by rw [h] at hk; cases hk
            exact ⟨_, if_neg hne, (listed_group _ _).2 hk⟩
          · exact Or.inl (Or.inl ⟨x, hstay x hx hid, hk⟩)
        · left; right
          refine ⟨hm, fun h => ?_⟩
          obtain ⟨x, hx, hk⟩ := hb h
          by_cases hid : x.id = e.id
          · have := eq_of_id hw he hx hid; subst this
            rw [hc.1] at hk; cases hk
          · exact ⟨x, hstay x hx hid, hk⟩
      · exact Or.inl h

theorem owed_from' {b : Bool} {k : Pid} {s : State} (hw : Wf s) (h : Owed b k s) (ops : List Op) :
    Owed b k (from' s ops).1 ∨ ∃ p ∈ (from' s ops).2, Listed p k := by
  induction ops using Verif.Util.snocRec with
  | nil => exact Or.inl h
  | append_singleton ops o ih =>
    rw [from'_snoc]
    rcases ih with ih | ⟨p, hp, hl⟩
    · rcases owed_step (wf_from' hw ops) ih o with h | ⟨p, hp, hl⟩
      · exact Or.inl h
      · exact Or.inr ⟨p, by simp [hp], hl⟩
    · exact Or.inr ⟨p, by simp [hp], hl⟩

/-- A device remembered is listed in a payload afterwards, or is in a payload being made, or is still in the map. Any interleaving, any
number of emitters. -/
theorem C54_never_lost (a b : List Op) (k : Pid) :
    (∃ p ∈ (from' (run (a ++ [.remember k])).1 b).2, Listed p k) ∨
    (∃ e ∈ (run (a ++ [.remember k] ++ b)).1.act, k ∈ e.visited) ∨ k ∈ (run (a ++ [.remember k] ++ b)).1.map := by
  have hw := wf_from' wf_init (a ++ [.remember k])
  have h0 : Owed false k (run (a ++ [.remember k])).1 := by
    right
    refine ⟨?_, by simp⟩
    rw [run_eq, from'_snoc]
    simp only [step]
    split
    · assumption
    · simp
  rcases owed_from' hw h0 b with h | h
  · right
    rw [run_eq, from'_append]
    rcases h with h | h
    · exact Or.inl h
    · exact Or.inr h.1
  · exact Or.inl h

/-- As soon as all emissions are finished of which at least one started after the device was remembered, the device has been listed in a
payload made after it was remembered. -/
theorem C54_delivered (a b c : List Op) (k : Pid) (id : Nat)
    (hs : ∀ e ∈ (run (a ++ [.remember k] ++ b)).1.act, e.id ≠ id)
    (hq : (run (a ++ [.remember k] ++ (b ++ [.start id] ++ c))).1.act = []) :
    ∃ p ∈ (from' (run (a ++ [.remember k])).1 (b ++ [.start id] ++ c)).2, Listed p k := by
  rcases C54_never_lost a b k with ⟨p, hp, hl⟩ | h
  · refine ⟨p, ?_, hl⟩
    rw [List.append_assoc, from'_append]
    simp [hp]
  · have hw := wf_from' wf_init (a ++ [.remember k] ++ b)
    have hfind : find (run (a ++ [.remember k] ++ b)).1 id = none := by simpa [find] using hs
    have h1 : Owed true k (run (a ++ [.remember k] ++ b ++ [.start id])).1 := by
      rw [run_eq, from'_snoc, ← run_eq]
      simp only [step, hfind]
      rcases h with ⟨e, he, hk⟩ | h
      · exact Or.inl ⟨e, List.mem_append_left _ he, hk⟩
      · exact Or.inr ⟨h, fun _ => ⟨_, List.mem_append_right _ (List.mem_singleton.2 rfl), h⟩⟩
    rcases owed_from' (wf_from' wf_init (a ++ [.remember k] ++ b ++ [.start id])) h1 c with h2 | ⟨p, hp, hl⟩
    · exfalso
      have hst : (run (a ++ [.remember k] ++ (b ++ [.start id] ++ c))).1 =
          (from' (from' {} (a ++ [.remember k] ++ b ++ [.start id])).1 c).1 := by
        have : a ++ [.remember k] ++ (b ++ [.start id] ++ c) = (a ++ [.remember k] ++ b ++ [.start id]) ++ c := by simp
        rw [this, run_eq, from'_append]
      rw [hst] at hq
      rcases h2 with ⟨e, he, _⟩ | ⟨_, h2⟩
      · rw [hq] at he; cases he
      · obtain ⟨e, he, _⟩ := h2 rfl
        rw [hq] at he; cases he
    · refine ⟨p, ?_, hl⟩
      rw [from'_append]
      apply List.mem_append_right
      have : (from' (run (a ++ [.remember k])).1 (b ++ [.start id])).1 = (from' {} (a ++ [.remember k] ++ b ++ [.start id])).1 := by
        rw [run_eq]
        have e1 : a ++ [.remember k] ++ b ++ [.start id] = (a ++ [.remember k]) ++ (b ++ [.start id]) := by simp
        rw [e1, from'_append {} (a ++ [Op.remember k]) (b ++ [Op.start id])]
      rw [this]; exact hp

/-! ### Nothing else -/

/-- A payload lists each user once and each device once. -/
theorem C54_payload (ops : List Op) : ∀ p ∈ (run ops).2, p ≠ [] ∧ (p.map (·.1)).Nodup ∧ ∀ e ∈ p, e.2.Nodup := by
  induction ops using Verif.Util.snocRec with
  | nil => intro p hp; cases hp
  | append_singleton ops o ih =>
    rw [run_eq, from'_snoc]
    intro p hp
    rcases List.mem_append.1 hp with hp | hp
    · exact ih p hp
    · have hw := wf_from' wf_init ops
      generalize (from' {} ops).1 = s at hp hw
      cases o with
      | remember k => simp [step] at hp
      | start id => simp only [step] at hp; split at hp <;> simp at hp
      | visit id k => simp only [step] at hp; split at hp <;> (try split at hp) <;> simp at hp
      | delete id => simp only [step] at hp; split at hp <;> (try split at hp) <;> simp at hp
      | finish id =>
        simp only [step] at hp
        cases hf : find s id with
        | none => simp [hf] at hp
        | some e =>
          simp only [hf] at hp
          obtain ⟨he, _⟩ := find_mem hf
          split at hp
          · simp only at hp
            split at hp
            · simp at hp
            · rename_i hne
              simp only [Option.toList_some, List.mem_singleton] at hp
              subst hp
              obtain ⟨h1, h2, h3⟩ := group_spec e.visited
              refine ⟨?_, h1, ?_⟩
              · intro hnil
                cases hv : e.visited with
                | nil => exact hne hv
                | cons q l =>
                  have := (h2 q.1).2 (by rw [hv]; simp)
                  rw [hnil] at this; cases this
              · intro x hx
                rw [h3 x hx]
                have hnd := (hw.2 e he).1
                rw [List.Nodup, List.pairwise_map]
                have hf : (e.visited.filter fun p => decide (p.1 = x.1)).Pairwise (· ≠ ·) := List.Pairwise.sublist List.filter_sublist hnd
                refine hf.imp_of_mem ?_
                intro q r hq hr hne he
                apply hne
                have e1 : q.1 = x.1 := by simpa using (List.mem_filter.1 hq).2
                have e2 : r.1 = x.1 := by simpa using (List.mem_filter.1 hr).2
                exact Prod.ext (e1.trans e2.symm) he
          · simp at hp

/-- The emitter ids used. -/
def idOf : Op → Option Nat
  | .remember _ => none
  | .start i => some i
  | .visit i _ => some i
  | .delete i => some i
  | .finish i => some i

/-- What is accounted for: payloads, the payload being made, and the map unless about to be deleted. -/
def due (s : State) (k : Pid) : Nat :=
  match s.act with
  | [] => if k ∈ s.map then 1 else 0
  | e :: _ => (if k ∈ e.visited then 1 else 0) + if k ∈ s.map ∧ e.pend ≠ some k then 1 else 0

/-- One emitter: at most one emission at a time, and what it has seen and not visited is in the map. -/
def Single (s : State) : Prop := s.act = [] ∨ ∃ e, s.act = [e] ∧ e.id = 0 ∧ ∀ k ∈ e.seen, k ∈ e.visited ∨ k ∈ s.map

theorem due_step {s : State} (hw : Wf s) (h : Single s) (o : Op) (hid : ∀ i, idOf o = some i → i = 0) (k : Pid) :
    Single (step s o).1 ∧
    listings (step s o).2.toList k + due (step s o).1 k ≤ due s k + (if o = .remember k then 1 else 0) := by
  rcases h with h | ⟨e, hact, he0, hseen⟩
  · -- no emission
    cases o with
    | remember q =>
      refine ⟨Or.inl (by simp [step, h]), ?_⟩
      simp only [step, h, List.map_nil, due, listings, Op.remember.injEq]
      by_cases hq : q = k
      · subst hq
        by_cases hm : q ∈ s.map <;> simp [hm]
      · by_cases hm : q ∈ s.map
        · simp [hm, hq]
        · simp [hm, hq, Ne.symm hq]
    | start id =>
      have hi := hid id rfl
      subst hi
      have hf : find s 0 = none := by simp [find, h]
      simp only [step, hf]
      refine ⟨Or.inr ⟨_, by rw [h]; rfl, rfl, fun q hq => Or.inr hq⟩, ?_⟩
      simp only [h, List.nil_append, due, listings]
      by_cases hm : k ∈ s.map <;> simp [hm]
    | visit id q =>
      have hf : find s id = none := by simp [find, h]
      simp only [step, hf]
      exact ⟨Or.inl h, by simp [listings]⟩
    | delete id =>
      have hf : find s id = none := by simp [find, h]
      simp only [step, hf]
      exact ⟨Or.inl h, by simp [listings]⟩
    | finish id =>
      have hf : find s id = none := by simp [find, h]
      simp only [step, hf]
      exact ⟨Or.inl h, by simp [listings]⟩
  · have hf0 : find s 0 = some e := by simp [find, hact, he0]
    have hrep : ∀ e' : Emission, e'.id = e.id → replace s e' = [e'] := by
      intro e' h; simp [replace, hact, h]
    cases o with
    | remember q =>
      refine ⟨Or.inr ⟨{ e with seen := e.seen ++ [q] }, by simp [step, hact], he0, ?_⟩, ?_⟩
      · intro x hx
        simp only [step]
        rcases List.mem_append.1 hx with hx | hx
        · rcases hseen x hx with h1 | h1
          · exact Or.inl h1
          · right; split
            · exact h1
            · simp [h1]
        · right
          rw [List.mem_singleton.1 hx]
          split
          · assumption
          · simp
      · simp only [step, hact, List.map_cons, List.map_nil, due, listings, Op.remember.injEq]
        by_cases hq : q = k
        · subst hq
          by_cases hm : q ∈ s.map
          · simp [hm]
          · by_cases hpd : e.pend = some q <;> simp [hm, hpd]
        · by_cases hm : q ∈ s.map
          · simp [hm, hq]
          · simp [hm, hq, Ne.symm hq]
    | start id =>
      have hi := hid id rfl
      subst hi
      simp only [step, hf0]
      exact ⟨Or.inr ⟨e, hact, he0, hseen⟩, by simp [listings]⟩
    | visit id q =>
      have hi := hid id rfl
      subst hi
      simp only [step, hf0]
      split
      · rename_i hc
        have hqm : q ∈ s.map := (hseen q hc.1).resolve_left hc.2.1
        rw [hrep _ (by rfl)]
        refine ⟨Or.inr ⟨_, rfl, he0, ?_⟩, ?_⟩
        · intro x hx
          rcases hseen x hx with h1 | h1
          · exact Or.inl (List.mem_append_left _ h1)
          · exact Or.inr h1
        · simp only [due, hact, listings, hc.2.2]
          by_cases hq : q = k
          · subst hq; simp [hqm, hc.2.1]
          · have : ¬ (some q = some k) := by simpa using hq
            simp [hq, Ne.symm hq]
      · exact ⟨Or.inr ⟨e, hact, he0, hseen⟩, by simp [listings]⟩
    | delete id =>
      have hi := hid id rfl
      subst hi
      simp only [step, hf0]
      cases hp : e.pend with
      | none => exact ⟨Or.inr ⟨e, hact, he0, hseen⟩, by simp [listings]⟩
      | some q =>
        simp only
        have hqv : q ∈ e.visited := (hw.2 e (by rw [hact]; simp)).2 q hp
        rw [hrep _ (by rfl)]
        refine ⟨Or.inr ⟨_, rfl, he0, ?_⟩, ?_⟩
        · intro x hx
          by_cases hxq : x = q
          · exact Or.inl (by rw [hxq]; exact hqv)
          · rcases hseen x hx with h1 | h1
            · exact Or.inl h1
            · exact Or.inr (List.mem_filter.2 ⟨h1, by simpa using hxq⟩)
        · simp only [due, hact, listings, hp, List.map_cons, List.map_nil]
          by_cases hq : k = q
          · subst hq; simp
          · simp [hq, Ne.symm hq, List.mem_filter]
    | finish id =>
      have hi := hid id rfl
      subst hi
      simp only [step, hf0]
      split
      · rename_i hc
        have hnil : (s.act.filter fun x => decide (x.id ≠ 0)) = [] := by simp [hact, he0]
        refine ⟨Or.inl hnil, ?_⟩
        have hd : due { map := s.map, act := s.act.filter fun x => decide (x.id ≠ 0) } k = if k ∈ s.map then 1 else 0 := by
          rw [hnil]; rfl
        rw [hd]
        simp only [due, hact, hc.2]
        by_cases hv : e.visited = []
        · simp [hv, listings]
        · rw [if_neg hv]
          by_cases hk : k ∈ e.visited
          · have : Listed (group e.visited) k := (listed_group _ _).2 hk
            simp [listings, this, hk]
          · have : ¬ Listed (group e.visited) k := fun h => hk ((listed_group _ _).1 h)
            simp [listings, this, hk]
      · exact ⟨Or.inr ⟨e, hact, he0, hseen⟩, by simp [listings]⟩

/-- With a period there is one emitter; then a device is listed at most as often as it was remembered. -/
theorem C54_no_more (ops : List Op) (hid : ∀ o ∈ ops, ∀ i, idOf o = some i → i = 0) (k : Pid) :
    listings (run ops).2 k ≤ remembered ops k := by
  suffices h : Single (run ops).1 ∧ listings (run ops).2 k + due (run ops).1 k ≤ remembered ops k by omega
  induction ops using Verif.Util.snocRec with
  | nil => exact ⟨Or.inl rfl, by simp [run, listings, due, remembered]⟩
  | append_singleton ops o ih =>
    obtain ⟨h1, h2⟩ := ih fun o ho => hid o (by simp [ho])
    have hw : Wf (run ops).1 := wf_from' wf_init ops
    obtain ⟨h3, h4⟩ := due_step hw h1 o (hid o (by simp)) k
    rw [run_eq, from'_snoc, ← run_eq]
    refine ⟨h3, ?_⟩
    have hl : listings ((run ops).2 ++ (step (run ops).1 o).2.toList) k =
        listings (run ops).2 k + listings (step (run ops).1 o).2.toList k := by
      simp [listings, List.filter_append]
    have hr : remembered (ops ++ [o]) k = remembered ops k + if o = .remember k then 1 else 0 := by
      simp only [remembered, List.filter_append, List.length_append]
      by_cases ho : o = .remember k <;> simp [ho]
    simp only
    rw [hl, hr]
    omega

/-- A device remembered once is listed exactly once, as soon as an emission started after it was remembered is finished. -/
theorem C54_exactly_once (a b c : List Op) (k : Pid)
    (hid : ∀ o ∈ a ++ [.remember k] ++ (b ++ [.start 0] ++ c), ∀ i, idOf o = some i → i = 0)
    (hone : remembered (a ++ [.remember k] ++ (b ++ [.start 0] ++ c)) k = 1)
    (hs : ∀ e ∈ (run (a ++ [.remember k] ++ b)).1.act, e.id ≠ 0)
    (hq : (run (a ++ [.remember k] ++ (b ++ [.start 0] ++ c))).1.act = []) :
    listings (run (a ++ [.remember k] ++ (b ++ [.start 0] ++ c))).2 k = 1 := by
  have h1 := C54_no_more _ hid k
  rw [hone] at h1
  obtain ⟨p, hp, hl⟩ := C54_delivered a b c k 0 hs hq
  have hmem : p ∈ (run (a ++ [.remember k] ++ (b ++ [.start 0] ++ c))).2 := by
    rw [run_eq, from'_append {} (a ++ [Op.remember k]) (b ++ [Op.start 0] ++ c)]
    exact List.mem_append_right _ hp
  have h2 : p ∈ ((run (a ++ [.remember k] ++ (b ++ [.start 0] ++ c))).2.filter fun p => decide (Listed p k)) :=
    List.mem_filter.2 ⟨hmem, by simpa using hl⟩
  have h3 : 0 < listings (run (a ++ [.remember k] ++ (b ++ [.start 0] ++ c))).2 k := List.length_pos_of_mem h2
  omega

/-- Two devices; one remembered again between its visit and its deletion, and once after. -/
example : (run [.remember ("@a", "A"), .remember ("@a", "B"), .start 0, .visit 0 ("@a", "B"), .remember ("@a", "B"), .delete 0,
    .visit 0 ("@a", "A"), .delete 0, .remember ("@a", "A"), .finish 0, .start 0, .visit 0 ("@a", "A"), .delete 0, .finish 0]) =
    ({ map := [], act := [] }, [[("@a", ["B", "A"])], [("@a", ["A"])]]) := by decide

/-- With two emitters at once a device remembered once can be listed twice (nothing is lost). -/
example : (run [.remember ("@a", "A"), .start 0, .start 1, .visit 0 ("@a", "A"), .visit 1 ("@a", "A"), .delete 0, .delete 1,
    .finish 0, .finish 1]).2 = [[("@a", ["A"])], [("@a", ["A"])]] := by decide

end Verif.Ticker
