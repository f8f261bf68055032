import Verif.PendingTxn
import Verif.Util
/-! C49: the all-clear for an event. -/
namespace Verif.PendingTxn

/-! ### Specification, over the calls so far and their results. -/

/-- The calls since the cache last dropped the entry of the event. -/
def recent (e : String) (tr : List (Op × Bool)) : List (Op × Bool) :=
  tr.foldl (fun acc x => if x.1 = .expire e then [] else acc ++ [x]) []

/-- Device `d` reported that it has no transaction id. -/
def Reported (e : String) (h : List (Op × Bool)) (d : String) : Prop := ∃ L b, (Op.missing e d L, b) ∈ h

/-- The all-clear was given. -/
def Cleared (e : String) (h : List (Op × Bool)) : Prop := ∃ d L, (Op.missing e d L, true) ∈ h

def Seen (e : String) (h : List (Op × Bool)) : Prop := ∃ b, (Op.seen e, b) ∈ h

/-- `h = a ++ rest`, and `rest` starts with the first report from a device that is among the devices `L` loaded
for the sender at that moment. -/
def StartsAt (e : String) (h rest : List (Op × Bool)) (L : List String) : Prop :=
  ∃ a d b t, h = a ++ rest ∧ rest = (Op.missing e d L, b) :: t ∧ d ∈ L ∧
    ∀ d' L' b', (Op.missing e d' L', b') ∈ a → d' ∉ L'

/-! ### Lemmas -/

theorem removeDevice_spec (d : String) (l : List String) :
    ((removeDevice d l).2 = true ↔ d ∈ l) ∧ ((removeDevice d l).1).Sublist l ∧
    (∀ x ∈ l, x ∈ (removeDevice d l).1 ∨ x = d) ∧ (l.Nodup → d ∉ (removeDevice d l).1) ∧
    ((removeDevice d l).2 = false → (removeDevice d l).1 = l) := by
  induction l with
  | nil => simp [removeDevice]
  | cons o rest ih =>
    obtain ⟨h1, h2, h3, h4, h5⟩ := ih
    simp only [removeDevice]
    by_cases ho : o = d
    · subst ho
      simp only [if_true]
      refine ⟨by simp, List.sublist_cons_self _ _, ?_, ?_, by simp⟩
      · intro x hx
        rcases List.mem_cons.1 hx with hx | hx
        · exact Or.inr hx
        · exact Or.inl hx
      · intro hn; exact (List.nodup_cons.1 hn).1
    · simp only [ho, if_false]
      refine ⟨?_, h2.cons_cons _, ?_, ?_, ?_⟩
      · rw [h1, List.mem_cons]
        exact ⟨Or.inr, fun h => h.resolve_left fun h => ho h.symm⟩
      · intro x hx
        rcases List.mem_cons.1 hx with hx | hx
        · left; rw [hx]; simp
        · rcases h3 x hx with h | h
          · exact Or.inl (List.mem_cons_of_mem _ h)
          · exact Or.inr h
      · intro hn hm
        rw [List.nodup_cons] at hn
        rcases List.mem_cons.1 hm with hm | hm
        · exact ho hm.symm
        · exact h4 hn.2 hm
      · intro hf; rw [h5 hf]

theorem run_snoc (ops : List Op) (op : Op) : run (ops ++ [op]) =
    ((step (run ops).1 op).1, (run ops).2 ++ [(op, (step (run ops).1 op).2)]) := by
  simp only [run, List.foldl_append, List.foldl_cons, List.foldl_nil]

theorem recent_snoc (e : String) (tr : List (Op × Bool)) (x : Op × Bool) :
    recent e (tr ++ [x]) = if x.1 = .expire e then [] else recent e tr ++ [x] := by
  simp only [recent, List.foldl_append, List.foldl_cons, List.foldl_nil]

/-- What the cache holds for the event, in terms of the calls since it was last dropped. -/
def Inv (e : String) (h : List (Op × Bool)) : Option (List String) → Prop
  | none => ¬ Seen e h ∧ ¬ Cleared e h ∧ ∀ d L b, (Op.missing e d L, b) ∈ h → d ∉ L
  | some l => (Seen e h ∧ l = []) ∨
      (¬ Seen e h ∧ (Cleared e h ↔ l = []) ∧ ∃ rest L, StartsAt e h rest L ∧ (∀ x ∈ l, x ∈ L) ∧
        (∀ x ∈ L, x ∈ l ∨ Reported e rest x) ∧ (L.Nodup → l.Nodup ∧ ∀ x ∈ l, ¬ Reported e rest x))

theorem seen_snoc {e : String} {h : List (Op × Bool)} {x : Op × Bool} (hx : x.1 ≠ .seen e) :
    Seen e (h ++ [x]) ↔ Seen e h := by
  constructor
  · rintro ⟨b, hb⟩
    rcases List.mem_append.1 hb with hb | hb
    · exact ⟨b, hb⟩
    · rw [← List.mem_singleton.1 hb] at hx; exact absurd rfl hx
  · rintro ⟨b, hb⟩; exact ⟨b, by simp [hb]⟩

theorem cleared_snoc {e : String} {h : List (Op × Bool)} {x : Op × Bool} (hx : ∀ d L, x ≠ (.missing e d L, true)) :
    Cleared e (h ++ [x]) ↔ Cleared e h := by
  constructor
  · rintro ⟨d, L, hb⟩
    rcases List.mem_append.1 hb with hb | hb
    · exact ⟨d, L, hb⟩
    · exact absurd (List.mem_singleton.1 hb).symm (hx d L)
  · rintro ⟨d, L, hb⟩; exact ⟨d, L, by simp [hb]⟩

theorem startsAt_snoc {e : String} {h rest : List (Op × Bool)} {L : List String} (x : Op × Bool)
    (hs : StartsAt e h rest L) : StartsAt e (h ++ [x]) (rest ++ [x]) L := by
  obtain ⟨a, d, b, t, h1, h2, h3, h4⟩ := hs
  exact ⟨a, d, b, t ++ [x], by rw [h1]; simp, by rw [h2]; simp, h3, h4⟩

/-- A call about something else. -/
theorem inv_other {e : String} {h : List (Op × Bool)} {v : Option (List String)} (hi : Inv e h v) (x : Op × Bool)
    (hm : ∀ d L b, x ≠ (.missing e d L, b)) (hs : x.1 ≠ .seen e) : Inv e (h ++ [x]) v := by
  have h1 := seen_snoc (h := h) hs
  have h2 := cleared_snoc (e := e) (h := h) (x := x) fun d L => hm d L true
  have hrep : ∀ rest d, Reported e (rest ++ [x]) d ↔ Reported e rest d := by
    intro rest d
    constructor
    · rintro ⟨L, b, hb⟩
      rcases List.mem_append.1 hb with hb | hb
      · exact ⟨L, b, hb⟩
      · exact absurd (List.mem_singleton.1 hb).symm (hm d L b)
    · rintro ⟨L, b, hb⟩; exact ⟨L, b, by simp [hb]⟩
  cases v with
  | none =>
    refine ⟨fun h' => hi.1 (h1.1 h'), fun h' => hi.2.1 (h2.1 h'), ?_⟩
    intro d L b hb
    rcases List.mem_append.1 hb with hb | hb
    · exact hi.2.2 d L b hb
    · exact absurd (List.mem_singleton.1 hb).symm (hm d L b)
  | some l =>
    rcases hi with ⟨ha, hb⟩ | ⟨ha, hb, rest, L, hc, hd, he, hf⟩
    · exact Or.inl ⟨h1.2 ha, hb⟩
    · refine Or.inr ⟨fun h' => ha (h1.1 h'), h2.trans hb, rest ++ [x], L, startsAt_snoc x hc, hd, ?_, ?_⟩
      · intro y hy; rw [hrep]; exact he y hy
      · intro hn; refine ⟨(hf hn).1, fun y hy => ?_⟩
        rw [hrep]; exact (hf hn).2 y hy

theorem inv_run (e : String) (ops : List Op) : Inv e (recent e (run ops).2) ((run ops).1 e) := by
  induction ops using Verif.Util.snocRec with
  | nil => refine ⟨?_, ?_, ?_⟩ <;> simp [run, recent, Seen, Cleared]
  | append_singleton ops op ih =>
    rw [run_snoc, recent_snoc]
    simp only
    generalize (run ops).1 = st at ih
    generalize recent e (run ops).2 = h at ih
    cases op with
    | expire e' =>
      by_cases hee : e' = e
      · subst hee
        simp only [if_true, step, put]
        refine ⟨?_, ?_, ?_⟩ <;> simp [Seen, Cleared]
      · have : (step st (.expire e')).1 e = st e := by simp [step, put, Ne.symm hee]
        rw [this, if_neg (by simpa using hee)]
        exact inv_other ih _ (by simp) (by simp)
    | seen e' =>
      rw [if_neg (by simp)]
      by_cases hee : e' = e
      · subst hee
        have : (step st (.seen e')).1 e' = some [] := by simp [step, put]
        rw [this]
        exact Or.inl ⟨⟨_, List.mem_append_right _ (List.mem_singleton.2 rfl)⟩, rfl⟩
      · have : (step st (.seen e')).1 e = st e := by simp [step, put, Ne.symm hee]
        rw [this]
        exact inv_other ih _ (by simp) (by simpa using hee)
    | missing e' d loaded =>
      rw [if_neg (by simp)]
      by_cases hee : e' = e
      · subst hee
        cases hst : st e' with
        | none =>
          rw [hst] at ih
          obtain ⟨h1, h2, h3⟩ := ih
          obtain ⟨r1, r2, r3, r4, r5⟩ := removeDevice_spec d loaded
          have hout : (step st (.missing e' d loaded)).2 =
              ((removeDevice d loaded).2 && decide ((removeDevice d loaded).1.length = 0)) := by
            simp only [step, hst]
          by_cases hd : d ∈ loaded
          · have hc := r1.2 hd
            have hnew : (step st (.missing e' d loaded)).1 e' = some (removeDevice d loaded).1 := by
              simp [step, hst, hc, put]
            rw [hnew, hout, hc, Bool.true_and]
            refine Or.inr ⟨?_, ?_, [(.missing e' d loaded, _)], loaded,
              ⟨h, d, _, [], rfl, rfl, hd, h3⟩, fun x hx => r2.subset hx, ?_, ?_⟩
            · rw [seen_snoc (by simp)]; exact h1
            · constructor
              · rintro ⟨d', L', hm⟩
                rcases List.mem_append.1 hm with hm | hm
                · exact absurd ⟨d', L', hm⟩ h2
                · have := (Prod.mk.inj (List.mem_singleton.1 hm)).2
                  simpa using this.symm
              · intro hl
                exact ⟨d, loaded, by simp [hl]⟩
            · intro x hx
              rcases r3 x hx with h' | h'
              · exact Or.inl h'
              · exact Or.inr ⟨loaded, _, by rw [h']; exact List.mem_singleton.2 rfl⟩
            · intro hn
              refine ⟨r2.nodup hn, ?_⟩
              rintro x hx ⟨L', b', hm⟩
              have := (Prod.mk.inj (List.mem_singleton.1 hm)).1
              simp only [Op.missing.injEq, true_and] at this
              rw [this.1] at hx
              exact r4 hn hx
          · have hc : (removeDevice d loaded).2 = false := by
              cases hh : (removeDevice d loaded).2
              · rfl
              · exact absurd (r1.1 hh) hd
            have hnew : (step st (.missing e' d loaded)).1 e' = none := by simp [step, hst, hc]
            rw [hnew, hout, hc, Bool.false_and]
            refine ⟨?_, ?_, ?_⟩
            · rw [seen_snoc (by simp)]; exact h1
            · rw [cleared_snoc (by simp)]; exact h2
            · intro d' L' b' hm
              rcases List.mem_append.1 hm with hm | hm
              · exact h3 d' L' b' hm
              · have := (Prod.mk.inj (List.mem_singleton.1 hm)).1
                simp only [Op.missing.injEq, true_and] at this
                rw [this.1, this.2]; exact hd
        | some l =>
          rw [hst] at ih
          obtain ⟨r1, r2, r3, r4, r5⟩ := removeDevice_spec d l
          have hout : (step st (.missing e' d loaded)).2 =
              ((removeDevice d l).2 && decide ((removeDevice d l).1.length = 0)) := by
            simp only [step, hst]
          have hnew : (step st (.missing e' d loaded)).1 e' = some (removeDevice d l).1 := by
            cases hc : (removeDevice d l).2 with
            | true => simp [step, hst, hc, put]
            | false => simp [step, hst, hc, r5 hc]
          rw [hnew, hout]
          rcases ih with ⟨ha, hb⟩ | ⟨ha, hb, rest, L, hc, hd, he, hf⟩
          · subst hb
            refine Or.inl ⟨?_, rfl⟩
            rw [seen_snoc (by simp)]; exact ha
          · refine Or.inr ⟨?_, ?_, _, L, startsAt_snoc _ hc, fun x hx => hd x (r2.subset hx), ?_, ?_⟩
            · rw [seen_snoc (by simp)]; exact ha
            · constructor
              · rintro ⟨d', L', hm⟩
                rcases List.mem_append.1 hm with hm | hm
                · have := hb.1 ⟨d', L', hm⟩
                  rw [this]; rfl
                · have := (Prod.mk.inj (List.mem_singleton.1 hm)).2
                  have := this.symm
                  simp only [Bool.and_eq_true, decide_eq_true_eq, List.length_eq_zero_iff] at this
                  exact this.2
              · intro hl
                by_cases hdl : d ∈ l
                · exact ⟨d, loaded, by simp [hl, r1.2 hdl]⟩
                · have hcf : (removeDevice d l).2 = false := by
                    cases hh : (removeDevice d l).2
                    · rfl
                    · exact absurd (r1.1 hh) hdl
                  rw [r5 hcf] at hl
                  obtain ⟨d', L', hm⟩ := hb.2 hl
                  exact ⟨d', L', by simp [hm]⟩
            · intro x hx
              rcases he x hx with h' | ⟨L', b', h'⟩
              · rcases r3 x h' with h'' | h''
                · exact Or.inl h''
                · exact Or.inr ⟨loaded, _, List.mem_append_right _ (by rw [h'']; exact List.mem_singleton.2 rfl)⟩
              · exact Or.inr ⟨L', b', by simp [h']⟩
            · intro hn
              obtain ⟨hln, hlr⟩ := hf hn
              refine ⟨r2.nodup hln, ?_⟩
              rintro x hx ⟨L', b', hm⟩
              rcases List.mem_append.1 hm with hm | hm
              · exact hlr x (r2.subset hx) ⟨L', b', hm⟩
              · have := (Prod.mk.inj (List.mem_singleton.1 hm)).1
                simp only [Op.missing.injEq, true_and] at this
                rw [this.1] at hx
                exact r4 hln hx
      · have : (step st (.missing e' d loaded)).1 e = st e := by
          simp only [step]
          split
          · split
            · simp [put, Ne.symm hee]
            · rfl
          · split
            · simp [put, Ne.symm hee]
            · rfl
        rw [this]
        exact inv_other ih _ (by simp [hee]) (by simp)

/-! ### C49 -/

/-- C49 as stated, over whole histories. -/
def OnceAndNeverAfterSeen : Prop := ∀ (ops : List Op) (e d : String) (L : List String),
  (step (run ops).1 (.missing e d L)).2 = true → ¬ Seen e (run ops).2 ∧ ¬ Cleared e (run ops).2

/-- The cache forgets after five minutes; then a late report, even of the same device, gives the all-clear again or after the
transaction id was seen. -/
theorem C49_violated : ¬ OnceAndNeverAfterSeen := by
  intro h
  have := (h [.seen "$e", .expire "$e"] "$e" "B" ["B"] (by decide)).1
  exact this ⟨false, by decide⟩

/-- The all-clear is given only when a poller reports the event without a transaction id. -/
theorem C49_only_missing (st : State) (op : Op) (h : (step st op).2 = true) : ∃ e d L, op = .missing e d L := by
  cases op with
  | missing e d L => exact ⟨e, d, L, rfl⟩
  | seen e => cases h
  | expire e => cases h

/-- Between two times the cache drops the event's entry: when the all-clear is given, no transaction id was seen, the
all-clear was not given before, and every device that was loaded for the sender (at the first report by one of them) has
reported. What is missing from C49 is histories across such a drop. -/
theorem C49_sound_partial (ops : List Op) (e d : String) (L0 : List String)
    (h : (step (run ops).1 (.missing e d L0)).2 = true) :
    ¬ Seen e (recent e (run ops).2) ∧ ¬ Cleared e (recent e (run ops).2) ∧
    ∃ rest L, StartsAt e (recent e (run ops).2 ++ [(.missing e d L0, true)]) rest L ∧ ∀ x ∈ L, Reported e rest x := by
  have hi := inv_run e (ops ++ [.missing e d L0])
  have hi0 := inv_run e ops
  rw [run_snoc, recent_snoc] at hi
  simp only at hi
  rw [if_neg (by simp), h] at hi
  generalize recent e (run ops).2 = tr at *
  have hcl : Cleared e (tr ++ [(.missing e d L0, true)]) := ⟨d, L0, by simp⟩
  -- the entry held before was none, or non-empty
  have hpre : ¬ Seen e tr ∧ ¬ Cleared e tr := by
    cases hst : (run ops).1 e with
    | none => rw [hst] at hi0; exact ⟨hi0.1, hi0.2.1⟩
    | some l =>
      rw [hst] at hi0
      have hl : l ≠ [] := by
        intro hl
        simp only [step, hst, hl, removeDevice] at h
        simp at h
      rcases hi0 with ⟨_, hb⟩ | ⟨ha, hb, _⟩
      · exact absurd hb hl
      · exact ⟨ha, fun hc => hl (hb.1 hc)⟩
  refine ⟨hpre.1, hpre.2, ?_⟩
  cases hv : (step (run ops).1 (.missing e d L0)).1 e with
  | none => rw [hv] at hi; exact absurd hcl hi.2.1
  | some l =>
    rw [hv] at hi
    rcases hi with ⟨ha, _⟩ | ⟨_, hb, rest, L, hc, _, he, _⟩
    · rw [seen_snoc (by simp)] at ha; exact absurd ha hpre.1
    · refine ⟨rest, L, hc, ?_⟩
      have := hb.1 hcl
      intro x hx
      rcases he x hx with h' | h'
      · rw [this] at h'; cases h'
      · exact h'

theorem startsAt_unique {e : String} {h r1 r2 : List (Op × Bool)} {L1 L2 : List String} (h1 : StartsAt e h r1 L1)
    (h2 : StartsAt e h r2 L2) : r1 = r2 ∧ L1 = L2 := by
  obtain ⟨a, d, b, t, e1, e2, e3, e4⟩ := h1
  obtain ⟨a', d', b', t', f1, f2, f3, f4⟩ := h2
  rw [e2] at e1
  rw [f2] at f1
  rw [e1] at f1
  rcases List.append_eq_append_iff.1 f1 with ⟨c, hc1, hc2⟩ | ⟨c, hc1, hc2⟩
  · cases c with
    | nil =>
      simp only [List.nil_append] at hc2
      rw [e2, f2, hc2]
      simp only [List.cons.injEq, Prod.mk.injEq, Op.missing.injEq] at hc2
      exact ⟨rfl, hc2.1.1.2.2⟩
    | cons x c =>
      simp only [List.cons_append, List.cons.injEq] at hc2
      exact absurd e3 (f4 d L1 b (by rw [hc1, ← hc2.1]; simp))
  · cases c with
    | nil =>
      simp only [List.nil_append] at hc2
      rw [e2, f2, ← hc2]
      simp only [List.cons.injEq, Prod.mk.injEq, Op.missing.injEq] at hc2
      exact ⟨rfl, hc2.1.1.2.2.symm⟩
    | cons x c =>
      simp only [List.cons_append, List.cons.injEq] at hc2
      exact absurd f3 (e4 d' L2 b' (by rw [hc1, ← hc2.1]; simp))

/-- And the all-clear is given: once every device loaded for the sender has reported and no transaction id was seen. -/
theorem C49_complete_partial (ops : List Op) (e : String) (rest : List (Op × Bool)) (L : List String)
    (hs : ¬ Seen e (recent e (run ops).2)) (hst : StartsAt e (recent e (run ops).2) rest L) (hn : L.Nodup)
    (hrep : ∀ x ∈ L, Reported e rest x) : Cleared e (recent e (run ops).2) := by
  have hi := inv_run e ops
  generalize recent e (run ops).2 = tr at *
  cases hv : (run ops).1 e with
  | none =>
    rw [hv] at hi
    obtain ⟨a, d, b, t, h1, h2, h3, _⟩ := hst
    exact absurd h3 (hi.2.2 d L b (by rw [h1, h2]; simp))
  | some l =>
    rw [hv] at hi
    rcases hi with ⟨ha, _⟩ | ⟨_, hb, rest', L', hc, hd, he, hf⟩
    · exact absurd ha hs
    · obtain ⟨rfl, rfl⟩ := startsAt_unique hst hc
      apply hb.2
      cases l with
      | nil => rfl
      | cons x l => exact absurd (hrep x (hd x (by simp))) ((hf hn).2 x (by simp))

/-- Two devices; the second report is the all-clear, repeats are not. -/
example : (run [.missing "$e" "A" ["A", "B"], .missing "$f" "A" ["A"], .missing "$e" "A" ["A", "B"],
    .missing "$e" "B" ["A", "B"], .missing "$e" "B" ["A", "B"]]).2.map (·.2) = [false, true, false, true, false] := by
  decide

example : StartsAt "$e" [(.missing "$e" "X" ["A"], false), (.missing "$e" "A" ["A", "B"], false), (.missing "$e" "B" ["B"], true)]
    [(.missing "$e" "A" ["A", "B"], false), (.missing "$e" "B" ["B"], true)] ["A", "B"] :=
  ⟨[(.missing "$e" "X" ["A"], false)], "A", false, [(.missing "$e" "B" ["B"], true)], rfl, rfl, by simp, by
    intro d' L' b' h; simp at h; rw [h.1.1, h.1.2]; simp⟩

end Verif.PendingTxn
