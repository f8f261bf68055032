import Verif.E2EE
/-!
# Encryption data: C36, C37
-/
namespace Verif.E2EE

/-! ## Histories -/

def isIncr : Op → Bool
  | .read false => true
  | _ => false

/-- The history cut at the incremental reads, newest segment first. -/
def segments : List Op → List (List Op)
  | ops => ops.foldl (fun segs o => if isIncr o then [] :: segs else
      match segs with
      | [] => [[o]]
      | g :: gs => (g ++ [o]) :: gs) [[]]

/-- The last change recorded for a user in a piece of history. -/
def lastChange (u : String) : List Op → Option Change
  | [] => none
  | o :: os => match lastChange u os with
    | some c => some c
    | none => match o with | .upsert _ _ c => c u | .read _ => none

/-- The last counts (fallback types) recorded in a piece of history. -/
def lastOTK : List Op → Option Map
  | [] => none
  | o :: os => match lastOTK os with
    | some c => some c
    | none => match o with | .upsert m _ _ => m | .read _ => none
def lastFB : List Op → Option (List String)
  | [] => none
  | o :: os => match lastFB os with
    | some c => some c
    | none => match o with | .upsert _ f _ => f | .read _ => none

private theorem lastChange_snoc (u : String) (l : List Op) (o : Op) : lastChange u (l ++ [o]) =
    match (match o with | .upsert _ _ c => c u | .read _ => none) with
    | some c => some c | none => lastChange u l := by
  induction l with
  | nil => simp only [List.nil_append, lastChange]; cases o <;> simp only <;> split <;> simp_all
  | cons a l ih =>
    simp only [List.cons_append, lastChange, ih]
    cases o with
    | read i => rfl
    | upsert m f c => simp only; cases c u <;> rfl
private theorem lastOTK_snoc (l : List Op) (o : Op) : lastOTK (l ++ [o]) =
    match (match o with | .upsert m _ _ => m | .read _ => none) with
    | some c => some c | none => lastOTK l := by
  induction l with
  | nil => simp only [List.nil_append, lastOTK]; cases o <;> simp only <;> split <;> simp_all
  | cons a l ih =>
    simp only [List.cons_append, lastOTK, ih]
    cases o with
    | read i => rfl
    | upsert m f c => cases m <;> rfl
private theorem lastFB_snoc (l : List Op) (o : Op) : lastFB (l ++ [o]) =
    match (match o with | .upsert _ f _ => f | .read _ => none) with
    | some c => some c | none => lastFB l := by
  induction l with
  | nil => simp only [List.nil_append, lastFB]; cases o <;> simp only <;> split <;> simp_all
  | cons a l ih =>
    simp only [List.cons_append, lastFB, ih]
    cases o with
    | read i => rfl
    | upsert m f c => cases f <;> rfl

/-- What the two newest segments record. -/
def newest (ops : List Op) : List Op := (segments ops).headD []
def previous (ops : List Op) : List Op := (segments ops).tail.headD []

private theorem segments_snoc (ops : List Op) (o : Op) : segments (ops ++ [o]) =
    if isIncr o then [] :: segments ops else
      match segments ops with | [] => [[o]] | g :: gs => (g ++ [o]) :: gs := by
  simp [segments]

private theorem segments_ne (ops : List Op) : segments ops ≠ [] := by
  induction ops using Verif.Util.snocRec with
  | nil => simp [segments]
  | append_singleton l o ih => rw [segments_snoc]; split; · simp
                               split <;> simp

private theorem newest_snoc (ops : List Op) (o : Op) :
    newest (ops ++ [o]) = if isIncr o then [] else newest ops ++ [o] := by
  unfold newest
  rw [segments_snoc]
  split
  · rfl
  · split
    · rename_i h; exact absurd h (segments_ne ops)
    · rename_i h; rw [h]; rfl

private theorem previous_snoc (ops : List Op) (o : Op) :
    previous (ops ++ [o]) = if isIncr o then newest ops else previous ops := by
  unfold previous newest
  rw [segments_snoc]
  split
  · rfl
  · split
    · rename_i h; exact absurd h (segments_ne ops)
    · rename_i h; rw [h]; rfl

private theorem run_snoc (ops : List Op) (o : Op) : run (ops ++ [o]) = step (run ops) o := by simp [run]

/-- The state in terms of the history. -/
private theorem run_state (ops : List Op) :
    (∀ u, (run ops).new u = lastChange u (newest ops)) ∧
    (∀ u, (run ops).sent u = lastChange u (previous ops)) ∧
    (run ops).otk = lastOTK ops ∧ (run ops).fallback = lastFB ops ∧
    ((run ops).otkBit = (lastOTK (newest ops)).isSome) ∧ ((run ops).fbBit = (lastFB (newest ops)).isSome) ∧
    ((run ops).row = false → (∀ u, (run ops).new u = none) ∧ (∀ u, (run ops).sent u = none) ∧
      (run ops).otk = none ∧ (run ops).fallback = none ∧ (run ops).otkBit = false ∧ (run ops).fbBit = false) := by
  induction ops using Verif.Util.snocRec with
  | nil => simp [run, newest, previous, segments, lastChange, lastOTK, lastFB]
  | append_singleton ops o ih =>
    obtain ⟨h1, h2, h3, h4, h5, h6, h7⟩ := ih
    rw [run_snoc]
    generalize run ops = s at *
    cases o with
    | upsert m f c =>
      simp only [newest_snoc, previous_snoc, isIncr, Bool.false_eq_true, if_false, lastChange_snoc, lastOTK_snoc, lastFB_snoc, step, upsert]
      refine ⟨fun u => ?_, h2, ?_, ?_, ?_, ?_, by simp⟩
      · cases c u
        · exact h1 u
        · rfl
      · cases m
        · exact h3
        · rfl
      · cases f
        · exact h4
        · rfl
      · cases m
        · exact h5
        · rfl
      · cases f
        · exact h6
        · rfl
    | read i =>
      cases i with
      | true =>
        have : step s (.read true) = s := by simp only [step, read]; split <;> rfl
        rw [this]
        simp only [newest_snoc, previous_snoc, isIncr, Bool.false_eq_true, if_false, lastChange_snoc, lastOTK_snoc, lastFB_snoc]
        exact ⟨h1, h2, h3, h4, h5, h6, h7⟩
      | false =>
        simp only [newest_snoc, previous_snoc, isIncr, if_true, lastChange, lastOTK_snoc, lastFB_snoc, lastOTK, lastFB]
        simp only [step, read]
        cases hr : s.row
        · obtain ⟨g1, g2, g3, g4, g5, g6⟩ := h7 hr
          simp only [Bool.not_false, if_true]
          refine ⟨g1, fun u => ?_, h3, h4, g5, g6, fun _ => ⟨g1, g2, g3, g4, g5, g6⟩⟩
          rw [g2, ← h1, g1]
        · simp only [Bool.not_true, Bool.false_eq_true, if_false]
          refine ⟨?_, h1, h3, h4, rfl, rfl, ?_⟩
          · simp
          · intro h; cases h

/-! ## C36 -/

/-- C36: an incremental read reports exactly the changes recorded since the previous incremental read, the last
one for each user. -/
theorem C36_incremental (ops : List Op) (u : String) :
    (read (run ops) false).2.lists u = lastChange u (newest ops) := by
  obtain ⟨h1, _, _, _, _, _, h7⟩ := run_state ops
  rw [← h1]
  unfold read
  cases hr : (run ops).row
  · simp [(h7 hr).1]
  · simp

/-- C36: a read from the start reports exactly what the last incremental read reported. -/
theorem C36_initial (ops : List Op) (u : String) :
    (read (run ops) true).2.lists u = lastChange u (previous ops) := by
  obtain ⟨_, h2, _, _, _, _, h7⟩ := run_state ops
  rw [← h2]
  unfold read
  cases hr : (run ops).row
  · simp [(h7 hr).2.1]
  · simp

/-- C36, end to end: a change recorded at some point and not followed by another for the same user before the
next incremental read is in that read, and in every read from the start until the incremental read after it. -/
theorem C36_not_lost (pre mid post : List Op) (o f c) (u : String) (x : Change) (hx : c u = some x)
    (hmid : ∀ q ∈ mid, isIncr q = false) (hlast : lastChange u mid = none) (hpost : ∀ q ∈ post, isIncr q = false) :
    let before := pre ++ .upsert o f c :: mid
    (read (run before) false).2.lists u = some x ∧
    (read (run (before ++ .read false :: post)) true).2.lists u = some x := by
  have hnew : lastChange u (newest (pre ++ .upsert o f c :: mid)) = some x := by
    clear hpost post
    induction mid using Verif.Util.snocRec with
    | nil =>
      rw [newest_snoc]; simp only [isIncr, Bool.false_eq_true, if_false, lastChange_snoc, hx]
    | append_singleton m q ih =>
      rw [lastChange_snoc] at hlast
      have e : pre ++ Op.upsert o f c :: (m ++ [q]) = (pre ++ .upsert o f c :: m) ++ [q] := by simp
      have hq := hmid q (by simp)
      rw [e, newest_snoc, hq]
      simp only [Bool.false_eq_true, if_false, lastChange_snoc]
      cases q with
      | read i => exact ih (fun z hz => hmid z (by simp [hz])) hlast
      | upsert o' f' c' =>
        simp only at hlast ⊢
        cases hc : c' u with
        | some y => rw [hc] at hlast; cases hlast
        | none => rw [hc] at hlast; exact ih (fun z hz => hmid z (by simp [hz])) hlast
  refine ⟨by rw [C36_incremental]; exact hnew, ?_⟩
  rw [C36_initial]
  have hprev : previous (pre ++ .upsert o f c :: mid ++ .read false :: post) = newest (pre ++ .upsert o f c :: mid) := by
    induction post using Verif.Util.snocRec with
    | nil => rw [previous_snoc]; simp [isIncr]
    | append_singleton p q ih =>
      have e : pre ++ Op.upsert o f c :: mid ++ .read false :: (p ++ [q]) = (pre ++ .upsert o f c :: mid ++ .read false :: p) ++ [q] := by simp
      rw [e, previous_snoc, hpost q (by simp)]
      simp only [Bool.false_eq_true, if_false]
      exact ih fun z hz => hpost z (by simp [hz])
  rw [hprev]; exact hnew

/-- A change, an incremental read whose response is lost, two reads from the start, then an incremental read. -/
example : let up : Op := .upsert none none (toChanges ["@b"] ["@c"])
    let ops := [up, .read false, .upsert none none (toChanges ["@d"] [])]
    (read (run ops) true).2.lists "@b" = some .changed ∧ (read (run ops) true).2.lists "@d" = none
    ∧ (read (run (ops ++ [.read true])) false).2.lists "@d" = some .changed
    ∧ (read (run (ops ++ [.read true, .read false])) true).2.lists "@b" = none := by decide +kernel

/-! ## C37 -/

/-- C37, reads: an incremental read reports the counts (fallback types) exactly if some were recorded since the
previous incremental read, and then the last ones recorded; a read from the start reports the last ones ever. -/
theorem C37_reads (ops : List Op) :
    ((read (run ops) false).2.otk = if (lastOTK (newest ops)).isSome then lastOTK ops else none) ∧
    ((read (run ops) false).2.fallback = if (lastFB (newest ops)).isSome then lastFB ops else none) ∧
    ((read (run ops) true).2.otk = lastOTK ops) ∧ ((read (run ops) true).2.fallback = lastFB ops) := by
  obtain ⟨_, _, h3, h4, h5, h6, h7⟩ := run_state ops
  rw [← h3, ← h4, ← h5, ← h6]
  unfold read
  cases hr : (run ops).row
  · obtain ⟨_, _, g3, g4, g5, g6⟩ := h7 hr
    simp [g3, g4]
  · simp

private theorem lastOTK_newest (ops : List Op) (h : (lastOTK (newest ops)).isSome) : lastOTK ops = lastOTK (newest ops) := by
  induction ops using Verif.Util.snocRec with
  | nil => simp [newest, segments, lastOTK] at h
  | append_singleton l o ih =>
    rw [newest_snoc] at h ⊢
    cases hi : isIncr o with
    | true => simp [hi, lastOTK] at h
    | false =>
      simp only [hi, Bool.false_eq_true, if_false, lastOTK_snoc] at h ⊢
      generalize (match o with | Op.upsert m _ _ => m | Op.read _ => none) = x at *
      cases x with
      | some y => rfl
      | none => exact ih h

/-- C37: what an incremental read reports was recorded after the previous one. -/
theorem C37_fresh (ops : List Op) : (read (run ops) false).2.otk = lastOTK (newest ops) := by
  rw [(C37_reads ops).1]
  by_cases h : (lastOTK (newest ops)).isSome = true
  · rw [if_pos h]; exact lastOTK_newest ops h
  · rw [if_neg h]; simp only [Bool.not_eq_true, Option.isSome_eq_false_iff, Option.isNone_iff_eq_none] at h; exact h.symm

/-! ### Against the upstream values -/

/-- The last fallback types given by an accepted upstream response. -/
def upstreamFB : List Ev → Option (List String)
  | [] => none
  | e :: es => match upstreamFB es with
    | some f => some f
    | none => match e with | .sync r true => r.fallback | _ => none

/-- The last counts given by an accepted upstream response (an empty map gives none). -/
def upstreamOTK : List Ev → Option Map
  | [] => none
  | e :: es => match upstreamOTK es with
    | some f => some f
    | none => match e with | .sync ⟨some (x :: m), _, _, _⟩ true => some (x :: m) | _ => none

private theorem upstreamFB_snoc (l : List Ev) (e : Ev) : upstreamFB (l ++ [e]) =
    match (match e with | .sync r true => r.fallback | _ => none) with
    | some f => some f | none => upstreamFB l := by
  induction l with
  | nil =>
    simp only [List.nil_append, upstreamFB]
    generalize (match e with | Ev.sync r true => r.fallback | _ => none) = x
    cases x <;> rfl
  | cons a l ih =>
    simp only [List.cons_append, upstreamFB, ih]
    generalize (match e with | Ev.sync r true => r.fallback | _ => none) = x
    cases x <;> rfl

private theorem upstreamOTK_snoc (l : List Ev) (e : Ev) : upstreamOTK (l ++ [e]) =
    match (match e with | .sync ⟨some (x :: m), _, _, _⟩ true => some (x :: m) | _ => none) with
    | some f => some f | none => upstreamOTK l := by
  induction l with
  | nil => simp only [List.nil_append, upstreamOTK]; generalize (match e with | Ev.sync ⟨some (x :: m), _, _, _⟩ true => some (x :: m) | _ => none) = x; cases x <;> rfl
  | cons a l ih =>
    simp only [List.cons_append, upstreamOTK, ih]
    generalize (match e with | Ev.sync ⟨some (x :: m), _, _, _⟩ true => some (x :: m) | _ => none) = x
    cases x <;> rfl

private theorem read_keys (s : State) (i : Bool) : (read s i).1.otk = s.otk ∧ (read s i).1.fallback = s.fallback := by
  unfold read; cases s.row <;> cases i <;> simp

/-- C37, fallback types: the stored value is always the last one received from upstream and accepted, whatever
the history of responses, failed writes, reads and poller restarts. -/
theorem C37_fallback (evs : List Ev) : (evRun evs).2.fallback = upstreamFB evs := by
  have key : (evRun evs).2.fallback = upstreamFB evs ∧
      ((evRun evs).1.fallback ≠ none → (evRun evs).1.fallback = (evRun evs).2.fallback) := by
    induction evs using Verif.Util.snocRec with
    | nil => exact ⟨rfl, fun h => absurd rfl h⟩
    | append_singleton evs e ih =>
      have e' : evRun (evs ++ [e]) = evStep (evRun evs) e := by simp [evRun]
      rw [e', upstreamFB_snoc]
      generalize evRun evs = ps at *
      obtain ⟨p, s⟩ := ps
      simp only at ih
      obtain ⟨ih1, ih2⟩ := ih
      rw [← ih1]
      cases e with
      | restart => exact ⟨rfl, fun h => absurd rfl h⟩
      | read i =>
        simp only [evStep, (read_keys s i).2]
        exact ⟨trivial, ih2⟩
      | sync r ok =>
        simp only [evStep, parse]
        have hcf : (∀ f, (changedFB p r).1 = some f → r.fallback = some f ∨ (r.fallback = none ∧ f = [] ∧ p.fallback = some [])) ∧
            ((changedFB p r).1 = none → r.fallback = none ∨ (p.fallback = r.fallback)) ∧
            ((changedFB p r).2 = false → p.fallback = r.fallback) := by
          unfold changedFB
          rcases hr : r.fallback with _ | f <;> rcases hp : p.fallback with _ | g
          · simp
          · cases g with
            | nil => simp
            | cons a t => simp
          · cases f with
            | nil => simp
            | cons a t => simp
          · simp only [Option.getD_some]
            by_cases hl : g.length ≠ f.length
            · rw [if_pos hl]; simp
            · rw [if_neg hl]
              by_cases h0 : f.length = 0
              · rw [if_pos h0]
                have hf : f = [] := List.length_eq_zero_iff.1 h0
                have hg : g = [] := List.length_eq_zero_iff.1 (by omega)
                subst hf; subst hg; simp
              · rw [if_neg h0]
                by_cases hne : f ≠ g
                · rw [if_pos hne]; simp
                · rw [if_neg hne]
                  have : f = g := Classical.byContradiction hne
                  subst this; simp
        generalize hcv : changedFB p r = cf at hcf
        obtain ⟨c1, c2⟩ := cf
        simp only at hcf
        obtain ⟨k1, k2, k3⟩ := hcf
        generalize changedOTK p r = co
        generalize (decide (r.changed.length ≠ 0) || decide (r.left.length ≠ 0)) = li
        cases ok with
        | false =>
          cases hw : (li || c1.isSome || co.isSome)
          · simp only [Bool.false_and, Bool.false_eq_true, if_false]
            refine ⟨trivial, ?_⟩
            have hc1 : c1 = none := by cases c1 <;> simp_all
            cases c2 with
            | false => simp only [Bool.false_eq_true, if_false]; exact ih2
            | true =>
              simp only [if_true]
              rcases k2 hc1 with h | h
              · exact fun hn => absurd h hn
              · rw [← h]; exact ih2
          · simp only [Bool.true_and, Bool.not_false, if_true]
            exact ⟨trivial, ih2⟩
        | true =>
          simp only [Bool.not_true, Bool.and_false, Bool.false_eq_true, if_false]
          have hst : (if (li || c1.isSome || co.isSome) = true then upsert s co c1 (toChanges r.changed r.left) else s).fallback
              = c1.or s.fallback := by
            cases c1 with
            | some f => simp [upsert]
            | none => split <;> simp [upsert]
          rw [hst]
          cases hc1 : c1 with
          | some f =>
            simp only [Option.some_or]
            rcases k1 f hc1 with h | ⟨h, rfl, hp⟩
            · rw [h]
              refine ⟨rfl, ?_⟩
              cases hc2 : c2 with
              | false => simp only [Bool.false_eq_true, if_false]; rw [k3 hc2, h]; exact fun _ => rfl
              | true => simp
            · have := ih2 (by rw [hp]; simp)
              rw [h, ← this, hp]
              refine ⟨rfl, ?_⟩
              cases c2 <;> simp
          | none =>
            simp only [Option.none_or]
            rcases k2 hc1 with h | h
            · rw [h]
              refine ⟨rfl, ?_⟩
              cases c2 with
              | false => simp only [Bool.false_eq_true, if_false]; exact ih2
              | true => simp
            · cases hr : r.fallback with
              | none =>
                refine ⟨rfl, ?_⟩
                cases c2 with
                | false => simp only [Bool.false_eq_true, if_false]; exact ih2
                | true => simp
              | some f =>
                have := ih2 (by rw [h, hr]; simp)
                rw [← this, h, hr]
                refine ⟨rfl, ?_⟩
                cases c2 <;> simp
  exact key.1

/-- Same map: same counts and same algorithms. -/
def SameMap (a b : Map) : Prop := ∀ k, a.lookup k = b.lookup k

/-- Both absent or the same map. -/
def SameOpt : Option Map → Option Map → Prop
  | some a, some b => SameMap a b
  | none, none => True
  | _, _ => False

/-- The counts given by upstream responses, in order. -/
def otkMaps (evs : List Ev) : List Map := evs.filterMap fun e => match e with | .sync r _ => r.otk | _ => none

private theorem lookup_some_of_mem {m : Map} {k : String} (h : k ∈ m.map (·.1)) : ∃ v, m.lookup k = some v := by
  induction m with
  | nil => simp at h
  | cons a m ih =>
    obtain ⟨a1, a2⟩ := a
    simp only [List.lookup]
    cases hk : (k == a1)
    · have : k ∈ m.map (·.1) := by
        rcases List.mem_cons.1 h with h' | h'
        · simp only at h'; subst h'; simp at hk
        · exact h'
      exact ih this
    · exact ⟨_, rfl⟩

private theorem lookup_mem {m : Map} {k : String} {v : Int} (h : m.lookup k = some v) : (k, v) ∈ m := by
  induction m with
  | nil => simp at h
  | cons a m ih =>
    obtain ⟨a1, a2⟩ := a
    simp only [List.lookup] at h
    cases hk : (k == a1)
    · rw [hk] at h; exact List.mem_cons_of_mem _ (ih h)
    · rw [hk] at h; simp only [Option.some.injEq] at h
      have : k = a1 := by simpa using hk
      subst this; subst h; simp

private theorem lookup_of_mem {m : Map} (hn : (m.map (·.1)).Nodup) {k : String} {v : Int} (h : (k, v) ∈ m) : m.lookup k = some v := by
  induction m with
  | nil => simp at h
  | cons a m ih =>
    obtain ⟨a1, a2⟩ := a
    simp only [List.map_cons, List.nodup_cons] at hn
    rcases List.mem_cons.1 h with h' | h'
    · cases h'; simp [List.lookup]
    · have hne : ¬ k = a1 := fun he => hn.1 (he ▸ List.mem_map.2 ⟨(k, v), h', rfl⟩)
      have : (k == a1) = false := by simpa using hne
      simp only [List.lookup, this]
      exact ih hn.2 h'

/-- A duplicate-free list inside a list of the same length has the same elements. -/
private theorem nodup_subset {l l' : List String} (hn : l.Nodup) (hs : ∀ x ∈ l, x ∈ l') (hl : l'.length ≤ l.length) :
    ∀ x ∈ l', x ∈ l := by
  induction l generalizing l' with
  | nil => intro x hx; have : l' = [] := List.length_eq_zero_iff.1 (by simpa using hl); rw [this] at hx; exact hx
  | cons a l ih =>
    rw [List.nodup_cons] at hn
    have ha : a ∈ l' := hs a (by simp)
    intro x hx
    by_cases hxa : x = a
    · simp [hxa]
    · refine List.mem_cons_of_mem _ (ih (l' := l'.erase a) hn.2 (fun y hy => ?_) ?_ x ?_)
      · have : y ≠ a := fun he => hn.1 (he ▸ hy)
        exact (List.mem_erase_of_ne this).2 (hs y (by simp [hy]))
      · rw [List.length_erase_of_mem ha]; simp only [List.length_cons] at hl; omega
      · exact (List.mem_erase_of_ne hxa).2 hx

private theorem unchanged_same {p : Poller} {r : Sync} {x : String × Int} {m : Map} (hr : r.otk = some (x :: m))
    (hn : ((x :: m).map (·.1)).Nodup)
    (hnz : ∀ old, p.otk = some old → ∀ kv ∈ x :: m, kv.2 = 0 → kv.1 ∈ old.map (·.1)) (h : changedOTK p r = none) :
    ∃ old, p.otk = some old ∧ SameMap old (x :: m) := by
  unfold changedOTK at h
  rw [hr] at h
  simp only [List.length_cons, Nat.zero_lt_succ, if_true, gt_iff_lt] at h
  by_cases hl : (p.otk.getD []).length ≠ m.length + 1
  · rw [if_pos hl] at h; cases h
  · rw [if_neg hl] at h
    have hl : (p.otk.getD []).length = m.length + 1 := by omega
    cases hp : p.otk with
    | none => rw [hp] at hl; simp at hl
    | some old =>
      rw [hp] at h hl
      simp only [Option.getD_some] at h hl
      refine ⟨old, rfl, ?_⟩
      have hany : ∀ kv ∈ x :: m, kv.2 = get old kv.1 := by
        intro kv hkv
        refine Classical.byContradiction fun hc => ?_
        rw [if_pos (List.any_eq_true.2 ⟨kv, hkv, by simpa using hc⟩)] at h
        cases h
      have hlook : ∀ kv ∈ x :: m, old.lookup kv.1 = some kv.2 := by
        intro kv hkv
        have h1 := hany kv hkv
        unfold get at h1
        cases ho : old.lookup kv.1 with
        | none =>
          rw [ho] at h1
          obtain ⟨v, hv⟩ := lookup_some_of_mem (hnz old hp kv hkv h1)
          rw [ho] at hv; cases hv
        | some v => rw [ho] at h1; simp only [Option.getD_some] at h1; rw [h1]
      intro k
      cases hk : (x :: m).lookup k with
      | some v => exact hlook (k, v) (lookup_mem hk)
      | none =>
        cases ho : old.lookup k with
        | none => rfl
        | some v =>
          have hsub := nodup_subset (l := (x :: m).map (·.1)) (l' := old.map (·.1)) hn
            (fun y hy => by
              obtain ⟨kv, hkv, rfl⟩ := List.mem_map.1 hy
              exact List.mem_map.2 ⟨_, lookup_mem (hlook kv hkv), rfl⟩)
            (by simp [hl]) k (List.mem_map.2 ⟨_, lookup_mem ho, rfl⟩)
          obtain ⟨w, hw⟩ := lookup_some_of_mem hsub
          rw [hw] at hk; cases hk

/-- C37, counts (partial: upstream sends a zero count only for an algorithm it always lists): the stored counts are always the last ones
received from upstream and accepted.  Failed writes, reads and poller restarts may come in between. -/
theorem C37_otk_partial (evs : List Ev) (hn : ∀ m ∈ otkMaps evs, (m.map (·.1)).Nodup) 
    (hnz : ∀ m ∈ otkMaps evs, ∀ kv ∈ m, kv.2 = 0 → ∀ m' ∈ otkMaps evs, m' ≠ [] → kv.1 ∈ m'.map (·.1)) :
    SameOpt (evRun evs).2.otk (upstreamOTK evs) := by
  have key : SameOpt (evRun evs).2.otk (upstreamOTK evs) ∧
      (∀ o, (evRun evs).1.otk = some o → ∃ s, (evRun evs).2.otk = some s ∧ SameMap s o) ∧
      (∀ o, (evRun evs).1.otk = some o → o ∈ otkMaps evs ∧ o ≠ []) := by
    induction evs using Verif.Util.snocRec with
    | nil => exact ⟨trivial, (by intro o h; cases h), (by intro o h; cases h)⟩
    | append_singleton evs e ih =>
      have e' : evRun (evs ++ [e]) = evStep (evRun evs) e := by simp [evRun]
      have hmaps : otkMaps (evs ++ [e]) = otkMaps evs ++ otkMaps [e] := by simp [otkMaps]
      rw [hmaps] at hn hnz
      obtain ⟨ih1, ih2, ih3⟩ := ih (fun m hm => hn m (by simp [hm]))
        (fun m hm kv hkv h0 m' hm' => hnz m (by simp [hm]) kv hkv h0 m' (by simp [hm']))
      rw [hmaps]
      have ih3' : ∀ o, (evRun evs).1.otk = some o → o ∈ otkMaps evs ++ otkMaps [e] ∧ o ≠ [] :=
        fun o ho => ⟨List.mem_append_left _ (ih3 o ho).1, (ih3 o ho).2⟩
      rw [e', upstreamOTK_snoc]
      generalize evRun evs = ps at *
      obtain ⟨p, s⟩ := ps
      simp only at ih1 ih2 ih3 ih3'
      cases e with
      | restart => exact ⟨ih1, (by intro o h; cases h), (by intro o h; cases h)⟩
      | read i =>
        simp only [evStep, (read_keys s i).1]
        exact ⟨ih1, ih2, ih3'⟩
      | sync r ok =>
        simp only [evStep, parse]
        generalize (changedFB p r) = cf
        generalize (decide (r.changed.length ≠ 0) || decide (r.left.length ≠ 0)) = li
        have hst : ∀ co, (if (li || cf.1.isSome || co.isSome) = true then upsert s co cf.1 (toChanges r.changed r.left) else s).otk
              = co.or s.otk := by
          intro co
          cases co with
          | some f => simp [upsert]
          | none => split <;> simp [upsert]
        obtain ⟨ro, rf, rc, rl⟩ := r
        rcases ro with _ | (_ | ⟨x, m⟩)
        · -- no counts
          have hco : changedOTK p ⟨none, rf, rc, rl⟩ = none := rfl
          rw [hco]
          cases ok with
          | false =>
            simp only at ih1 ih2 ih3' ⊢
            split
            · exact ⟨ih1, ih2, ih3'⟩
            · rw [hst]; exact ⟨ih1, ih2, ih3'⟩
          | true =>
            simp only [Bool.not_true, Bool.and_false, Bool.false_eq_true, if_false]
            rw [hst]; exact ⟨ih1, ih2, ih3'⟩
        · have hco : changedOTK p ⟨some [], rf, rc, rl⟩ = none := rfl
          rw [hco]
          cases ok with
          | false =>
            simp only at ih1 ih2 ih3' ⊢
            split
            · exact ⟨ih1, ih2, ih3'⟩
            · rw [hst]; exact ⟨ih1, ih2, ih3'⟩
          | true =>
            simp only [Bool.not_true, Bool.and_false, Bool.false_eq_true, if_false]
            rw [hst]; exact ⟨ih1, ih2, ih3'⟩
        · have hn' := hn (x :: m) (by simp [otkMaps])
          have hin : (x :: m) ∈ otkMaps evs ++ otkMaps [Ev.sync ⟨some (x :: m), rf, rc, rl⟩ ok] := by simp [otkMaps]
          have hnz' : ∀ old, p.otk = some old → ∀ kv ∈ x :: m, kv.2 = 0 → kv.1 ∈ old.map (·.1) :=
            fun old ho kv hkv h0 => hnz (x :: m) hin kv hkv h0 old (ih3' old ho).1 (ih3' old ho).2
          have hun := unchanged_same (p := p) (r := ⟨some (x :: m), rf, rc, rl⟩) rfl hn' hnz'
          have hch : ∀ c, changedOTK p ⟨some (x :: m), rf, rc, rl⟩ = some c → c = x :: m := by
            intro c hc
            unfold changedOTK at hc
            simp only at hc
            split at hc
            · split at hc
              · exact (Option.some.inj hc).symm
              · split at hc
                · exact (Option.some.inj hc).symm
                · cases hc
            · cases hc
          have hps : ∀ co, changedOTK p ⟨some (x :: m), rf, rc, rl⟩ = co → ∃ a,
              co.or s.otk = some a ∧ SameMap a (x :: m) := by
            intro co hco
            cases co with
            | some c => exact ⟨c, rfl, by rw [hch c hco]; exact fun _ => rfl⟩
            | none =>
              obtain ⟨old, ho, hsame⟩ := hun hco
              obtain ⟨a, ha, hsa⟩ := ih2 old ho
              exact ⟨a, ha, fun k => (hsa k).trans (hsame k)⟩
          cases ok with
          | false =>
            simp only at ih1 ih2 ih3' ⊢
            split
            · exact ⟨ih1, ih2, ih3'⟩
            · rename_i hw
              have hco : changedOTK p ⟨some (x :: m), rf, rc, rl⟩ = none := by
                cases hc : changedOTK p ⟨some (x :: m), rf, rc, rl⟩
                · rfl
                · rw [hc] at hw; simp at hw
              rw [hco, hst]
              refine ⟨ih1, fun o ho => ?_, fun o ho => ?_⟩ <;>
                simp only [List.length_cons, Nat.zero_lt_succ, if_true, gt_iff_lt, Option.some.injEq] at ho <;> subst ho
              · exact hps none hco
              · exact ⟨hin, by simp⟩
          | true =>
            simp only [Bool.not_true, Bool.and_false, Bool.false_eq_true, if_false]
            rw [hst]
            obtain ⟨a, ha, hsa⟩ := hps _ rfl
            refine ⟨?_, fun o ho => ?_, fun o ho => ?_⟩
            · rw [ha]; exact hsa
            all_goals
              simp only [List.length_cons, Nat.zero_lt_succ, if_true, gt_iff_lt, Option.some.injEq] at ho
              subst ho
            · exact ⟨a, ha, hsa⟩
            · exact ⟨hin, by simp⟩
  exact key.1

example : (evRun [.sync { otk := some [("a", 5)], fallback := some ["x"] } true, .read false,
      .sync { otk := some [("a", 4)], fallback := some [] } false, .restart, .sync { otk := some [("a", 4)], fallback := some [] } true]).2.otk
    = some [("a", 4)] := by decide +kernel

/-- C37 is violated: a map of the same size whose count is zero for a new algorithm is taken as unchanged. -/
theorem C37_violated_zero :
    let evs : List Ev := [.sync { otk := some [("signed_curve25519", 5)] } true, .sync { otk := some [("other", 0)] } true]
    (evRun evs).2.otk = some [("signed_curve25519", 5)] ∧ upstreamOTK evs = some [("other", 0)] := by decide +kernel

/-! ### Device lists against the upstream responses -/

/-- What one response says of a user: having left wins. -/
inductive Says (r : Sync) (u : String) : Option Change → Prop
  | left : u ∈ r.left → Says r u (some .left)
  | changed : u ∉ r.left → u ∈ r.changed → Says r u (some .changed)
  | nothing : u ∉ r.left → u ∉ r.changed → Says r u none

theorem says_iff (r : Sync) (u : String) (o : Option Change) : Says r u o ↔ o = toChanges r.changed r.left u := by
  unfold toChanges
  by_cases h1 : u ∈ r.left
  · simp only [h1, if_true]
    constructor
    · rintro (_ | h | h)
      · rfl
      · exact absurd h1 h
      · exact absurd h1 h
    · rintro rfl; exact .left h1
  · by_cases h2 : u ∈ r.changed
    · simp only [h1, h2, if_true, if_false]
      constructor
      · rintro (h | _ | ⟨_, h⟩)
        · exact absurd h h1
        · rfl
        · exact absurd h2 h
      · rintro rfl; exact .changed h1 h2
    · simp only [h1, h2, if_false]
      constructor
      · rintro (h | ⟨_, h⟩ | _)
        · exact absurd h h1
        · exact absurd h h2
        · rfl
      · rintro rfl; exact .nothing h1 h2

/-- Nothing is said of the user and no incremental read happens. -/
def Quiet (u : String) : Ev → Prop
  | .sync r true => Says r u none
  | .read false => False
  | _ => True

theorem parse_new (p : Poller) (s : State) (r : Sync) (ok : Bool) (u : String) :
    (parse p s r ok).2.new u = if ok then (toChanges r.changed r.left u).or (s.new u) else
      s.new u := by
  unfold parse
  dsimp only
  cases ok
  · simp only [Bool.not_false, Bool.and_true, Bool.false_eq_true, if_false]
    split
    · rfl
    · next h =>
      simp only [h, Bool.false_eq_true, if_false]
  · simp only [Bool.not_true, Bool.and_false, Bool.false_eq_true, if_false, if_true]
    split
    · simp only [upsert]
      cases toChanges r.changed r.left u <;> rfl
    · next h =>
      have h1 : r.changed = [] := by
        simp only [Bool.or_eq_true, decide_eq_true_eq, not_or, Decidable.not_not] at h
        exact List.length_eq_zero_iff.1 h.1.1.1
      have h2 : r.left = [] := by
        simp only [Bool.or_eq_true, decide_eq_true_eq, not_or, Decidable.not_not] at h
        exact List.length_eq_zero_iff.1 h.1.1.2
      simp [toChanges, h1, h2]

theorem parse_row (p : Poller) (s : State) (r : Sync) (ok : Bool) (h : s.row = false → ∀ u, s.new u = none) :
    (parse p s r ok).2.row = false → ∀ u, (parse p s r ok).2.new u = none := by
  unfold parse
  dsimp only
  split
  · exact h
  · dsimp only
    split
    · intro h'; simp [upsert] at h'
    · exact h

theorem evRun_snoc (evs : List Ev) (e : Ev) : evRun (evs ++ [e]) = evStep (evRun evs) e := by
  unfold evRun; rw [List.foldl_append]; rfl

theorem evRow (evs : List Ev) : (evRun evs).2.row = false → ∀ u, (evRun evs).2.new u = none := by
  induction evs using Verif.Util.snocRec with
  | nil => intro _ _; rfl
  | append_singleton evs e ih =>
    rw [evRun_snoc]
    cases e with
    | sync r ok => exact parse_row _ _ _ _ ih
    | restart => exact ih
    | read i =>
      intro h u
      simp only [evStep, read] at h ⊢
      cases hr : (evRun evs).2.row
      · simp only [Bool.not_false, if_true]; exact ih hr u
      · cases i
        · simp
        · simp [hr] at h

/-- C36 end to end: if an accepted response said something of a user, and later responses said nothing of them and
no incremental read happened since, the next incremental read reports that; and it reports only such things. -/
theorem C36_upstream (evs : List Ev) (u : String) (c : Change) :
    (read (evRun evs).2 false).2.lists u = some c ↔
      ∃ a r b, evs = a ++ .sync r true :: b ∧ Says r u (some c) ∧ ∀ e ∈ b, Quiet u e := by
  have hread : (read (evRun evs).2 false).2.lists u = (evRun evs).2.new u := by
    unfold read
    cases hr : (evRun evs).2.row
    · simp [evRow evs hr u]
    · simp
  rw [hread]
  induction evs using Verif.Util.snocRec with
  | nil => simp [evRun]
  | append_singleton evs e ih =>
    have key : (∃ a r b, evs ++ [e] = a ++ .sync r true :: b ∧ Says r u (some c) ∧ ∀ x ∈ b, Quiet u x) ↔
        (∃ r, e = .sync r true ∧ Says r u (some c)) ∨
        (Quiet u e ∧ ∃ a r b, evs = a ++ .sync r true :: b ∧ Says r u (some c) ∧ ∀ x ∈ b, Quiet u x) := by
      constructor
      · rintro ⟨a, r, b, h, hs, hb⟩
        rcases List.eq_nil_or_concat b with rfl | ⟨b', x, rfl⟩
        · obtain ⟨rfl, h2⟩ := List.append_inj' h rfl
          simp only [List.cons.injEq, and_true] at h2
          exact Or.inl ⟨r, h2, hs⟩
        · rw [List.concat_eq_append, show a ++ Ev.sync r true :: (b' ++ [x]) = (a ++ .sync r true :: b') ++ [x] by simp] at h
          obtain ⟨rfl, h2⟩ := List.append_inj' h rfl
          simp only [List.cons.injEq, and_true] at h2
          subst h2
          exact Or.inr ⟨hb e (by simp), a, r, b', rfl, hs, fun x hx => hb x (by simp [hx])⟩
      · rintro (⟨r, rfl, hs⟩ | ⟨hq, a, r, b, rfl, hs, hb⟩)
        · exact ⟨evs, r, [], rfl, hs, by simp⟩
        · refine ⟨a, r, b ++ [e], by simp, hs, ?_⟩
          intro x hx
          rcases List.mem_append.1 hx with hx | hx
          · exact hb x hx
          · rw [List.mem_singleton.1 hx]; exact hq
    have ih' : (evRun evs).2.new u = some c ↔
        ∃ a r b, evs = a ++ .sync r true :: b ∧ Says r u (some c) ∧ ∀ e ∈ b, Quiet u e := ih (by
      unfold read
      cases hr : (evRun evs).2.row
      · simp [evRow evs hr u]
      · simp)
    rw [key, ← ih', evRun_snoc]
    cases e with
    | restart => simp [evStep, Quiet]
    | read i =>
      cases i
      · simp only [evStep, Quiet, false_and, or_false, read]
        cases hr : (evRun evs).2.row
        · simp [evRow evs hr u]
        · simp
      · simp only [evStep, Quiet, true_and, read]
        cases hr : (evRun evs).2.row <;> simp
    | sync r ok =>
      simp only [evStep, parse_new]
      cases ok
      · simp [Quiet]
      · simp only [if_true, Quiet, says_iff, Ev.sync.injEq, and_true, exists_eq_left']
        cases ht : toChanges r.changed r.left u with
        | none => simp
        | some d => simp [eq_comm]

/-- Two responses, the second after a restart of the poller; the user of the first is still reported. -/
example : (read (evRun [.sync { changed := ["a", "b"], left := ["b"] } true, .restart, .sync { changed := ["c"] } true, .read true]).2 false).2.lists "b"
    = some .left := by decide +kernel

end Verif.E2EE
