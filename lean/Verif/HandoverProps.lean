import Verif.Handover
import Verif.StoreGap
/-!
# C151: no event of a room is lost between the pollers of a user's devices
-/
namespace Verif.Handover
open Verif

/-! ## Specification -/

/-- How far the timelines reach. -/
def reached (l : List Seg) : Nat := l.foldl (fun m g => max m (g.start + g.count)) 0

/-- A timeline that does not say that something is missing before it starts no later than those before it reach. -/
def NoGap (l : List Seg) : Prop := ∀ a g b, l = a ++ g :: b → g.limited = false → g.start ≤ reached a

/-- Event `k` is in one of the timelines. -/
def Has (l : List Seg) (k : Nat) : Prop := ∃ g ∈ l, g.start ≤ k ∧ k < g.start + g.count

/-- The poller of the device is running. -/
def Runs (s : S) (d : String) (p : P) : Prop := Assoc.get s.pollers d = some p ∧ p.terminated = false

/-- When the first answer to a poller which leaves out the rooms is taken, the rooms' events up to its token are already stored. -/
def Covered (acts : List Act) : Prop := ∀ a d rooms save b, acts = a ++ Act.answer d true rooms save :: b → ∀ p u, Runs (run a) d p →
  p.toDeviceOnly = true → p.asked = some u → u ≤ reached (run a).got

/-- No device comes along, except at startup, while the poller of another one runs. -/
def Alone (acts : List Act) : Prop := ∀ a d b, acts = a ++ Act.ensure d false :: b → ∀ d' p, (d', p) ∈ (run a).pollers → d' ≠ d →
  p.terminated = true

/-! ## Steps -/

theorem run_snoc (l : List Act) (x : Act) : run (l ++ [x]) = step (run l) x := by simp [run]

theorem reached_snoc (l : List Seg) (g : Seg) : reached (l ++ [g]) = max (reached l) (g.start + g.count) := by simp [reached]

theorem deliver_cases (got : List Seg) (p : P) (u : Nat) : deliver got p u = got ∨
    (p.toDeviceOnly = false ∧ deliver got p u = got ++ [page p.since u]) := by
  unfold deliver
  cases p.toDeviceOnly
  · by_cases h : (page p.since u).count = 0
    · left; simp [h]
    · right; simp [h]
  · left; rfl

theorem deliver_mono (got : List Seg) (p : P) (u : Nat) : reached got ≤ reached (deliver got p u) := by
  rcases deliver_cases got p u with h | ⟨_, h⟩ <;> rw [h]
  · exact Nat.le_refl _
  · rw [reached_snoc]; omega

/-- After the answer everything up to its token is stored. -/
theorem deliver_reach {got : List Seg} {p : P} {u : Nat} (ht : p.toDeviceOnly = false) (hs : ∀ x, p.since = some x → x ≤ reached got) :
    u ≤ reached (deliver got p u) := by
  unfold deliver
  rw [ht]
  have hx : p.since.getD 0 ≤ reached got := by
    cases h : p.since with
    | none => simp
    | some x => simpa using hs x h
  simp only [Bool.false_eq_true, if_false]
  by_cases h : (page p.since u).count = 0
  · rw [if_pos h]
    unfold page at h
    dsimp only at h
    split at h
    · have : 0 < limit p.since := by unfold limit; split <;> decide
      have h : limit p.since = 0 := h
      omega
    · simp only at h; omega
  · rw [if_neg h, reached_snoc]
    unfold page
    dsimp only
    split <;> simp only <;> omega

theorem deliver_noGap {got : List Seg} {p : P} {u : Nat} (hg : NoGap got) (hs : ∀ x, p.since = some x → x ≤ reached got) :
    NoGap (deliver got p u) := by
  rcases deliver_cases got p u with h | ⟨_, h⟩ <;> rw [h]
  · exact hg
  · intro a g b he hl
    rcases List.eq_nil_or_concat b with rfl | ⟨b', z, rfl⟩
    · obtain ⟨rfl, h2⟩ := List.append_inj' he rfl
      simp only [List.cons.injEq, and_true] at h2
      subst h2
      unfold page at hl ⊢
      dsimp only at hl ⊢
      split at hl
      · cases hl
      · rename_i hn
        rw [if_neg hn]
        show p.since.getD 0 ≤ _
        cases h : p.since with
        | none => simp
        | some x => simpa using hs x h
    · have he' : got ++ [page p.since u] = (a ++ g :: b') ++ [z] := by rw [he]; simp
      obtain ⟨h1, _⟩ := List.append_inj' he' rfl
      exact hg a g b' h1 hl

/-! ## The invariant -/

structure Inv (s : S) : Prop where
  since : ∀ d p, Assoc.get s.pollers d = some p → ∀ x, p.since = some x → x ≤ reached s.got
  saved : ∀ d x, Assoc.get s.saved d = some x → x ≤ reached s.got
  gap : NoGap s.got

/-- Changing a poller without changing its token. -/
theorem change_inv {s : S} {d : String} {f : P → P} (h : Inv s) (hf : ∀ p, (f p).since = p.since) : Inv (change s d f) := by
  unfold change
  cases hp : Assoc.get s.pollers d with
  | none => exact h
  | some p =>
    dsimp only
    split
    · exact h
    · refine ⟨fun d' p' hg x hx => ?_, h.saved, h.gap⟩
      rw [Assoc.get_set] at hg
      split at hg
      · cases hg
        rw [hf] at hx
        exact h.since d p hp x hx
      · exact h.since d' p' hg x hx

theorem ensure_inv {s : S} (h : Inv s) (d : String) (b : Bool) : Inv (ensure s d b) := by
  have key : Inv { s with pollers := Assoc.set s.pollers d (fresh s d b) } := by
    refine ⟨fun d' p' hg x hx => ?_, h.saved, h.gap⟩
    rw [Assoc.get_set] at hg
    split at hg
    · cases hg
      exact h.saved d x hx
    · exact h.since d' p' hg x hx
  unfold ensure
  split
  · split
    · exact key
    · exact h
  · exact key

theorem answer_inv {s : S} (h : Inv s) (d : String) (ok rooms save : Bool)
    (hc : ok = true → ∀ p u, Runs s d p → p.toDeviceOnly = true → p.asked = some u → u ≤ reached s.got) :
    Inv (answer s d ok rooms save) := by
  unfold answer
  cases hp : Assoc.get s.pollers d with
  | none => exact h
  | some p =>
    dsimp only
    cases ht : p.terminated with
    | true => exact h
    | false =>
      simp only [Bool.false_eq_true, if_false]
      cases ha : p.asked with
      | none => exact h
      | some u =>
        dsimp only
        have hs := h.since d p hp
        have hm := deliver_mono s.got p u
        cases ok with
        | true =>
          simp only [if_true]
          have hu : u ≤ reached (deliver s.got p u) := by
            cases hd : p.toDeviceOnly with
            | true => exact Nat.le_trans (hc rfl p u ⟨hp, ht⟩ hd ha) hm
            | false => exact deliver_reach hd hs
          refine ⟨fun d' p' hg x hx => ?_, fun d' x hg => ?_, deliver_noGap h.gap hs⟩
          · rw [Assoc.get_set] at hg
            split at hg
            · cases hg
              cases hx
              exact hu
            · exact Nat.le_trans (h.since d' p' hg x hx) hm
          · dsimp only at hg
            split at hg
            · rw [Assoc.get_set] at hg
              split at hg
              · cases hg; exact hu
              · exact Nat.le_trans (h.saved d' x hg) hm
            · exact Nat.le_trans (h.saved d' x hg) hm
        | false =>
          simp only [Bool.false_eq_true, if_false]
          have hm' : reached s.got ≤ reached (if rooms = true then deliver s.got p u else s.got) := by
            split
            · exact hm
            · exact Nat.le_refl _
          refine ⟨fun d' p' hg x hx => Nat.le_trans ?_ hm', fun d' x hg => Nat.le_trans (h.saved d' x hg) hm', ?_⟩
          · rw [Assoc.get_set] at hg
            split at hg
            · cases hg
              exact hs x hx
            · exact h.since d' p' hg x hx
          · dsimp only
            split
            · exact deliver_noGap h.gap hs
            · exact h.gap

theorem inv_run (acts : List Act) (hc : Covered acts) : Inv (run acts) := by
  induction acts using Verif.Util.snocRec with
  | nil => exact ⟨(fun _ _ h => nomatch h), (fun _ _ h => nomatch h), (fun a g b h => absurd (congrArg List.length h) (by simp [run]))⟩
  | append_singleton l x ih =>
    have hi := ih fun a d r v b he => hc a d r v (b ++ [x]) (by rw [he]; simp)
    rw [run_snoc]
    cases x with
    | send => exact ⟨hi.since, hi.saved, hi.gap⟩
    | ensure d b => exact ensure_inv hi d b
    | ask d => exact change_inv hi fun p => by split <;> rfl
    | fault d => exact change_inv hi fun p => rfl
    | stop d => exact change_inv hi fun p => rfl
    | crash => exact ⟨(fun _ _ h => nomatch h), hi.saved, hi.gap⟩
    | answer d ok r v =>
      refine answer_inv hi d ok r v fun hok p u => ?_
      subst hok
      exact hc l d r v [] rfl p u

/-- A gap is always announced if, whenever a poller that left out the rooms at first gets its token, the rooms' events up to there are
stored.  Missing: pollers that are given their token before (`C151_violated`, `C151_violated_race`). -/
theorem C151_covered_partial (acts : List Act) (hc : Covered acts) : NoGap (run acts).got := (inv_run acts hc).gap

/-! ## What is stored -/

/-- The timeline of a sync of `Verif.Store` in the room. -/
def segOf : Store.Sync → Option Seg
  | .room _ _ _ l i n => some ⟨i, n, l⟩
  | .other _ => none

/-- What C79 assumes of a sync, without the part on gaps: it has events and the state before them, it ends no earlier than those before it,
and other rooms have other events. -/
def Fits (up : List Store.Ev) (room : String) (h : List Store.Sync) : Store.Sync → Prop
  | .room _ b _ _ i n => 0 < n ∧ i + n ≤ up.length ∧ (b.map (·.id)).Nodup ∧ (∀ e ∈ b, e ∈ up.take i) ∧ Store.reached h ≤ i + n
  | .other o => o.room ≠ room ∧ Store.OkOp o ∧ ∀ e ∈ o.events, ∀ x ∈ up, x.id ≠ e.id

theorem reached_store (h : List Store.Sync) : reached (h.filterMap segOf) = Store.reached h := by
  induction h using Verif.Util.snocRec with
  | nil => rfl
  | append_singleton l s ih =>
    rw [List.filterMap_append, Store.reached_snoc]
    cases s with
    | room k b k' l' i n => 
      rw [show List.filterMap segOf [Store.Sync.room k b k' l' i n] = [⟨i, n, l'⟩] from rfl, reached_snoc, ih]
      rfl
    | other o => 
      rw [show List.filterMap segOf [Store.Sync.other o] = [] from rfl, List.append_nil, ih]
      simp [Store.Sync.stop]

/-- If the pollers hand over properly and deliver in order, the stored timeline has no holes that are not marked. -/
theorem C151_stored {up : List Store.Ev} {room : String} (hup : Store.OkUp up) (acts : List Act) (hc : Covered acts) (h : List Store.Sync)
    (hg : h.filterMap segOf = (run acts).got) (hf : ∀ a s b, h = a ++ s :: b → Fits up room a s) :
    Store.NoHoles up (Store.timelineOf (Store.run (Store.opsOf up room h)) room) := by
  refine Store.C79_no_holes_partial hup h fun a s b he => ?_
  have hs := hf a s b he
  cases s with
  | other o => exact hs
  | room k bl k' l i n =>
    obtain ⟨h1, h2, h3, h4, h5⟩ := hs
    refine ⟨h1, h2, h3, h4, h5, fun hl => ?_⟩
    have hn := C151_covered_partial acts hc (a.filterMap segOf) ⟨i, n, l⟩ (b.filterMap segOf)
      (by rw [← hg, he, List.filterMap_append]; rfl) hl
    rwa [reached_store] at hn

/-! ## One device at a time -/

theorem change_mem {s : S} {d : String} {f : P → P} {x : String × P} (h : x ∈ (change s d f).pollers) :
    x ∈ s.pollers ∨ ∃ p, (d, p) ∈ s.pollers ∧ x.2 = f p := by
  unfold change at h
  cases hp : Assoc.get s.pollers d with
  | none => rw [hp] at h; exact Or.inl h
  | some p =>
    rw [hp] at h
    dsimp only at h
    split at h
    · exact Or.inl h
    · rcases List.mem_append.1 h with h | h
      · exact Or.inl (List.mem_filter.1 h).1
      · right
        simp only [List.mem_singleton] at h
        exact ⟨p, Assoc.get_mem hp, by rw [h]⟩

theorem alone_rooms (acts : List Act) (ha : Alone acts) : ∀ x ∈ (run acts).pollers, x.2.toDeviceOnly = false := by
  induction acts using Verif.Util.snocRec with
  | nil => intro x h; cases h
  | append_singleton l y ih =>
    have hi := ih fun a d b he => ha a d (b ++ [y]) (by rw [he]; simp)
    rw [run_snoc]
    have hch : ∀ d (f : P → P), (∀ p, (f p).toDeviceOnly = p.toDeviceOnly) →
        ∀ x ∈ (change (run l) d f).pollers, x.2.toDeviceOnly = false := by
      intro d f hf x hx
      rcases change_mem hx with h | ⟨p, hp, h⟩
      · exact hi x h
      · rw [h, hf]; exact hi _ hp
    cases y with
    | send => exact hi
    | ask d => exact hch d _ fun p => by split <;> rfl
    | fault d => exact hch d _ fun p => rfl
    | stop d => exact hch d _ fun p => rfl
    | crash => intro x h; cases h
    | ensure d b =>
      have key : ∀ x ∈ Assoc.set (run l).pollers d (fresh (run l) d b),
          x.2.toDeviceOnly = false := by
        intro x hx
        rcases List.mem_append.1 hx with hx | hx
        · exact hi x (List.mem_filter.1 hx).1
        · simp only [List.mem_singleton] at hx
          rw [hx]
          cases b with
          | true => simp [fresh]
          | false =>
            have hn : another (run l) d = false := by
              unfold another
              rw [List.any_eq_false]
              intro z hz
              simp only [Bool.and_eq_true, decide_eq_true_eq, Bool.not_eq_true', not_and, Bool.not_eq_false]
              intro hne
              exact ha l d [] rfl z.1 z.2 hz hne
            simp [fresh, hn]
      show ∀ x ∈ (ensure (run l) d b).pollers, _
      unfold ensure
      split
      · split
        · exact key
        · exact hi
      · exact key
    | answer d ok r v =>
      show ∀ x ∈ (answer (run l) d ok r v).pollers, _
      have key : ∀ p, p.toDeviceOnly = false → ∀ x ∈ Assoc.set (run l).pollers d p, x.2.toDeviceOnly = false := by
        intro p hp x hx
        rcases List.mem_append.1 hx with hx | hx
        · exact hi x (List.mem_filter.1 hx).1
        · simp only [List.mem_singleton] at hx
          rw [hx]; exact hp
      unfold answer
      cases hp : Assoc.get (run l).pollers d with
      | none => exact hi
      | some p =>
        dsimp only
        split
        · exact hi
        · split
          · exact hi
          · split
            · exact key _ rfl
            · exact key _ rfl

/-- A user whose devices do not overlap, except for those known at startup, never has an unannounced gap. -/
theorem C151_alone (acts : List Act) (ha : Alone acts) : NoGap (run acts).got := by
  refine C151_covered_partial acts fun a d r v b he p u hr ht => ?_
  have := alone_rooms a (fun a' d' b' he' => ha a' d' (b' ++ Act.answer d true r v :: b) (by rw [he, he']; simp)) _ (Assoc.get_mem hr.1)
  rw [this] at ht; cases ht

/-! ## What is lost stays lost -/

/-- The room went on after event `k`, and all pollers, and all devices which may come back, are past it. -/
structure Past (gone : String → Prop) (k : Nat) (s : S) : Prop where
  now : k + 1 < s.now
  since : ∀ d p, Runs s d p → ∀ x, p.since = some x → k < x
  asked : ∀ d p, Runs s d p → ∀ u, p.asked = some u → k + 1 < u
  saved : ∀ d x, ¬ gone d → Assoc.get s.saved d = some x → k < x
  has : ¬ Has s.got k

theorem page_past {since : Option Nat} {u k : Nat} (hs : ∀ x, since = some x → k < x) (hu : k + 1 < u) :
    ¬ ((page since u).start ≤ k ∧ k < (page since u).start + (page since u).count) := by
  have hx : since.getD 0 = 0 ∧ limit since = 1 ∨ k < since.getD 0 := by
    cases since with
    | none => exact Or.inl ⟨rfl, rfl⟩
    | some x => exact Or.inr (hs x rfl)
  unfold page
  dsimp only
  by_cases h : u - since.getD 0 > limit since
  · rw [if_pos h]; dsimp only; omega
  · rw [if_neg h]; dsimp only; omega

theorem deliver_past {got : List Seg} {p : P} {u k : Nat} (h : ¬ Has got k) (hs : ∀ x, p.since = some x → k < x) (hu : k + 1 < u) :
    ¬ Has (deliver got p u) k := by
  rcases deliver_cases got p u with h' | ⟨_, h'⟩ <;> rw [h']
  · exact h
  · rintro ⟨g, hg, h1⟩
    rcases List.mem_append.1 hg with hg | hg
    · exact h ⟨g, hg, h1⟩
    · simp only [List.mem_singleton] at hg
      subst hg
      exact page_past hs hu h1

theorem change_past {gone : String → Prop} {k : Nat} {s : S} {d : String} {f : P → P} (h : Past gone k s)
    (hf : ∀ p, (f p).since = p.since) (hk : ∀ p u, (f p).asked = some u → p.asked = some u ∨ u = s.now) : Past gone k (change s d f) := by
  unfold change
  cases hp : Assoc.get s.pollers d with
  | none => exact h
  | some p =>
    dsimp only
    cases ht : p.terminated with
    | true => exact h
    | false =>
      simp only [Bool.false_eq_true, if_false]
      have hr : Runs s d p := ⟨hp, ht⟩
      refine ⟨h.now, fun d' p' hg x hx => ?_, fun d' p' hg u hu => ?_, h.saved, h.has⟩
      · have h1 := hg.1
        rw [Assoc.get_set] at h1
        split at h1
        · cases h1
          rw [hf] at hx
          exact h.since d p hr x hx
        · exact h.since d' p' ⟨h1, hg.2⟩ x hx
      · have h1 := hg.1
        rw [Assoc.get_set] at h1
        split at h1
        · cases h1
          rcases hk p u hu with h2 | h2
          · exact h.asked d p hr u h2
          · rw [h2]; exact h.now
        · exact h.asked d' p' ⟨h1, hg.2⟩ u hu

theorem step_past {gone : String → Prop} {k : Nat} {s : S} (h : Past gone k s) (x : Act) (hx : ∀ d b, x = .ensure d b → ¬ gone d)
    (hw : ∀ d, gone d → ∀ p, ¬ Runs s d p) : Past gone k (step s x) ∧ ∀ d, gone d → ∀ p, ¬ Runs (step s x) d p := by
  have hch : ∀ d (f : P → P), ∀ d', gone d' → ∀ p, ¬ Runs (change s d f) d' p := by
    intro d f d' hg p hr
    unfold change at hr
    cases hp : Assoc.get s.pollers d with
    | none => rw [hp] at hr; exact hw d' hg p hr
    | some q =>
      rw [hp] at hr
      dsimp only at hr
      cases ht : q.terminated with
      | true => rw [ht] at hr; exact hw d' hg p hr
      | false =>
        rw [ht] at hr
        have h1 := hr.1
        simp only [Bool.false_eq_true, if_false] at h1
        rw [Assoc.get_set] at h1
        split at h1
        · rename_i he; subst he; exact hw d' hg q ⟨hp, ht⟩
        · exact hw d' hg p ⟨h1, hr.2⟩
  cases x with
  | send => exact ⟨⟨Nat.lt_succ_of_lt h.now, h.since, h.asked, h.saved, h.has⟩, hw⟩
  | ask d =>
    refine ⟨change_past h (fun p => by split <;> rfl) (fun p u hu => ?_), hch d _⟩
    split at hu
    · exact Or.inl hu
    · exact Or.inr (by cases hu; rfl)
  | fault d => exact ⟨change_past h (fun _ => rfl) (fun _ _ hu => nomatch hu), hch d _⟩
  | stop d => exact ⟨change_past h (fun _ => rfl) (fun _ _ hu => Or.inl hu), hch d _⟩
  | crash =>
    exact ⟨⟨h.now, (fun _ _ hr => nomatch hr.1), (fun _ _ hr => nomatch hr.1), h.saved, h.has⟩, fun _ _ _ hr => nomatch hr.1⟩
  | ensure d b =>
    have hng := hx d b rfl
    have key : Past gone k { s with pollers := Assoc.set s.pollers d (fresh s d b) } ∧
        ∀ d', gone d' → ∀ p, ¬ Runs { s with pollers := Assoc.set s.pollers d (fresh s d b) } d' p := by
      refine ⟨⟨h.now, fun d' p' hg x hx => ?_, fun d' p' hg u hu => ?_, h.saved, h.has⟩, fun d' hgd p hr => ?_⟩
      · have h1 := hg.1
        rw [Assoc.get_set] at h1
        split at h1
        · cases h1
          exact h.saved d x hng hx
        · exact h.since d' p' ⟨h1, hg.2⟩ x hx
      · have h1 := hg.1
        rw [Assoc.get_set] at h1
        split at h1
        · cases h1; cases hu
        · exact h.asked d' p' ⟨h1, hg.2⟩ u hu
      · have h1 := hr.1
        rw [Assoc.get_set] at h1
        split at h1
        · rename_i he; subst he; exact hng hgd
        · exact hw d' hgd p ⟨h1, hr.2⟩
    show Past gone k (ensure s d b) ∧ ∀ d', gone d' → ∀ p, ¬ Runs (ensure s d b) d' p
    unfold ensure
    split
    · split
      · exact key
      · exact ⟨h, hw⟩
    · exact key
  | answer d ok r v =>
    show Past gone k (answer s d ok r v) ∧ ∀ d', gone d' → ∀ p, ¬ Runs (answer s d ok r v) d' p
    unfold answer
    cases hp : Assoc.get s.pollers d with
    | none => exact ⟨h, hw⟩
    | some p =>
      dsimp only
      cases ht : p.terminated with
      | true => exact ⟨h, hw⟩
      | false =>
        simp only [Bool.false_eq_true, if_false]
        cases ha : p.asked with
        | none => exact ⟨h, hw⟩
        | some u =>
          dsimp only
          have hr : Runs s d p := ⟨hp, ht⟩
          have hu := h.asked d p hr u ha
          have hs := h.since d p hr
          have hd := deliver_past h.has hs hu
          have hgone : ∀ q : P, ∀ sv gt, ∀ d', gone d' → ∀ p', ¬ Runs { s with pollers := Assoc.set s.pollers d q, saved := sv, got := gt } d' p' := by
            intro q sv gt d' hgd p' hr'
            have h1 := hr'.1
            rw [Assoc.get_set] at h1
            split at h1
            · rename_i he; subst he; exact hw d' hgd p hr
            · exact hw d' hgd p' ⟨h1, hr'.2⟩
          cases ok with
          | true =>
            simp only [if_true]
            refine ⟨⟨h.now, fun d' p' hg x hx => ?_, fun d' p' hg w hw' => ?_, fun d' x hng hg => ?_, hd⟩, hgone _ _ _⟩
            · have h1 := hg.1
              rw [Assoc.get_set] at h1
              split at h1
              · cases h1; cases hx; omega
              · exact h.since d' p' ⟨h1, hg.2⟩ x hx
            · have h1 := hg.1
              rw [Assoc.get_set] at h1
              split at h1
              · cases h1; cases hw'
              · exact h.asked d' p' ⟨h1, hg.2⟩ w hw'
            · dsimp only at hg
              split at hg
              · rw [Assoc.get_set] at hg
                split at hg
                · cases hg; omega
                · exact h.saved d' x hng hg
              · exact h.saved d' x hng hg
          | false =>
            simp only [Bool.false_eq_true, if_false]
            refine ⟨⟨h.now, fun d' p' hg x hx => ?_, fun d' p' hg w hw' => ?_, h.saved, ?_⟩, hgone _ _ _⟩
            · have h1 := hg.1
              rw [Assoc.get_set] at h1
              split at h1
              · cases h1; exact hs x hx
              · exact h.since d' p' ⟨h1, hg.2⟩ x hx
            · have h1 := hg.1
              rw [Assoc.get_set] at h1
              split at h1
              · cases h1; cases hw'
              · exact h.asked d' p' ⟨h1, hg.2⟩ w hw'
            · dsimp only
              split
              · exact hd
              · exact h.has

/-- An event which all running pollers and all devices that may come back are past is never fetched again, whatever happens: not even a
new device gets it, whose first sync has the newest event only. -/
theorem C151_lost (gone : String → Prop) (k : Nat) (acts more : List Act) (h : Past gone k (run acts))
    (hw : ∀ d, gone d → ∀ p, ¬ Runs (run acts) d p) (hm : ∀ d b, Act.ensure d b ∈ more → ¬ gone d) :
    ¬ Has (run (acts ++ more)).got k := by
  have key : ∀ (more : List Act) (s : S), Past gone k s → (∀ d, gone d → ∀ p, ¬ Runs s d p) →
      (∀ d b, Act.ensure d b ∈ more → ¬ gone d) → Past gone k (more.foldl step s) := by
    intro more
    induction more with
    | nil => intro s h _ _; exact h
    | cons x l ih =>
      intro s h hw hm
      obtain ⟨h1, h2⟩ := step_past h x (fun d b he => hm d b (by rw [he]; exact List.mem_cons_self ..)) hw
      exact ih _ h1 h2 fun d b hd => hm d b (List.mem_cons_of_mem _ hd)
  have := (key more (run acts) h hw hm).has
  simpa [run, List.foldl_append] using this

/-! ## Violations -/

/-- A is polled up to event 1; event 2 is sent; B comes along and gets its token, without rooms; A is logged out before it asks again;
event 3 is sent and B fetches it. -/
def exLost : List Act :=
  [.ensure "A" false, .send, .send, .ask "A", .answer "A" true true true, .send, .ensure "B" false, .ask "B", .answer "B" true true true,
   .stop "A", .send, .ask "B", .answer "B" true true true]

/-- If the first device is logged out before its poller fetched what the second one left out, an event is lost: the timeline after it is not
marked, and nothing that happens later, other than the first device coming back, fetches it. -/
theorem C151_violated : ¬ NoGap (run exLost).got ∧
    ∀ more, (∀ d b, Act.ensure d b ∈ more → d ≠ "A") → ¬ Has (run (exLost ++ more)).got 2 := by
  refine ⟨fun h => ?_, fun more hm => ?_⟩
  · have := h [⟨1, 1, true⟩] ⟨3, 1, false⟩ [] (by decide +kernel) rfl
    revert this; decide
  · have hp : (run exLost).pollers = [("A", ⟨some 2, false, true, none⟩), ("B", ⟨some 4, false, false, none⟩)] := by decide +kernel
    have hs : (run exLost).saved = [("A", 2), ("B", 4)] := by decide +kernel
    have hg : (run exLost).got = [⟨1, 1, true⟩, ⟨3, 1, false⟩] := by decide +kernel
    have hn : (run exLost).now = 4 := by decide +kernel
    have hr : ∀ d p, Runs (run exLost) d p → p = ⟨some 4, false, false, none⟩ := by
      intro d p hr
      have := Assoc.get_mem hr.1
      rw [hp] at this
      simp only [List.mem_cons, Prod.mk.injEq, List.not_mem_nil, or_false] at this
      rcases this with ⟨_, rfl⟩ | ⟨_, rfl⟩
      · exact absurd hr.2 (by simp)
      · rfl
    refine C151_lost (fun d => d = "A") 2 exLost more ⟨by rw [hn]; decide, fun d p h x hx => ?_, fun d p h u hu => ?_, fun d x hd h => ?_, ?_⟩
      (fun d hd p h => ?_) hm
    · rw [hr d p h] at hx; cases hx; decide
    · rw [hr d p h] at hu; cases hu
    · have := Assoc.get_mem h
      rw [hs] at this
      simp only [List.mem_cons, Prod.mk.injEq, List.not_mem_nil, or_false] at this
      rcases this with ⟨rfl, _⟩ | ⟨_, rfl⟩
      · exact absurd rfl hd
      · decide
    · rw [hg]
      rintro ⟨g, hgm, h1⟩
      simp only [List.mem_cons, List.not_mem_nil, or_false] at hgm
      rcases hgm with rfl | rfl <;> simp only at h1 <;> omega
    · have h1 := hr d p h
      have h2 := h.1
      subst hd
      rw [hp, h1] at h2
      revert h2; decide +kernel

/-- Both devices stay, but the second one's next answer is processed before the first one's: the later event is stored before the earlier. -/
theorem C151_violated_race : ∃ acts, (∀ d, Act.stop d ∉ acts) ∧ Act.crash ∉ acts ∧
    (run acts).got = [⟨1, 1, true⟩, ⟨3, 1, false⟩, ⟨2, 2, false⟩] ∧ ¬ NoGap (run acts).got := by
  refine ⟨[.ensure "A" false, .send, .send, .ask "A", .answer "A" true true true, .send, .ensure "B" false, .ask "B",
    .answer "B" true true true, .send, .ask "A", .ask "B", .answer "B" true true true, .answer "A" true true true],
    fun d h => by simp at h, by decide, by decide +kernel, fun h => ?_⟩
  have := h [⟨1, 1, true⟩] ⟨3, 1, false⟩ [⟨2, 2, false⟩] (by decide +kernel) rfl
  revert this; decide

/-- The timelines of the run in which an event is lost, in the database: `$3` is stored as if it followed `$1`. -/
theorem C151_violated_stored : ∃ h : List Store.Sync, h.filterMap segOf = (run exLost).got ∧
    (∀ a s b, h = a ++ s :: b → Fits Store.exUp "!r" a s) ∧
    Store.timelineOf (Store.run (Store.opsOf Store.exUp "!r" h)) "!r" = [("$1", true), ("$3", false)] ∧
    ¬ Store.NoHoles Store.exUp [("$1", true), ("$3", false)] := by
  refine ⟨[.room 0 [Store.exCreate] 0 true 1 1, .room 0 [] 0 false 3 1], by decide +kernel, fun a s b he => ?_, by decide +kernel,
    fun hn => ?_⟩
  · match a, he with
    | [], he =>
      simp only [List.nil_append, List.cons.injEq] at he
      obtain ⟨rfl, _⟩ := he
      exact ⟨by decide, by decide, by decide, by simp [Store.exUp], by decide⟩
    | [x], he =>
      simp only [List.cons_append, List.nil_append, List.cons.injEq] at he
      obtain ⟨rfl, rfl, _⟩ := he
      exact ⟨by decide, by decide, by decide, (fun e h => nomatch h), by decide⟩
    | x :: y :: a, he =>
      have := congrArg List.length he
      simp at this
  · obtain ⟨p, q, h⟩ := hn [] ("$1", true) ("$3", false) [] rfl rfl
    have h5 : (Store.exUp.map (·.id)) = ["$c", "$1", "$2", "$3", "$4", "$5", "$6"] := by decide
    rw [h5] at h
    match p, h with
    | [], h => simp at h
    | [_], h => simp at h
    | [_, _], h => simp at h
    | [_, _, _], h => simp at h
    | [_, _, _, _], h => simp at h
    | [_, _, _, _, _], h => simp at h
    | _ :: _ :: _ :: _ :: _ :: _ :: _, h =>
      have := congrArg List.length h
      simp at this
      omega

/-! ## Examples -/

/-- Two devices: B comes along while A is polled, A fetches what B left out, then is logged out. -/
def exFine : List Act :=
  [.ensure "A" false, .send, .send, .ask "A", .answer "A" true true true, .send, .ensure "B" false, .ask "B", .ask "A",
   .answer "A" true true true, .answer "B" true true true, .stop "A", .send, .ask "B", .answer "B" true true true]

theorem covered_of_check {acts : List Act} (h : ∀ n < acts.length, ∀ d ∈ ["A", "B"], ∀ p, Assoc.get (run (acts.take n)).pollers d = some p →
    p.toDeviceOnly = true → ∀ u, p.asked = some u → acts[n]? = some (.answer d true true true) → u ≤ reached (run (acts.take n)).got)
    (hd : ∀ d ok r v, Act.answer d ok r v ∈ acts → (d = "A" ∨ d = "B") ∧ r = true ∧ v = true) : Covered acts := by
  intro a d r v b he p u hr ht hu
  obtain ⟨h1, rfl, rfl⟩ := hd d true r v (by rw [he]; simp)
  have ha : acts.take a.length = a := by rw [he]; simp
  have := h a.length (by rw [he]; simp) d (by simpa using h1) p
  rw [ha] at this
  exact this hr.1 ht u hu (by rw [he]; simp)

theorem exFine_covered : Covered exFine := by
  refine covered_of_check ?_ ?_
  · have : ∀ n < exFine.length, ∀ d ∈ ["A", "B"], (Assoc.get (run (exFine.take n)).pollers d).all fun p => p.asked.all fun u =>
        !p.toDeviceOnly || !decide (exFine[n]? = some (.answer d true true true)) || decide (u ≤ reached (run (exFine.take n)).got) := by
      decide +kernel
    intro n hn d hd p hp ht u hu ha
    have h := this n hn d hd
    rw [hp] at h
    simpa [hu, ht, ha] using h
  · intro d ok r v h
    simp only [exFine, List.mem_cons, Act.answer.injEq, reduceCtorEq, List.not_mem_nil, or_false, false_or] at h
    rcases h with ⟨rfl, _, rfl, rfl⟩ | ⟨rfl, _, rfl, rfl⟩ | ⟨rfl, _, rfl, rfl⟩ | ⟨rfl, _, rfl, rfl⟩ <;> simp

example : NoGap (run exFine).got ∧ (run exFine).got = [⟨1, 1, true⟩, ⟨2, 1, false⟩, ⟨3, 1, false⟩] :=
  ⟨C151_covered_partial exFine exFine_covered, by decide +kernel⟩

example : Store.NoHoles Store.exUp (Store.timelineOf (Store.run (Store.opsOf Store.exUp "!r"
    [.room 0 [Store.exCreate] 0 true 1 1, .room 0 [] 0 false 2 1, .room 0 [] 0 false 3 1])) "!r") := by
  refine C151_stored Store.exUp_ok exFine exFine_covered _ (by decide +kernel) fun a s b he => ?_
  match a, he with
  | [], he =>
    simp only [List.nil_append, List.cons.injEq] at he
    obtain ⟨rfl, _⟩ := he
    exact ⟨by decide, by decide, by decide, by simp [Store.exUp], by decide⟩
  | [x], he =>
    simp only [List.cons_append, List.nil_append, List.cons.injEq] at he
    obtain ⟨rfl, rfl, _⟩ := he
    exact ⟨by decide, by decide, by decide, (fun e h => nomatch h), by decide⟩
  | [x, y], he =>
    simp only [List.cons_append, List.nil_append, List.cons.injEq] at he
    obtain ⟨rfl, rfl, rfl, _⟩ := he
    exact ⟨by decide, by decide, by decide, (fun e h => nomatch h), by decide⟩
  | x :: y :: z :: a, he =>
    have := congrArg List.length he
    simp at this

/-- A restart with both devices: neither leaves out the rooms. -/
example : Alone [.ensure "A" false, .send, .ask "A", .answer "A" true true true, .crash, .ensure "A" true, .ensure "B" true, .send,
    .ask "B", .answer "B" true true true] := by
  intro a d b he d' p hm hne
  match a, he with
  | [], he => cases hm
  | [_], he => simp at he
  | [_, _], he => simp at he
  | [_, _, _], he => simp at he
  | [_, _, _, _], he => simp at he
  | [_, _, _, _, _], he => simp at he
  | [_, _, _, _, _, _], he => simp at he
  | [_, _, _, _, _, _, _], he => simp at he
  | [_, _, _, _, _, _, _, _], he => simp at he
  | [_, _, _, _, _, _, _, _, _], he => simp at he
  | _ :: _ :: _ :: _ :: _ :: _ :: _ :: _ :: _ :: _ :: _, he =>
    have := congrArg List.length he
    simp at this

end Verif.Handover
