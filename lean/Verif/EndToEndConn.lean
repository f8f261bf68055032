import Verif.EndToEndBus
import Verif.VisibilityProps
import Verif.ConnLoadProps
/-!
# The positions and the view of one room on a connection (for C114)
-/
namespace Verif.EndToEnd
open Verif.Store (DB Row TI)

/-! ## The user is in the room from a position on -/

/-- The user is in the room at position `d`, and no later event makes the user leave it. -/
structure In (cfg : Cfg) (db : DB) (r : String) (d : Nat) : Prop where
  joined : Visibility.JoinedAt (mrows cfg db) r d
  stays : ∀ x ∈ db.rows, x.room = r → x.ev.type = "m.room.member" → x.ev.stateKey = cfg.user → d < x.nid →
    cfg.mem x.ev.id ≠ "leave" ∧ cfg.mem x.ev.id ≠ "ban"

theorem mem_mrows {cfg : Cfg} {db : DB} {e : Visibility.MEv} : e ∈ mrows cfg db ↔ ∃ x ∈ db.rows, x.ev.type = "m.room.member" ∧
    x.ev.stateKey = cfg.user ∧ e = ⟨x.room, x.nid, cfg.mem x.ev.id⟩ := by
  simp only [mrows, List.mem_map, List.mem_filter, Bool.and_eq_true, decide_eq_true_eq, and_assoc]
  constructor
  · rintro ⟨x, h1, h2, h3, h4⟩; exact ⟨x, h1, h2, h3, h4.symm⟩
  · rintro ⟨x, h1, h2, h3, h4⟩; exact ⟨x, h1, h2, h3, h4.symm⟩

theorem mrows_sorted {db : DB} (cfg : Cfg) (hI : TI db) : Visibility.Sorted (mrows cfg db) := by
  refine ⟨?_, fun e he => ?_⟩
  · unfold mrows
    rw [List.pairwise_map]
    exact (hI.asc.filter _).imp fun h => by simpa using h
  · obtain ⟨x, hx, _, _, rfl⟩ := mem_mrows.1 he
    have := (hI.range x hx).1
    simp only; omega

theorem In.at {cfg : Cfg} {db : DB} {r : String} {d p : Nat} (h : In cfg db r d) (hp : d ≤ p) : Visibility.JoinedAt (mrows cfg db) r p := by
  obtain ⟨e, he, h1, h2, h3, h4⟩ := h.joined
  refine ⟨e, he, h1, h2, by omega, fun x hx hxr hxm hlt hle => ?_⟩
  by_cases hd : x.nid ≤ d
  · exact h4 x hx hxr hxm hlt hd
  · obtain ⟨y, hy, ht, hk, rfl⟩ := mem_mrows.1 hx
    have := h.stays y hy hxr ht hk (by simp only at hd; omega)
    exact hxm.elim this.1 this.2

theorem In.back {cfg : Cfg} {db db' : DB} {new : List Row} {r : String} {d : Nat}
    (he : db'.rows.map Row.core = db.rows.map Row.core ++ new.map Row.core) (hn : ∀ x ∈ new, db.seq < x.nid) (hd : d ≤ db.seq)
    (h : In cfg db' r d) : In cfg db r d := by
  have hm : ∀ x ∈ db.rows, ∃ y ∈ db'.rows, y.nid = x.nid ∧ y.room = x.room ∧ y.ev = x.ev := fun x hx => by
    obtain ⟨y, hy, hc⟩ := fwd he hx
    exact ⟨y, hy, (Store.core_eq hc).1, (Store.core_eq hc).2.1, (Store.core_eq hc).2.2.1⟩
  refine ⟨?_, fun x hx hr ht hk hlt => ?_⟩
  · obtain ⟨e, hem, h1, h2, h3, h4⟩ := h.joined
    obtain ⟨x, hx, ht, hk, rfl⟩ := mem_mrows.1 hem
    have hx' : x.core ∈ db.rows.map Row.core ++ new.map Row.core := by rw [← he]; exact List.mem_map_of_mem hx
    have hxl : x.nid ≤ d := by simpa using h3
    obtain ⟨y, hy, hc⟩ : ∃ y ∈ db.rows, y.core = x.core := by
      rcases List.mem_append.1 hx' with h | h
      · obtain ⟨y, hy, hc⟩ := List.mem_map.1 h; exact ⟨y, hy, hc⟩
      · obtain ⟨y, hy, hc⟩ := List.mem_map.1 h
        have := hn y hy
        have := (Store.core_eq hc).1
        omega
    obtain ⟨c1, c2, c3, _⟩ := Store.core_eq hc
    refine ⟨⟨x.room, x.nid, cfg.mem x.ev.id⟩, mem_mrows.2 ⟨y, hy, by rw [c3]; exact ht, by rw [c3]; exact hk, by rw [c1, c2, c3]⟩, h1, h2, h3, ?_⟩
    intro z hz hzr hzm
    obtain ⟨w, hw, wt, wk, rfl⟩ := mem_mrows.1 hz
    obtain ⟨v, hv, e1, e2, e3⟩ := hm w hw
    exact h4 _ (mem_mrows.2 ⟨v, hv, by rw [e3]; exact wt, by rw [e3]; exact wk, by rw [e1, e2, e3]⟩) hzr hzm
  · obtain ⟨v, hv, e1, e2, e3⟩ := hm x hx
    have := h.stays v hv (by rw [e2]; exact hr) (by rw [e3]; exact ht) (by rw [e3]; exact hk) (by rw [e1]; exact hlt)
    rwa [e3] at this

/-! ## Loading a room -/

/-- What loading a room from the store gives, up to position `a`: the position and the timeline. -/
structure Loaded (P : List Nat) (d a lp : Nat) (l : List Nat) : Prop where
  suffix : l <:+ P.filter (· ≤ lp)
  le : lp ≤ a
  mem : lp = 0 ∨ lp ∈ P
  all : ∀ e ∈ P, d < e → e ≤ a → e ≤ lp
  full : l ≠ [] → ∀ e ∈ P, e ≤ a → e ≤ lp
  empty : l = [] → lp = 0

theorem loaded_of {P : List Nat} (hP : P.Pairwise (· < ·)) {d a : Nat} {l : List Nat} (hs : l <:+ P.filter (· ≤ a))
    (h0 : l = [] → ∀ e ∈ P, d < e → a < e) : Loaded P d a (l.getLast?.getD 0) l := by
  have hmax := ConnLoad.getLast_max (P.filter (· ≤ a)) (hP.filter _)
  by_cases hl : l = []
  · subst hl
    refine ⟨List.nil_suffix, Nat.zero_le _, Or.inl rfl, fun e he hd hle => ?_, fun h => absurd rfl h, fun _ => rfl⟩
    have := h0 rfl e he hd
    omega
  · have hlast : (P.filter (· ≤ a)).getLast? = l.getLast? := by
      obtain ⟨p, hp⟩ := hs
      rw [← hp, List.getLast?_append]
      obtain ⟨y, hy⟩ : ∃ y, l.getLast? = some y := by
        cases h : l.getLast? with
        | none => exact absurd (List.getLast?_eq_none_iff.1 h) hl
        | some y => exact ⟨y, rfl⟩
      rw [hy, Option.some_or]
    rw [hlast] at hmax
    generalize hlp : l.getLast?.getD 0 = lp at hmax
    have hle : lp ≤ a := by
      rcases hmax.2 with h | h
      · omega
      · simpa using (List.mem_filter.1 h).2
    have hfe : P.filter (· ≤ lp) = P.filter (· ≤ a) := by
      apply List.filter_congr
      intro e he
      rw [decide_eq_decide]
      exact ⟨fun h => Nat.le_trans h hle, fun h => hmax.1 e (List.mem_filter.2 ⟨he, by simpa using h⟩)⟩
    have hall : ∀ e ∈ P, e ≤ a → e ≤ lp := fun e he h => hmax.1 e (List.mem_filter.2 ⟨he, by simpa using h⟩)
    refine ⟨by rw [hfe]; exact hs, hle, ?_, fun e he _ => hall e he, fun _ => hall, fun h => absurd h hl⟩
    rcases hmax.2 with h | h
    · exact Or.inl h
    · exact Or.inr (List.mem_filter.1 h).1

theorem trows_pos (db : DB) (r : String) (a b : Int) :
    ((trows db).filter fun e => decide (a ≤ e.nid) && decide (e.nid ≤ b) && decide (e.room = r) && !e.isState).map (·.nid.toNat) =
      (posOf db r).filter fun e : Nat => decide (a ≤ (e : Int)) && decide ((e : Int) ≤ b) := by
  simp only [trows, posOf, List.filter_map, List.map_map, List.filter_filter, Function.comp_def, Int.toNat_natCast, Bool.and_assoc]

/-- No position of a loaded timeline is after the one asked for. -/
theorem latest_le {cfg : Cfg} {db : DB} (hI : TI db) {a k : Nat} {r : String} {t : List Visibility.TEv}
    (h : Visibility.latestEvents (mrows cfg db) (trows db) [r] a cfg.maxLimit k r = some t) : (t.map (·.nid.toNat)).getLast?.getD 0 ≤ a := by
  obtain ⟨x, y, h1, h2, _⟩ := Visibility.C42_timeline h
  have hy : y ≤ a := by
    rcases Visibility.C42_range (mrows_sorted cfg hI) (rooms := [r]) (room := r) (by simp) (lo := 0) (hi := a) (by omega) (by omega) with
      ⟨_, a', e, _⟩ | ⟨_, a', b', e, _, _, h5, _⟩ | ⟨_, _, e | e⟩ <;> rw [h1] at e <;> simp at e <;> omega
  cases hl : (t.map (·.nid.toNat)).getLast? with
  | none => simp
  | some n =>
    obtain ⟨e, he, rfl⟩ := List.mem_map.1 (List.mem_of_getLast? hl)
    have := List.mem_filter.1 (h2.subset he)
    simp only [Bool.and_eq_true, decide_eq_true_eq] at this
    simp only [Option.getD_some]
    omega

theorem latest_loaded {cfg : Cfg} {db : DB} (hI : TI db) {r : String} {d a k : Nat} (hin : In cfg db r d) (hd : d ≤ a) (hk : 1 ≤ k) :
    ∃ t, Visibility.latestEvents (mrows cfg db) (trows db) [r] a cfg.maxLimit k r = some t ∧
      Loaded (posOf db r) d a ((t.map (·.nid.toNat)).getLast?.getD 0) (t.map (·.nid.toNat)) := by
  obtain ⟨x, hb, hx0, hxa, hxj, hxs⟩ : ∃ x : Int, Visibility.betweenForRooms (mrows cfg db) [r] 0 a r = some (x, (a : Int)) ∧ 0 ≤ x ∧ x ≤ a ∧
      (∀ p, x ≤ p → p ≤ (a : Int) → Visibility.JoinedAt (mrows cfg db) r p) ∧ (x = 0 ∨ ¬ Visibility.JoinedAt (mrows cfg db) r (x - 1)) := by
    rcases Visibility.C42_range (mrows_sorted cfg hI) (rooms := [r]) (room := r) (by simp) (lo := 0) (hi := a) (by omega) (by omega) with
      ⟨_, x, h⟩ | ⟨h, _⟩ | ⟨h, _⟩
    · exact ⟨x, h⟩
    · exact absurd (hin.at hd) h
    · exact absurd (hin.at hd) (h _ (by omega) (by omega))
  have hxd : x ≤ d := by
    rcases hxs with h | h
    · omega
    · apply Classical.byContradiction
      intro hn
      have hj := hin.at (p := (x - 1).toNat) (by omega)
      rw [show (((x - 1).toNat : Nat) : Int) = x - 1 by omega] at hj
      exact h hj
  obtain ⟨t, ht⟩ : ∃ t, Visibility.latestEvents (mrows cfg db) (trows db) [r] a cfg.maxLimit k r = some t := by
    simp only [Visibility.latestEvents, hb, Option.map_some]
    exact ⟨_, rfl⟩
  refine ⟨t, ht, loaded_of (posOf_asc hI r) ?_ ?_⟩
  · obtain ⟨x', b', h1, h2, _⟩ := Visibility.C42_timeline ht
    rw [hb] at h1
    simp only [Option.some.injEq, Prod.mk.injEq] at h1
    obtain ⟨rfl, rfl⟩ := h1
    have h3 := h2.map (fun e : Visibility.TEv => e.nid.toNat)
    rw [trows_pos db r x a] at h3
    refine h3.trans ?_
    have : (posOf db r).filter (fun e : Nat => decide (x ≤ (e : Int)) && decide ((e : Int) ≤ (a : Int))) =
        ((posOf db r).filter (· ≤ a)).filter fun e : Nat => decide (x ≤ (e : Int)) := by
      rw [List.filter_filter]
      apply List.filter_congr
      intro e _
      simp
    rw [this]
    exact suffix_of_ge ((posOf_asc hI r).filter _) x
  · intro h0 e he hde
    obtain ⟨x', b', h1, _, _, _, _, h6⟩ := Visibility.C42_timeline ht
    rw [hb] at h1
    simp only [Option.some.injEq, Prod.mk.injEq] at h1
    obtain ⟨rfl, rfl⟩ := h1
    have ht0 : t = [] := List.eq_nil_of_map_eq_nil h0
    subst ht0
    apply Classical.byContradiction
    intro hle
    rcases h6 with h | h | ⟨y, hy, _⟩
    · have h3 := trows_pos db r x a
      rw [← h, List.map_nil] at h3
      have : e ∈ (posOf db r).filter (fun e : Nat => decide (x ≤ (e : Int)) && decide ((e : Int) ≤ (a : Int))) := by
        rw [List.mem_filter]
        refine ⟨he, ?_⟩
        simp only [Bool.and_eq_true, decide_eq_true_eq]
        omega
      rw [← h3] at this
      cases this
    · simp only [List.length_nil] at h
      split at h <;> omega
    · cases hy
where
  suffix_of_ge {l : List Nat} (h : l.Pairwise (· < ·)) (x : Int) : (l.filter fun e : Nat => decide (x ≤ (e : Int))) <:+ l := by
    induction l with
    | nil => exact List.suffix_refl _
    | cons y l ih =>
      rw [List.pairwise_cons] at h
      by_cases hy : x ≤ (y : Int)
      · have : (y :: l).filter (fun e : Nat => decide (x ≤ (e : Int))) = y :: l := by
          rw [List.filter_eq_self]
          intro e he
          rcases List.mem_cons.1 he with rfl | he
          · simpa using hy
          · have := h.1 e he
            simp; omega
        rw [this]
        exact List.suffix_refl _
      · rw [List.filter_cons_of_neg (by simpa using hy)]
        exact (ih h.2).trans (List.suffix_cons _ _)

/-! ## One room of a connection -/

/-- `P` are the positions of the room's events, `d` the one from which the user is in the room, `q` the last position taken from the queue,
`A` the one of the initial load, `lp` the load position, `v` the client's view. -/
structure RI (P : List Nat) (d q A lp : Nat) (v : Option (List Nat)) : Prop where
  known : ∀ e ∈ P, q < e → e ≤ A → e ≤ lp
  suffix : ∀ l, v = some l → l <:+ P.filter (· ≤ lp)
  full : ∀ l, v = some l → l ≠ [] → ∀ e ∈ P, e ≤ q → e ≤ lp
  empty : v = some [] → lp = 0 ∧ ∀ e ∈ P, d < e → q < e

theorem RI.load {P : List Nat} {d q A a lp : Nat} {l : List Nat} (h : Loaded P d a lp l) (hd : d ≤ q) (hq : q ≤ a) (hA : A ≤ a) :
    RI P d q A lp (some l) := by
  refine ⟨fun e he h1 h2 => h.all e he (by omega) (by omega), ?_, ?_, ?_⟩
  · intro l' hl; cases hl; exact h.suffix
  · intro l' hl h0 e he h1; cases hl; exact h.full h0 e he (by omega)
  · intro hl
    simp only [Option.some.injEq] at hl
    have := h.empty hl
    refine ⟨this, fun e he h1 => ?_⟩
    apply Classical.byContradiction
    intro h2
    have := h.all e he h1 (by omega)
    omega

/-- Another room's event, or none, is next. -/
theorem RI.other {P : List Nat} {d q A lp n : Nat} {v : Option (List Nat)} (h : RI P d q A lp v) (hq : q ≤ n) (hn : ∀ e ∈ P, e ≤ n → e ≤ q) :
    RI P d n A lp v := by
  refine ⟨fun e he h1 => h.known e he (by omega), h.suffix, fun l hl h0 e he h1 => h.full l hl h0 e he (hn e he h1), fun hv => ?_⟩
  refine ⟨(h.empty hv).1, fun e he hd => ?_⟩
  apply Classical.byContradiction
  intro h2
  have := (h.empty hv).2 e he hd
  have := hn e he (by omega)
  omega

theorem RI.skip {P : List Nat} {d q A lp n : Nat} {v : Option (List Nat)} (h : RI P d q A lp v) (hq : q ≤ n) (hn : n < lp) :
    RI P d n A lp v := by
  refine ⟨fun e he h1 => h.known e he (by omega), h.suffix, fun l hl h0 e he h1 => by omega, fun hv => ?_⟩
  have := (h.empty hv).1
  omega

theorem RI.forget {P : List Nat} {d q A lp n : Nat} {v : Option (List Nat)} (h : RI P d q A lp v) (hq : q ≤ n) : RI P d n A lp none :=
  ⟨fun e he h1 => h.known e he (by omega), nofun, nofun, nofun⟩

theorem RI.append {P : List Nat} (hP : P.Pairwise (· < ·)) {d q A lp n : Nat} {v : Option (List Nat)} (h : RI P d q A lp v) (hq : q < n)
    (hnP : n ∈ P) (hn : ∀ e ∈ P, e < n → e ≤ q) (hle : lp ≤ n) :
    RI P d n A n (if n ≤ lp then v else some (v.getD [] ++ [n])) := by
  refine ⟨fun e he h1 h2 => ?_, ?_, fun l _ _ e _ h1 => h1, ?_⟩
  · have := h.known e he (by omega) h2
    omega
  · intro l hl
    split at hl
    · rw [show n = lp by omega]; exact h.suffix l hl
    · rename_i hlt
      simp only [Option.some.injEq] at hl
      subst hl
      cases hv : v with
      | none =>
        rw [ConnLoad.filter_next P hP q n hnP hq hn]
        exact ⟨_, rfl⟩
      | some l =>
        simp only [Option.getD_some]
        by_cases h0 : l = []
        · subst h0
          rw [ConnLoad.filter_next P hP q n hnP hq hn]
          exact ⟨_, rfl⟩
        · rw [ConnLoad.filter_next P hP lp n hnP (by omega) (fun e he h1 => h.full l hv h0 e he (hn e he h1))]
          obtain ⟨p, hp⟩ := h.suffix l hv
          exact ⟨p, by rw [← hp, List.append_assoc]⟩
  · intro hv
    split at hv
    · have := (h.empty hv).1
      omega
    · simp at hv

/-- Storing further events changes nothing. -/
theorem RI.grow {P N : List Nat} {d q A lp seq : Nat} {v : Option (List Nat)} (h : RI P d q A lp v) (hN : ∀ e ∈ N, seq < e)
    (hlp : lp ≤ seq) (hA : A ≤ seq) (hq : q ≤ seq) : RI (P ++ N) d q A lp v := by
  have hf : (P ++ N).filter (· ≤ lp) = P.filter (· ≤ lp) := by
    rw [List.filter_append, show N.filter (· ≤ lp) = [] by
      rw [List.filter_eq_nil_iff]; intro e he; have := hN e he; simp; omega, List.append_nil]
  have hin : ∀ e ∈ P ++ N, e ≤ seq → e ∈ P := fun e he hle => by
    rcases List.mem_append.1 he with h | h
    · exact h
    · have := hN e h; omega
  refine ⟨fun e he h1 h2 => h.known e (hin e he (by omega)) h1 h2, fun l hl => by rw [hf]; exact h.suffix l hl,
    fun l hl h0 e he h1 => h.full l hl h0 e (hin e he (by omega)) h1, fun hv => ⟨(h.empty hv).1, fun e he h1 => ?_⟩⟩
  rcases Nat.lt_or_ge q e with h2 | h2
  · exact h2
  · exact (h.empty hv).2 e (hin e he (by omega)) h1

end Verif.EndToEnd
