import Verif.EndToEndBlocks
import Verif.EndToEndPrivacyProps
/-!
# C114 for rooms that are joined after the connection was made
-/
namespace Verif.EndToEnd
open Verif.Store (DB Row TI St Ev)

/-! ## Specification -/

/-- The user joins the room with the event at position `j`, which comes in a timeline, and does not leave it again. Before, there are no member events
of the user in the room but such of state blocks, which do not say that the user is in the room. -/
structure Joins (cfg : Cfg) (db : DB) (r : String) (j : Nat) : Prop where
  here : (∃ x ∈ db.rows, x.nid = j) ∨ db.seq < j
  joins : ∀ x ∈ db.rows, x.nid = j → x.room = r ∧ x.isState = false ∧ x.ev.type = "m.room.member" ∧ x.ev.stateKey = cfg.user ∧ cfg.mem x.ev.id = "join"
  first : ∀ x ∈ db.rows, x.room = r → x.ev.type = "m.room.member" → x.ev.stateKey = cfg.user → x.nid < j →
    x.isState = true ∧ cfg.mem x.ev.id ≠ "join"
  stays : ∀ x ∈ db.rows, x.room = r → x.ev.type = "m.room.member" → x.ev.stateKey = cfg.user → j < x.nid →
    cfg.mem x.ev.id ≠ "leave" ∧ cfg.mem x.ev.id ≠ "ban"

/-- The positions of the events of a room's timeline from a position on. -/
def posFrom (db : DB) (r : String) (j : Nat) : List Nat := (posOf db r).filter (j ≤ ·)

/-! ## The user joins -/

theorem posFrom_asc {db : DB} (hI : TI db) (r : String) (j : Nat) : (posFrom db r j).Pairwise (· < ·) := (posOf_asc hI r).filter _

theorem mem_posFrom {db : DB} {r : String} {j n : Nat} : n ∈ posFrom db r j ↔ n ∈ posOf db r ∧ j ≤ n := by simp [posFrom]

theorem Joins.back {cfg : Cfg} {db db' : DB} {new : List Row} {r : String} {j : Nat}
    (he : db'.rows.map Row.core = db.rows.map Row.core ++ new.map Row.core) (hn : ∀ x ∈ new, db.seq < x.nid) (hs : db.seq ≤ db'.seq)
    (h : Joins cfg db' r j) : Joins cfg db r j := by
  have hm : ∀ x ∈ db.rows, ∃ y ∈ db'.rows, y.nid = x.nid ∧ y.room = x.room ∧ y.ev = x.ev ∧ y.isState = x.isState := fun x hx => by
    obtain ⟨y, hy, hc⟩ := fwd he hx
    exact ⟨y, hy, Store.core_eq hc⟩
  refine ⟨?_, fun x hx hj => ?_, fun x hx h1 h2 h3 h4 => ?_, fun x hx h1 h2 h3 h4 => ?_⟩
  · rcases h.here with ⟨x, hx, rfl⟩ | h
    · have hx' : x.core ∈ db.rows.map Row.core ++ new.map Row.core := by rw [← he]; exact List.mem_map_of_mem hx
      rcases List.mem_append.1 hx' with h | h
      · obtain ⟨y, hy, hc⟩ := List.mem_map.1 h
        exact Or.inl ⟨y, hy, (Store.core_eq hc).1⟩
      · obtain ⟨y, hy, hc⟩ := List.mem_map.1 h
        have := hn y hy
        rw [(Store.core_eq hc).1] at this
        exact Or.inr this
    · exact Or.inr (by omega)
  · obtain ⟨y, hy, e1, e2, e3, e4⟩ := hm x hx
    have := h.joins y hy (e1.trans hj)
    rwa [e2, e3, e4] at this
  · obtain ⟨y, hy, e1, e2, e3, e4⟩ := hm x hx
    have := h.first y hy (by rw [e2]; exact h1) (by rw [e3]; exact h2) (by rw [e3]; exact h3) (by rw [e1]; exact h4)
    rwa [e3, e4] at this
  · obtain ⟨y, hy, e1, e2, e3, e4⟩ := hm x hx
    have := h.stays y hy (by rw [e2]; exact h1) (by rw [e3]; exact h2) (by rw [e3]; exact h3) (by rw [e1]; exact h4)
    rwa [e3] at this

theorem Joins.pos {cfg : Cfg} {db : DB} {r : String} {j n : Nat} (h : Joins cfg db r j) (hn : j ≤ n) (hs : n ≤ db.seq) : j ∈ posOf db r := by
  rcases h.here with ⟨x, hx, he⟩ | h'
  · obtain ⟨h1, h2, _⟩ := h.joins x hx he
    exact mem_posOf.2 ⟨x, hx, h1, h2, he⟩
  · omega

theorem Joins.after {cfg : Cfg} {db : DB} {r : String} {j p : Nat} (h : Joins cfg db r j) (hj : j ∈ posOf db r) (hp : j ≤ p) :
    Visibility.JoinedAt (mrows cfg db) r p := by
  obtain ⟨x, hx, _, _, rfl⟩ := mem_posOf.1 hj
  obtain ⟨h1, _, h3, h4, h5⟩ := h.joins x hx rfl
  refine ⟨_, mem_mrows.2 ⟨x, hx, h3, h4, rfl⟩, h1, h5, by simpa using hp, fun y hy hyr hym hlt _ => ?_⟩
  obtain ⟨z, hz, k1, k2, rfl⟩ := mem_mrows.1 hy
  have := h.stays z hz hyr k1 k2 (by simpa using hlt)
  exact hym.elim this.1 this.2

theorem Joins.before {cfg : Cfg} {db : DB} {r : String} {j : Nat} {p : Int} (h : Joins cfg db r j) (hp : p < j) : ¬ Visibility.JoinedAt (mrows cfg db) r p := by
  rintro ⟨e, he, h1, h2, h3, _⟩
  obtain ⟨x, hx, k1, k2, rfl⟩ := mem_mrows.1 he
  exact (h.first x hx h1 k1 k2 (by simp only at h3; omega)).2 h2

/-! ## Loading the room -/

theorem latest_after {cfg : Cfg} {db : DB} (hI : TI db) {r : String} {d j a k : Nat} (h : Joins cfg db r j) (hj : j ∈ posOf db r) (hja : j ≤ a) (hk : 1 ≤ k) :
    ∃ t, Visibility.latestEvents (mrows cfg db) (trows db) [r] a cfg.maxLimit k r = some t ∧
      Loaded (posFrom db r j) d a ((t.map (·.nid.toNat)).getLast?.getD 0) (t.map (·.nid.toNat)) := by
  obtain ⟨x, hb, hx0, hxa, hxj, hxs⟩ : ∃ x : Int, Visibility.betweenForRooms (mrows cfg db) [r] 0 a r = some (x, (a : Int)) ∧ 0 ≤ x ∧ x ≤ a ∧
      (∀ p, x ≤ p → p ≤ (a : Int) → Visibility.JoinedAt (mrows cfg db) r p) ∧ (x = 0 ∨ ¬ Visibility.JoinedAt (mrows cfg db) r (x - 1)) := by
    rcases Visibility.C42_range (mrows_sorted cfg hI) (rooms := [r]) (room := r) (by simp) (lo := 0) (hi := a) (by omega) (by omega) with
      ⟨_, x, h⟩ | ⟨h', _⟩ | ⟨h', _⟩
    · exact ⟨x, h⟩
    · exact absurd (h.after hj hja) h'
    · exact absurd (h.after hj hja) (h' _ (by omega) (by omega))
  have hxd : x = j := by
    have h1 : (j : Int) ≤ x := by
      apply Classical.byContradiction
      intro hn
      exact h.before (by omega) (hxj x (Int.le_refl _) hxa)
    rcases hxs with h' | h'
    · omega
    · apply Classical.byContradiction
      intro hn
      have hj' := h.after hj (p := (x - 1).toNat) (by omega)
      rw [show (((x - 1).toNat : Nat) : Int) = x - 1 by omega] at hj'
      exact h' hj'
  subst hxd
  have hP : (posOf db r).filter (fun e : Nat => decide ((j : Int) ≤ (e : Int)) && decide ((e : Int) ≤ (a : Int))) = (posFrom db r j).filter (· ≤ a) := by
    unfold posFrom
    rw [List.filter_filter]
    apply List.filter_congr
    intro e _
    rw [Bool.eq_iff_iff]
    simp only [Bool.and_eq_true, decide_eq_true_eq]
    omega
  obtain ⟨t, ht⟩ : ∃ t, Visibility.latestEvents (mrows cfg db) (trows db) [r] a cfg.maxLimit k r = some t := by
    simp only [Visibility.latestEvents, hb, Option.map_some]
    exact ⟨_, rfl⟩
  obtain ⟨x', b', h1, h2, _, _, _, h6⟩ := Visibility.C42_timeline ht
  rw [hb] at h1
  simp only [Option.some.injEq, Prod.mk.injEq] at h1
  obtain ⟨rfl, rfl⟩ := h1
  refine ⟨t, ht, loaded_of (posFrom_asc hI r j) ?_ ?_⟩
  · have h3 := h2.map (fun e : Visibility.TEv => e.nid.toNat)
    rw [trows_pos db r j a, hP] at h3
    exact h3
  · intro h0 e he hde
    have ht0 : t = [] := List.eq_nil_of_map_eq_nil h0
    subst ht0
    apply Classical.byContradiction
    intro hle
    rcases h6 with h | h | ⟨y, hy, _⟩
    · have h3 := trows_pos db r j a
      rw [← h, List.map_nil, hP] at h3
      have : e ∈ (posFrom db r j).filter (· ≤ a) := List.mem_filter.2 ⟨he, by simp; omega⟩
      rw [← h3] at this
      cases this
    · simp only [List.length_nil] at h
      split at h <;> omega
    · cases hy

/-- Before the user joins, no event of the room is loaded. -/
theorem latest_before {cfg : Cfg} {db : DB} (hI : TI db) {r : String} {j a k : Nat} (h : Joins cfg db r j) (hja : a < j) {t : List Visibility.TEv}
    (ht : Visibility.latestEvents (mrows cfg db) (trows db) [r] a cfg.maxLimit k r = some t) : t = [] := by
  obtain ⟨x, y, h1, h2, _⟩ := Visibility.C42_timeline ht
  have hno : ∀ e ∈ posOf db r, x ≤ (e : Int) → (e : Int) ≤ y → False := by
    intro e he hx hy
    obtain ⟨z, hz, hzr, hzs, rfl⟩ := mem_posOf.1 he
    rcases Visibility.C42_range (mrows_sorted cfg hI) (rooms := [r]) (room := r) (by simp) (lo := 0) (hi := a) (by omega) (by omega) with
      ⟨h', _⟩ | ⟨_, a', b', e', _, k2, k3, _, k5, k6⟩ | ⟨_, _, e' | e'⟩
    · exact h.before (by omega) h'
    · rw [h1] at e'
      simp only [Option.some.injEq, Prod.mk.injEq] at e'
      obtain ⟨rfl, rfl⟩ := e'
      rcases k6 with ⟨k6, _⟩ | ⟨k6, m, hm, hmr, hmn, _⟩
      · exact h.before (by omega) (k5 x (Int.le_refl _) k6)
      · obtain ⟨w, hw, w1, w2, rfl⟩ := mem_mrows.1 hm
        have hwn : w.nid = z.nid := by simp only at hmn; omega
        have := nid_inj hI hw hz hwn
        subst this
        have := (h.first w hw hmr w1 w2 (by omega)).1
        rw [hzs] at this
        cases this
    · rw [h1] at e'; cases e'
    · rw [h1] at e'
      simp only [Option.some.injEq, Prod.mk.injEq] at e'
      have := (hI.range z hz).1
      omega
  cases t with
  | nil => rfl
  | cons e t =>
    exfalso
    have hm := (h2.map (fun e : Visibility.TEv => e.nid.toNat)).subset (List.mem_map_of_mem (List.mem_cons_self (a := e) (l := t)))
    rw [trows_pos db r x y, List.mem_filter] at hm
    simp only [Bool.and_eq_true, decide_eq_true_eq] at hm
    exact hno _ hm.1 hm.2.1 hm.2.2

theorem loaded_none {P : List Nat} {d a : Nat} (h : ∀ e ∈ P, a < e) : Loaded P d a 0 [] :=
  ⟨List.nil_suffix, Nat.zero_le _, Or.inl rfl, fun e he _ hle => by have := h e he; omega, fun h => absurd rfl h, fun _ => rfl⟩

theorem load1_from {cfg : Cfg} {db : DB} (hI : TI db) {r : String} {d j : Nat} (hin : Joins cfg db r j) {c : Conn} (hs : c.anchor ≤ db.seq)
    (x : String × Nat) (hx : 1 ≤ x.2) (hA : ∀ ρ, c.lp ρ ≤ c.anchor) (hJ : c.lp r = 0 ∨ j ≤ c.lp r) :
    (load1 cfg db c x).anchor = c.anchor ∧ (load1 cfg db c x).queue = c.queue ∧ (∀ ρ, (load1 cfg db c x).lp ρ ≤ c.anchor) ∧
    ((load1 cfg db c x).lp r = 0 ∨ j ≤ (load1 cfg db c x).lp r) ∧
    ((x.1 ≠ r ∧ (load1 cfg db c x).lp r = c.lp r ∧ (load1 cfg db c x).view r = c.view r) ∨
     (x.1 = r ∧ ∃ l, (load1 cfg db c x).view r = some l ∧ Loaded (posFrom db r j) d c.anchor ((load1 cfg db c x).lp r) l)) := by
  unfold load1
  by_cases hr : x.1 = r
  · rcases Nat.lt_or_ge c.anchor j with hlt | hge
    · have h0 : c.lp r = 0 := by have := hA r; omega
      have hL : Loaded (posFrom db r j) d c.anchor 0 [] := loaded_none fun e he => by have := (mem_posFrom.1 he).2; omega
      rw [hr]
      cases ht : Visibility.latestEvents (mrows cfg db) (trows db) [r] c.anchor cfg.maxLimit x.2 r with
      | none => exact ⟨rfl, rfl, hA, hJ, Or.inr ⟨rfl, [], by simp [set], by rw [show _ = 0 from h0]; exact hL⟩⟩
      | some t =>
        have := latest_before hI hin hlt ht
        subst this
        refine ⟨rfl, rfl, fun ρ => ?_, Or.inl (by simp [set]), Or.inr ⟨rfl, [], by simp [set], by simpa [set] using hL⟩⟩
        simp only [set]
        split
        · simp
        · exact hA ρ
    · obtain ⟨t, ht, hl⟩ := latest_after (d := d) hI hin (hin.pos hge hs) hge hx
      rw [hr, ht]
      refine ⟨rfl, rfl, fun ρ => ?_, ?_, Or.inr ⟨rfl, t.map (·.nid.toNat), by simp [set], by simpa [set] using hl⟩⟩
      · simp only [set]
        split
        · exact hl.le
        · exact hA ρ
      · simp only [set, if_true]
        exact hl.mem.imp id fun h => (mem_posFrom.1 h).2
  · have hr' : r ≠ x.1 := fun h => hr h.symm
    cases ht : Visibility.latestEvents (mrows cfg db) (trows db) [x.1] c.anchor cfg.maxLimit x.2 x.1 with
    | none => exact ⟨rfl, rfl, hA, hJ, Or.inl ⟨hr, rfl, by simp [set, hr']⟩⟩
    | some t =>
      refine ⟨rfl, rfl, fun ρ => ?_, by simpa [set, hr'] using hJ, Or.inl ⟨hr, by simp [set, hr'], by simp [set, hr']⟩⟩
      simp only [set]
      split
      · exact latest_le hI ht
      · exact hA ρ

theorem loads_from {cfg : Cfg} {db : DB} (hI : TI db) {r : String} {d j : Nat} (hin : Joins cfg db r j) (xs : List (String × Nat)) : ∀ {c : Conn},
    c.anchor ≤ db.seq → (∀ x ∈ xs, 1 ≤ x.2) → (∀ ρ, c.lp ρ ≤ c.anchor) → (c.lp r = 0 ∨ j ≤ c.lp r) →
    (loads cfg db c xs).anchor = c.anchor ∧ (loads cfg db c xs).queue = c.queue ∧ (∀ ρ, (loads cfg db c xs).lp ρ ≤ c.anchor) ∧
    ((loads cfg db c xs).lp r = 0 ∨ j ≤ (loads cfg db c xs).lp r) ∧
    ((xs.any (·.1 = r) = false ∧ (loads cfg db c xs).lp r = c.lp r ∧ (loads cfg db c xs).view r = c.view r) ∨
     (xs.any (·.1 = r) = true ∧ ∃ l, (loads cfg db c xs).view r = some l ∧ Loaded (posFrom db r j) d c.anchor ((loads cfg db c xs).lp r) l)) := by
  induction xs with
  | nil => intro c _ _ hA hJ; exact ⟨rfl, rfl, hA, hJ, Or.inl ⟨rfl, rfl, rfl⟩⟩
  | cons x xs ih =>
    intro c hs hx hA hJ
    obtain ⟨a1, a2, a3, a5, a4⟩ := load1_from (d := d) hI hin hs x (hx x (by simp)) hA hJ
    obtain ⟨b1, b2, b3, b5, b4⟩ := ih (c := load1 cfg db c x) (by rw [a1]; exact hs) (fun y hy => hx y (by simp [hy])) (by rw [a1]; exact a3) a5
    have e : loads cfg db c (x :: xs) = loads cfg db (load1 cfg db c x) xs := rfl
    rw [e]
    rw [a1] at b1 b3 b4
    rw [a2] at b2
    refine ⟨b1, b2, b3, b5, ?_⟩
    rcases b4 with ⟨h1, h2, h3⟩ | ⟨h1, l, h2, h3⟩
    · rcases a4 with ⟨k1, k2, k3⟩ | ⟨k1, l, k2, k3⟩
      · exact Or.inl ⟨by simp [k1, h1], h2.trans k2, h3.trans k3⟩
      · exact Or.inr ⟨by simp [k1], l, h3.trans k2, by rw [h2]; exact k3⟩
    · exact Or.inr ⟨by simp [h1], l, h2, h3⟩

/-! ## The connection -/

structure CJ (db : DB) (r : String) (d handed j q A : Nat) (c : Conn) : Prop where
  from_ : d ≤ q ∧ q ≤ handed
  queue : QI (posFrom db r j) r q handed c.queue
  anchor : A ≤ c.anchor ∧ q ≤ c.anchor ∧ (c.anchor = A ∨ c.anchor ≤ q) ∧ c.anchor ≤ db.seq ∧ 0 < c.anchor
  lpA : ∀ ρ, c.lp ρ ≤ c.anchor
  lpJ : c.lp r = 0 ∨ j ≤ c.lp r
  ri : RI (posFrom db r j) d q A (c.lp r) (c.view r)

def COkJ (db : DB) (r : String) (d handed j : Nat) (c : Conn) : Prop :=
  Fresh (posFrom db r j) r d handed c ∨ ∃ q A, CJ db r d handed j q A c

theorem take_from {cfg : Cfg} {db : DB} (hI : TI db) {r : String} {d h j : Nat} (hin : Joins cfg db r j) (hh : h ≤ db.seq) {c : Conn} (hc : COkJ db r d h j c)
    (vis : Bool) (xs : List (String × Nat)) (hx : ∀ x ∈ xs, 1 ≤ x.2) : COkJ db r d h j (take cfg db c vis xs) := by
  rcases hc with hf | ⟨q, A, hc⟩
  · unfold take
    rw [if_pos hf.anchor]
    exact Or.inl hf
  · right
    unfold take
    rw [if_neg (by have := hc.anchor; omega)]
    cases hq : c.queue with
    | nil => exact ⟨q, A, hc⟩
    | cons u queue =>
      have hqi := hc.queue
      rw [hq] at hqi
      obtain ⟨t1, t2, t3, t4, t5, t6, t7⟩ := hqi.tail
      obtain ⟨⟨hd, _⟩, _, ⟨ha1, ha2, ha3, ha4, ha5⟩, hlpA, hlpJ, hri⟩ := hc
      simp only
      unfold deliver
      by_cases hskip : 0 < c.lp u.room ∧ u.nid < c.lp u.room
      · rw [if_pos hskip]
        refine ⟨u.nid, A, ⟨by omega, t3⟩, t1, ⟨ha1, ?_, ha3.imp id (fun h => Nat.le_trans h (Nat.le_of_lt t2)), ha4, ha5⟩, hlpA, hlpJ, ?_⟩
        · have := hlpA u.room; simp only; omega
        · by_cases hr : u.room = r
          · exact hri.skip (by omega) (by rw [← hr]; exact hskip.2)
          · exact hri.other (by omega) (t7 hr)
      · rw [if_neg hskip]
        have hmax : c.anchor ≤ max c.anchor u.nid ∧ u.nid ≤ max c.anchor u.nid ∧ max c.anchor u.nid ≤ db.seq ∧
            (max c.anchor u.nid = u.nid ∨ (max c.anchor u.nid = A)) := by
          rcases Nat.le_total c.anchor u.nid with h' | h'
          · rw [Nat.max_eq_right h']; omega
          · rw [Nat.max_eq_left h']; omega
        obtain ⟨m1, m2, m3, m4⟩ := hmax
        obtain ⟨b1, b2, b3, b5, b4⟩ := loads_from (d := d) hI hin xs (c := { c with queue := queue, anchor := max c.anchor u.nid }) m3 hx
          (by intro ρ; have := hlpA ρ; simp only; omega) hlpJ
        simp only at b1 b2 b3 b5 b4
        generalize loads cfg db { c with queue := queue, anchor := max c.anchor u.nid } xs = c1 at b1 b2 b3 b5 b4
        generalize max c.anchor u.nid = a at *
        -- the state before the event is appended
        have hri1 : RI (posFrom db r j) d q A (c1.lp r) (c1.view r) := by
          rcases b4 with ⟨_, k2, k3⟩ | ⟨_, l, k2, k3⟩
          · rw [k2, k3]; exact hri
          · rw [k2]; exact RI.load k3 hd (by omega) (by omega)
        cases vis with
        | true =>
          simp only [if_true]
          by_cases hr : u.room = r
          · have hle : c1.lp r ≤ u.nid := by
              have hold : c.lp r ≤ u.nid := by rw [← hr]; omega
              rcases b4 with ⟨_, k2, _⟩ | ⟨_, l, _, k3⟩
              · rw [k2]; exact hold
              · rcases m4 with m4 | m4
                · have := k3.le; omega
                · rcases k3.mem with h0 | h0
                  · omega
                  · apply Classical.byContradiction
                    intro hlt
                    have := hri.known _ h0 (by omega) (by have := k3.le; omega)
                    omega
            have happ := RI.append (posFrom_asc hI r j) hri1 t2 (t5 hr) t6 hle
            refine ⟨u.nid, A, ⟨by omega, t3⟩, by simp only [append]; rw [b2]; exact t1, ?_, fun ρ => ?_, ?_, ?_⟩
            · simp only [append]; omega
            · simp only [append, set]
              rw [b1]
              split
              · exact m2
              · exact b3 ρ
            · right
              simp only [append, set, hr, if_true]
              exact (mem_posFrom.1 (t5 hr)).2
            · simp only [append, set, t4, hr, if_true]
              split
              · rename_i hle'
                rw [if_pos hle'] at happ; exact happ
              · rename_i hle'
                rw [if_neg hle'] at happ
                simpa [set] using happ
          · have hr' : r ≠ u.room := fun h => hr h.symm
            refine ⟨u.nid, A, ⟨by omega, t3⟩, by simp only [append]; rw [b2]; exact t1, ?_, fun ρ => ?_, by simpa [append, set, hr'] using b5, ?_⟩
            · simp only [append]; omega
            · simp only [append, set]
              rw [b1]
              split
              · exact m2
              · exact b3 ρ
            · have hv : (append c1 u).view r = c1.view r := by
                simp only [append]
                split
                · rfl
                · simp [set, hr']
              have hl : (append c1 u).lp r = c1.lp r := by simp [append, set, hr']
              rw [hv, hl]
              exact hri1.other (by omega) (t7 hr)
        | false =>
          simp only [Bool.false_eq_true, if_false]
          by_cases hany : xs.any (·.1 = u.room) = true
          · rw [if_pos hany]
            refine ⟨u.nid, A, ⟨by omega, t3⟩, by rw [b2]; exact t1, by omega, fun ρ => by rw [b1]; exact b3 ρ, b5, ?_⟩
            by_cases hr : u.room = r
            · rcases b4 with ⟨k1, _⟩ | ⟨_, l, k2, k3⟩
              · rw [hr] at hany; rw [hany] at k1; cases k1
              · rw [k2]; exact RI.load k3 (by omega) m2 (by omega)
            · exact hri1.other (by omega) (t7 hr)
          · rw [if_neg hany]
            refine ⟨u.nid, A, ⟨by omega, t3⟩, by simp only; rw [b2]; exact t1, by simp only; omega, fun ρ => by simp only; rw [b1]; exact b3 ρ, b5, ?_⟩
            by_cases hr : u.room = r
            · simp only [set, hr, if_true]
              exact hri1.forget (by omega)
            · have hr' : r ≠ u.room := fun h => hr h.symm
              simp only [set, hr', if_false]
              exact hri1.other (by omega) (t7 hr)


theorem load_from {cfg : Cfg} {ops : List Store.Op} (hok : ∀ o ∈ ops, Store.OkOp o) {r : String} {d h j : Nat} (hin : Joins cfg (Store.run ops) r j)
    (hd : d ≤ h) (hh : h = 0 ∨ ∃ x ∈ (Store.run ops).rows, x.nid = h) (hne : (Store.run ops).rows ≠ []) {c : Conn}
    (hc : Fresh (posFrom (Store.run ops) r j) r d h c) :
    CJ (Store.run ops) r d h j d (Store.highest (Store.run ops)) (load cfg (Store.run ops) c) := by
  have hI := Store.run_table ops
  have hseq := Store.highest_seq ops hok
  have hdH : d ≤ Store.highest (Store.run ops) := by
    rcases hh with h0 | ⟨x, hx, he⟩
    · omega
    · have := Store.highest_ge _ x hx; omega
  have hpos : 0 < Store.highest (Store.run ops) := by
    obtain ⟨x, hx⟩ := List.exists_mem_of_ne_nil _ hne
    have := (hI.range x hx).1
    have := Store.highest_ge _ x hx
    omega
  have hjr : ∀ p, r ∈ joinedRooms cfg (Store.run ops) p ↔ Visibility.JoinedAt (mrows cfg (Store.run ops)) r p := by
    intro p
    have hj := Visibility.joinedAt_iff (mrows_sorted cfg hI) r p
    have he : (Visibility.determineJoined ((mrows cfg (Store.run ops)).filter fun e => decide (e.nid ≤ p)) r).isSome =
        Visibility.at' false (Visibility.logsOf (mrows cfg (Store.run ops)) r) p := by
      rw [Visibility.determineJoined_spec]
      unfold Visibility.at' Visibility.logsOf
      rw [List.filter_filter, List.filter_filter]
      congr 1
      apply List.filter_congr
      intro e _
      rw [Bool.and_comm]
    unfold joinedRooms
    rw [List.mem_filter, List.mem_eraseDups, he, ← hj]
    refine ⟨fun h => h.2, fun h => ⟨?_, h⟩⟩
    obtain ⟨e, he, hr, _⟩ := h
    obtain ⟨x, hx, _, _, rfl⟩ := mem_mrows.1 he
    exact List.mem_map.2 ⟨x, hx, hr⟩
  have hget : ∀ e ∈ (Store.run ops).rows, e.room = r → e.nid ≤ Store.highest (Store.run ops) → r ∈ joinedRooms cfg (Store.run ops) (Store.highest (Store.run ops)) →
      e.nid ≤ (load cfg (Store.run ops) c).lp r := by
    intro x hx hxr hle hr
    obtain ⟨n, hn⟩ : ∃ n, Assoc.get (Store.latestNIDs (Store.run ops) (Store.highest (Store.run ops))
        (joinedRooms cfg (Store.run ops) (Store.highest (Store.run ops)))) r = some n := by
      cases hs : Store.slowNID (Store.run ops) (Store.highest (Store.run ops)) r with
      | none =>
        exfalso
        simp only [Store.slowNID] at hs
        split at hs
        · rename_i h0
          have hm : x.nid ∈ ((Store.run ops).rows.filter fun r' => decide (r'.room = r) && decide (r'.nid ≤ Store.highest (Store.run ops))).map (·.nid) :=
            List.mem_map.2 ⟨x, List.mem_filter.2 ⟨hx, by simp only [Bool.and_eq_true, decide_eq_true_eq]; exact ⟨hxr, hle⟩⟩, rfl⟩
          rw [h0] at hm; cases hm
        · cases hs
      | some n => exact ⟨n, (Store.C101_exact ops hok _ _ r hr n).2 ((Store.slow_spec _ _ _ _).1 hs)⟩
    have := ((Store.C101_exact ops hok _ _ r hr n).1 hn).2.2 x hx hxr hle
    simp only [load, hn, Option.getD_some]
    exact this
  refine ⟨⟨Nat.le_refl _, hd⟩, hc.queue, ⟨Nat.le_refl _, hdH, Or.inl rfl, hseq, hpos⟩, fun ρ => ?_, ?_, ?_⟩
  · simp only [load, hc.lp]
    by_cases hρ : ρ ∈ joinedRooms cfg (Store.run ops) (Store.highest (Store.run ops))
    · cases hg : Assoc.get (Store.latestNIDs (Store.run ops) (Store.highest (Store.run ops)) (joinedRooms cfg (Store.run ops) (Store.highest (Store.run ops)))) ρ with
      | none => simp
      | some n => exact ((Store.C101_exact ops hok _ _ ρ hρ n).1 hg).2.1
    · rw [Store.C101_only _ _ _ _ hρ]; simp
  · by_cases hr : r ∈ joinedRooms cfg (Store.run ops) (Store.highest (Store.run ops))
    · have hja : j ≤ Store.highest (Store.run ops) := by
        apply Classical.byContradiction
        intro hn
        exact hin.before (by omega) ((hjr _).1 hr)
      obtain ⟨x, hx, hxr, _, rfl⟩ := mem_posOf.1 (hin.pos hja hseq)
      exact Or.inr (hget x hx hxr hja hr)
    · left
      simp only [load, hc.lp]
      rw [Store.C101_only _ _ _ _ hr]
      rfl
  · refine ⟨fun e he _ hle => ?_, fun l hl => by simp [load, hc.view] at hl, fun l hl => by simp [load, hc.view] at hl,
      fun hl => by simp [load, hc.view] at hl⟩
    obtain ⟨he, hje⟩ := mem_posFrom.1 he
    obtain ⟨x, hx, hxr, _, rfl⟩ := mem_posOf.1 he
    have hja : j ≤ Store.highest (Store.run ops) := by omega
    exact hget x hx hxr hle ((hjr _).2 (hin.after (hin.pos hja hseq) hja))

theorem request_from {cfg : Cfg} {ops : List Store.Op} (hok : ∀ o ∈ ops, Store.OkOp o) {r : String} {d h j : Nat} (hin : Joins cfg (Store.run ops) r j)
    (hd : d ≤ h) (hh : h = 0 ∨ ∃ x ∈ (Store.run ops).rows, x.nid = h) (hne : (Store.run ops).rows ≠ []) {c : Conn} (hc : COkJ (Store.run ops) r d h j c)
    (xs : List (String × Nat)) (hx : ∀ x ∈ xs, 1 ≤ x.2) : COkJ (Store.run ops) r d h j (request cfg (Store.run ops) c xs) := by
  obtain ⟨q, A, h1⟩ : ∃ q A, CJ (Store.run ops) r d h j q A (if c.anchor = 0 then load cfg (Store.run ops) c else c) := by
    rcases hc with hf | ⟨q, A, hc⟩
    · rw [if_pos hf.anchor]; exact ⟨_, _, load_from hok hin hd hh hne hf⟩
    · rw [if_neg (by have := hc.anchor; omega)]; exact ⟨q, A, hc⟩
  right
  unfold request
  generalize (if c.anchor = 0 then load cfg (Store.run ops) c else c) = c0 at h1
  obtain ⟨⟨k1, k2⟩, k3, k4, k5, k7, k6⟩ := h1
  obtain ⟨b1, b2, b3, b5, b4⟩ := loads_from (d := d) (Store.run_table ops) hin xs (c := c0) (by omega) hx k5 k7
  refine ⟨q, A, ⟨k1, k2⟩, by rw [b2]; exact k3, by rw [b1]; exact k4, fun ρ => by rw [b1]; exact b3 ρ, b5, ?_⟩
  rcases b4 with ⟨_, e1, e2⟩ | ⟨_, l, e1, e2⟩
  · rw [e1, e2]; exact k6
  · rw [e1]; exact RI.load e2 k1 k4.2.1 k4.1

theorem poll_from {db : DB} (hI : TI db) {r : String} {d h j : Nat} (hh : h ≤ db.seq) {c : Conn} (hc : COkJ db r d h j c) (o : Store.Op) :
    COkJ (Store.step db o) r d h j c := by
  obtain ⟨_, hs, new, h1, h2, h3⟩ := poll_new hI o
  have hN : ∀ e ∈ (inRoom r ((new.filter fun x => !x.isState).map fun x => (x.room, x.nid))).filter (j ≤ ·), db.seq < e := by
    intro e he
    obtain ⟨x, hx, hxe⟩ := List.mem_map.1 (mem_inRoom.1 (List.mem_filter.1 he).1)
    simp only [Prod.mk.injEq] at hxe
    rw [← hxe.2]
    exact h2 x (List.mem_filter.1 hx).1
  have hP : posFrom (Store.step db o) r j = posFrom db r j ++ (inRoom r ((new.filter fun x => !x.isState).map fun x => (x.room, x.nid))).filter (j ≤ ·) := by
    unfold posFrom
    rw [posOf_new h1, List.filter_append]
  rcases hc with hf | ⟨q, A, hc⟩
  · left
    rw [hP]
    exact ⟨hf.anchor, hf.lp, hf.view, hf.queue.grow hN hh⟩
  · right
    obtain ⟨k1, k3, k4, k5, k7, k6⟩ := hc
    have := k5 r
    refine ⟨q, A, k1, by rw [hP]; exact k3.grow hN hh, by omega, k5, k7, ?_⟩
    rw [hP]
    exact k6.grow hN (by omega) (by omega) (by omega)

/-! ## The dispatcher -/

theorem queue_from {db : DB} {r room : String} {q h n j : Nat} {p : List (String × Nat)} {queue L : List Upd} (hb : Bus db h ((room, n) :: p))
    (hqh : q ≤ h) (hq : QI (posFrom db r j) r q h queue) (hL : L = [] ∨ L = [⟨room, n, n⟩]) (hr : room = r → j ≤ n → L = [⟨room, n, n⟩])
    (hr' : room = r → n < j → L = []) : QI (posFrom db r j) r q n (queue ++ L) := by
  have hn := hb.gt _ (List.mem_cons_self)
  simp only at hn
  have hLm : ∀ x ∈ L, x = ⟨room, n, n⟩ := fun x hx => by
    rcases hL with h | h <;> rw [h] at hx
    · cases hx
    · simpa using hx
  refine ⟨?_, ?_, fun e => ⟨?_, ?_⟩⟩
  · rw [List.map_append, List.pairwise_append]
    refine ⟨hq.asc, by rcases hL with h | h <;> rw [h] <;> simp, fun a ha b hb' => ?_⟩
    obtain ⟨x, hx, rfl⟩ := List.mem_map.1 ha
    obtain ⟨y, hy, rfl⟩ := List.mem_map.1 hb'
    rw [hLm y hy]
    have := (hq.range x hx).2.1
    simp only; omega
  · intro x hx
    rcases List.mem_append.1 hx with hx | hx
    · have := hq.range x hx; exact ⟨this.1, by omega, this.2.2⟩
    · rw [hLm x hx]; exact ⟨by simp only; omega, Nat.le_refl _, rfl⟩
  · rintro ⟨x, hx, hxr, rfl⟩
    rcases List.mem_append.1 hx with hx | hx
    · have := (hq.room x.nid).1 ⟨x, hx, hxr, rfl⟩
      exact ⟨this.1, this.2.1, by omega⟩
    · have hxn := hLm x hx
      rw [hxn] at hxr ⊢
      simp only at hxr
      refine ⟨mem_posFrom.2 ⟨hb.mem (by rw [← hxr]; exact List.mem_cons_self), ?_⟩, by simp only; omega, Nat.le_refl _⟩
      apply Classical.byContradiction
      intro hlt
      rw [hr' hxr (by simp only at hlt; omega)] at hx
      cases hx
  · rintro ⟨he, h1, h2⟩
    rcases Nat.lt_or_ge h e with hlt | hge
    · have : e ∈ inRoom r ((room, n) :: p) := by rw [hb.room]; exact List.mem_filter.2 ⟨(mem_posFrom.1 he).1, by simpa using hlt⟩
      rcases List.mem_cons.1 (mem_inRoom.1 this) with h3 | h3
      · simp only [Prod.mk.injEq] at h3
        have hje := (mem_posFrom.1 he).2
        have := hr h3.1.symm (by rw [← h3.2]; exact hje)
        rw [this]
        exact ⟨⟨room, n, n⟩, by simp, h3.1.symm, h3.2.symm⟩
      · have hasc := hb.asc
        rw [List.map_cons, List.pairwise_cons] at hasc
        have := hasc.1 e (List.mem_map.2 ⟨_, h3, rfl⟩)
        simp only at this
        omega
    · obtain ⟨x, hx, h3⟩ := (hq.room e).2 ⟨he, h1, hge⟩
      exact ⟨x, List.mem_append_left _ hx, h3⟩

theorem give_join {cfg : Cfg} (hu : cfg.user ≠ Dispatcher.allUsers) {s : Dispatcher.State} (hT : Tracker.Inv s.jrt) (room : String) (x : Row)
    (hx : 0 < x.nid) (c : Conn) (hr : cfg.user ∈ s.receivers) (h1 : x.ev.type = "m.room.member") (h2 : x.ev.hasKey = true) (h3 : x.ev.stateKey = cfg.user)
    (h4 : cfg.mem x.ev.id = "join") {L : List Upd}
    (hL : give cfg (Dispatcher.onNewEvent s room (toEvent cfg x) x.nid).2 c = { c with queue := c.queue ++ L }) (hL2 : L = [] ∨ L = [⟨room, x.nid, x.nid⟩]) :
    L = [⟨room, x.nid, x.nid⟩] := by
  rcases hL2 with rfl | h
  · exfalso
    obtain ⟨M, k1, k2, k3, _⟩ := Dispatcher.event_recipients hT room (toEvent cfg x) x.nid
    have hf := (event_fields s room (toEvent cfg x) x.nid).2
    have hm : cfg.user ∈ M := by
      rw [k3 _ hu]
      refine ⟨hr, ?_⟩
      simp [Dispatcher.MaySee, Dispatcher.about, toEvent, h1, h2, h3, h4]
    have : cfg.user ∈ (Dispatcher.onNewEvent s room (toEvent cfg x) x.nid).2.map (·.to) := by rw [k1]; exact List.mem_append_right _ hm
    obtain ⟨y, hy, hyu⟩ := List.mem_map.1 this
    have hq := congrArg Conn.queue hL
    simp only [give, List.append_nil] at hq
    have := List.append_right_eq_self.1 hq
    rw [List.map_eq_nil_iff, List.filter_eq_nil_iff] at this
    have := this y hy
    rw [(hf y hy).2.2] at this
    simp [hyu] at this
    omega
  · exact h

/-- Since the connection was made. -/
def AfterJ (cfg : Cfg) (r : String) (d j : Nat) (s : State) : Prop :=
  d ≤ s.handed ∧ ∀ c, s.conn = some c → cfg.user ∈ s.disp.receivers ∧ (Tracker.isUserJoined s.disp.jrt cfg.user r = true ↔ j ≤ s.handed) ∧
    COkJ s.db r d s.handed j c

/-- No event of the room is passed over. -/
theorem next_from {cfg : Cfg} {db : DB} (hI : TI db) {r room : String} {h n j : Nat} {p : List (String × Nat)} (hb : Bus db h ((room, n) :: p))
    (hin : Joins cfg db r j) : (room ≠ r → (j ≤ n ↔ j ≤ h)) ∧ (j < n → j ≤ h) := by
  have hn := hb.gt _ (List.mem_cons_self)
  simp only at hn
  have hns : n ≤ db.seq := (bus_next hb).le_seq hI
  have hasc := hb.asc
  rw [List.map_cons, List.pairwise_cons] at hasc
  have key : j ≤ n → h < j → room = r ∧ j = n := by
    intro hj hlt
    have : j ∈ inRoom r ((room, n) :: p) := by rw [hb.room]; exact List.mem_filter.2 ⟨hin.pos hj hns, by simpa using hlt⟩
    rcases List.mem_cons.1 (mem_inRoom.1 this) with h3 | h3
    · simp only [Prod.mk.injEq] at h3
      exact ⟨h3.1.symm, h3.2⟩
    · have := hasc.1 j (List.mem_map.2 ⟨_, h3, rfl⟩)
      simp only at this
      omega
  refine ⟨fun hr => ⟨fun hj => ?_, fun hj => by omega⟩, fun hj => ?_⟩
  · rcases Nat.lt_or_ge h j with hlt | hge
    · exact absurd (key hj hlt).1 hr
    · exact hge
  · rcases Nat.lt_or_ge h j with hlt | hge
    · have := (key (by omega) hlt).2; omega
    · exact hge

theorem dispatch_from {cfg : Cfg} (hu : cfg.user ≠ Dispatcher.allUsers) {s : State} {room r : String} {d j : Nat} {x : Row} {p : List (String × Nat)}
    (hb : Base s ((room, x.nid) :: p)) (hx : x ∈ s.db.rows) (hxr : x.room = room) (hxs : x.isState = false)
    (hkey : ∀ x ∈ s.db.rows, x.ev.stateKey = cfg.user → x.ev.hasKey = true) (hin : Joins cfg s.db r j) (ha : AfterJ cfg r d j s) :
    AfterJ cfg r d j (dispatch cfg room s (x, x.nid)) := by
  have hn := hb.bus.gt _ (List.mem_cons_self)
  simp only at hn
  obtain ⟨n1, n2⟩ := next_from hb.ti hb.bus hin
  refine ⟨by simp only [dispatch]; have := ha.1; omega, fun c' hc' => ?_⟩
  simp only [dispatch, Option.map_eq_some_iff] at hc'
  obtain ⟨c, hc, rfl⟩ := hc'
  obtain ⟨h1, h2, h3⟩ := ha.2 c hc
  obtain ⟨L, e1, e2, e3⟩ := give_event hu hb.jrt room x (by omega) c
  obtain ⟨L', e1', e4⟩ := give_seen hu hb.jrt room x c
  have hLL : L' = L := by
    rw [e1] at e1'
    have := congrArg Conn.queue e1'
    exact (List.append_cancel_left this).symm
  subst hLL
  rw [e1]
  -- what the event says of the user
  have hsay : room = r → (x.nid < j → Dispatcher.saysEvent cfg.user (toEvent cfg x) = none ∧ ¬ (x.ev.type = "m.room.member" ∧ x.ev.stateKey = cfg.user)) ∧
      (x.nid = j → Dispatcher.saysEvent cfg.user (toEvent cfg x) = some true) ∧
      (j < x.nid → Dispatcher.saysEvent cfg.user (toEvent cfg x) ≠ some false) := by
    intro hr
    refine ⟨fun hlt => ?_, fun he => ?_, fun hlt => ?_⟩
    · have hno : ¬ (x.ev.type = "m.room.member" ∧ x.ev.stateKey = cfg.user) := by
        rintro ⟨k1, k2⟩
        have := (hin.first x hx (hxr.trans hr) k1 k2 hlt).1
        rw [hxs] at this
        cases this
      refine ⟨?_, hno⟩
      rw [says_row, if_neg]
      rintro ⟨_, hk⟩
      simp only [Ev.key, Prod.mk.injEq] at hk
      exact hno hk
    · obtain ⟨_, _, k1, k2, k3⟩ := hin.joins x hx he
      rw [says_row, if_pos ⟨hkey x hx k2, by simp [Ev.key, k1, k2]⟩]
      simp [verdict, k3]
    · rw [says_row]
      split
      · rename_i hk
        have hk2 := hk.2
        simp only [Ev.key, Prod.mk.injEq] at hk2
        have := hin.stays x hx (hxr.trans hr) hk2.1 hk2.2 hlt
        simp [verdict, this.1, this.2]
      · simp
  have hjoined : Tracker.isUserJoined (dispatch cfg room s (x, x.nid)).disp.jrt cfg.user r = true ↔ j ≤ x.nid := by
    simp only [dispatch]
    rw [Dispatcher.says_event]
    by_cases hr : room = r
    · rw [if_pos hr]
      obtain ⟨s1, s2, s3⟩ := hsay hr
      rcases Nat.lt_trichotomy x.nid j with hlt | he | hgt
      · rw [(s1 hlt).1, Option.getD_none, h2]; omega
      · rw [s2 he]; simp; omega
      · have hj := h2.2 (n2 hgt)
        cases hs : Dispatcher.saysEvent cfg.user (toEvent cfg x) with
        | none => rw [Option.getD_none, hj]; simp; omega
        | some b =>
          cases b with
          | true => simp; omega
          | false => exact absurd hs (s3 hgt)
    · rw [if_neg hr, Option.getD_none, h2]
      exact (n1 hr).symm
  refine ⟨?_, hjoined, ?_⟩
  · simp only [dispatch]; rw [(event_fields _ _ _ _).1]; exact h1
  · have hL : room = r → j ≤ x.nid → L' = [⟨room, x.nid, x.nid⟩] := by
      intro hr hj
      rcases Nat.lt_or_ge j x.nid with hlt | hge
      · refine e3 h1 ?_
        rw [Dispatcher.mem_joined_iff, hr]
        exact h2.2 (n2 hlt)
      · have he : x.nid = j := by omega
        obtain ⟨_, _, k1, k2, k3⟩ := hin.joins x hx he
        exact give_join hu hb.jrt room x (by omega) c h1 k1 (hkey x hx k2) k2 k3 e1 e2
    have hL' : room = r → x.nid < j → L' = [] := by
      intro hr hlt
      obtain ⟨s1, s2⟩ := (hsay hr).1 hlt
      rcases e2 with h | h
      · exact h
      · obtain ⟨_, hw⟩ := e4 _ (by rw [h]; exact List.mem_singleton_self _)
        rcases hw with hw | hw
        · rw [s1, Option.getD_none, hr] at hw
          have := h2.1 hw
          omega
        · exact absurd hw s2
    rcases h3 with hf | ⟨q, A, hc⟩
    · exact Or.inl ⟨hf.anchor, hf.lp, hf.view, queue_from hb.bus ha.1 hf.queue e2 hL hL'⟩
    · obtain ⟨k1, k3, k4, k5, k7, k6⟩ := hc
      exact Or.inr ⟨q, A, ⟨k1.1, by simp only [dispatch]; omega⟩, queue_from hb.bus k1.2 k3 e2 hL hL', k4, k5, k7, k6⟩

theorem fold_from {cfg : Cfg} (hu : cfg.user ≠ Dispatcher.allUsers) {room r : String} {d j : Nat} {p : List (String × Nat)} (rows : List Row) : ∀ {s : State},
    Base s ((rows.map (·.nid)).map (room, ·) ++ p) → (∀ x ∈ rows, x ∈ s.db.rows ∧ x.room = room ∧ x.isState = false) →
    (∀ x ∈ s.db.rows, x.ev.stateKey = cfg.user → x.ev.hasKey = true) → Joins cfg s.db r j → AfterJ cfg r d j s →
    AfterJ cfg r d j ((rows.map fun x => (x, x.nid)).foldl (dispatch cfg room) s) := by
  induction rows with
  | nil => intro s _ _ _ _ ha; exact ha
  | cons x rows ih =>
    intro s hb hr hkey hin ha
    have h1 := dispatch_base (cfg := cfg) hb
    obtain ⟨r1, r2, r3⟩ := hr x (by simp)
    refine ih h1.1 (fun y hy => ?_) ?_ ?_ (dispatch_from hu hb r1 r2 r3 hkey hin ha)
    · rw [h1.2.1]; exact hr y (by simp [hy])
    · rw [h1.2.1]; exact hkey
    · rw [h1.2.1]; exact hin

/-! ## The first state of the room -/

/-- The first state of the room was stored before the user joined. -/
theorem init_before {cfg : Cfg} (hu0 : cfg.user ≠ "") {r : String} {j : Nat} (ops : List Op) : (∀ o ∈ polls ops, Store.OkOp o) → (∀ o ∈ polls ops, NoKey o) →
    Joins cfg (run cfg {} ops).db r j → ∀ n, Msg.init r n ∈ (run cfg {} ops).bus → ∃ s ∈ (run cfg {} ops).db.snaps, s.id = n ∧ s.room = r ∧ ∀ k ∈ s.nids, k < j := by
  induction ops using Util.snocRec with
  | nil => intro _ _ _ n hn; simp [run] at hn
  | append_singleton ops o ih =>
    intro hok hnk hin
    have hR := reach cfg ops
    have hrun : run cfg {} (ops ++ [o]) = step cfg (run cfg {} ops) o := by simp [run]
    rw [hrun] at hin ⊢
    have hsub : ∀ x ∈ polls ops, x ∈ polls (ops ++ [o]) := fun x hx => by rw [polls_append]; exact List.mem_append_left _ hx
    have hok' : ∀ o ∈ polls ops, Store.OkOp o := fun x hx => hok x (hsub x hx)
    have hnk' : ∀ o ∈ polls ops, NoKey o := fun x hx => hnk x (hsub x hx)
    have ih := ih hok' hnk'
    generalize run cfg {} ops = s at *
    cases o with
    | poll o =>
      have ho : Store.OkOp o := hok o (by simp [polls])
      have hRel := Store.run_spec _ hok'
      rw [← hR.db] at hRel
      obtain ⟨hRel', hE⟩ := Store.step_spec hRel o ho
      obtain ⟨_, hs, new, k1, k2, k3⟩ := poll_new hR.base.ti o
      have hin : Joins cfg (Store.step s.db o) r j := hin
      intro n hn
      rcases List.mem_append.1 hn with hn | hn
      · obtain ⟨t, h1, h2⟩ := ih (hin.back k1 k2 hs) n hn
        exact ⟨t, hE.snap_fwd h1, h2⟩
      · obtain ⟨w1, w2⟩ := publish_whole s.db o r _ hn rfl
        have h0 := w2 n rfl
        -- the join is not stored yet
        have hlt : (Store.step s.db o).seq < j := by
          rcases hin.here with ⟨x, hx, he⟩ | h
          · exfalso
            obtain ⟨x1, x2, x3, x4, _⟩ := hin.joins x hx he
            have hx' : x.core ∈ s.db.rows.map Row.core ++ new.map Row.core := by rw [← k1]; exact List.mem_map_of_mem hx
            rcases List.mem_append.1 hx' with h | h
            · obtain ⟨y, hy, hc⟩ := List.mem_map.1 h
              obtain ⟨_, c2, c3, _⟩ := Store.core_eq hc
              have hyk : y.ev.hasKey = true := by
                rw [hR.db] at hy
                exact user_key hu0 hnk' y hy (by rw [c3]; exact x4)
              rw [hR.db] at hy h0
              have := key_cur hok' hy (Or.inr hyk)
              rw [c2, x1] at this
              exact this h0
            · obtain ⟨y, hy, hc⟩ := List.mem_map.1 h
              obtain ⟨_, _, _, c4⟩ := Store.core_eq hc
              have hp : pend (publish s.db o) = [] := by
                rcases publish_one s.db o with h | ⟨m, h⟩
                · rw [h]; rfl
                · rw [h, List.mem_singleton] at hn
                  rw [h, ← hn]; rfl
              rw [hp] at k3
              have : (y.room, y.nid) ∈ (new.filter fun x => !x.isState).map fun x => (x.room, x.nid) :=
                List.mem_map.2 ⟨y, List.mem_filter.2 ⟨hy, by rw [c4, x2]; rfl⟩, rfl⟩
              rw [← k3] at this
              cases this
          · exact h
        have hn' : n = (Store.step s.db o).cur r := by
          cases o with
          | acc room skip limited timeline =>
            simp only [publish] at hn
            split at hn
            · cases hn
            · split at hn
              · simp at hn
              · cases hn
          | init room skip block =>
            simp only [publish] at hn
            split at hn
            · cases hn
            · rename_i db' hi
              split at hn
              · cases hn
              · split at hn
                · simp at hn
                · simp only [List.mem_singleton, Msg.init.injEq] at hn
                  obtain ⟨rfl, rfl⟩ := hn
                  simp [Store.step, hi]
        obtain ⟨t, ht, hte, htr⟩ : ∃ t ∈ (Store.step s.db o).snaps, t.id = (Store.step s.db o).cur r ∧ t.room = r := by
          have hc := hRel'.cur r
          cases hf : (Store.specStep (Store.specRun (polls ops)) o).cur r with
          | none => rw [hf] at hc; exact absurd hc w1
          | some g => rw [hf] at hc; obtain ⟨⟨t, h1, h2, h3⟩, _⟩ := hc; exact ⟨t, h1, h2, h3⟩
        refine ⟨t, ht, hte.trans hn'.symm, htr, fun k hk => ?_⟩
        obtain ⟨x, hx, rfl, _⟩ := hRel'.inv.exist t ht k hk
        have := (hRel'.inv.range x hx).2
        omega
    | recv =>
      cases hb : s.bus with
      | nil => rw [show step cfg s .recv = s by simp [step, hb]] at hin ⊢; exact ih hin
      | cons m rest =>
        have hstep : step cfg s .recv = handle cfg { s with bus := rest } m := by simp [step, hb]
        have hB : Base { s with bus := rest } (pend (m :: rest)) := by rw [← hb]; exact ⟨hR.base.ti, hR.base.bus, hR.base.jrt⟩
        obtain ⟨_, h2, h3⟩ := handle_base (cfg := cfg) hB
        rw [hstep] at hin ⊢
        rw [h2] at hin ⊢
        rw [h3]
        exact fun n hn => ih hin n (by rw [hb]; exact List.mem_cons_of_mem _ hn)
    | «open» => exact ih hin
    | request xs => exact ih hin
    | take vis xs => exact ih hin
    | restart => intro n hn; cases hn

/-! ## Taking a message -/

theorem handle_from {cfg : Cfg} (hu : cfg.user ≠ Dispatcher.allUsers) {s : State} {ops : List Store.Op} (hdb : s.db = Store.run ops)
    (hok : ∀ o ∈ ops, Store.OkOp o) {r : String} {d j : Nat} {m : Msg} {bus : List Msg}
    (hb : Base s (pend (m :: bus))) (hv : Valid s.db m) (hkey : ∀ x ∈ s.db.rows, x.ev.stateKey = cfg.user → x.ev.hasKey = true)
    (hm : ∀ n, m = .init r n → Tracker.isUserJoined s.disp.jrt cfg.user r = false ∧ ∃ t ∈ s.db.snaps, t.id = n ∧ t.room = r ∧ ∀ k ∈ t.nids, k < j)
    (hin : Joins cfg s.db r j) (ha : AfterJ cfg r d j s) : AfterJ cfg r d j (handle cfg s m) := by
  have hI : Store.Inv s.db := by rw [hdb]; exact (Store.run_spec _ hok).inv
  have hj := handle_joined (cfg := cfg) hb hI hv cfg.user r
  cases m with
  | acc room nids =>
    obtain ⟨rows, h1, h2, h3⟩ := select_acc hb.ti hb.bus
    simp only [handle, h1]
    rw [← h2, zip_self]
    have hb' : Base s ((rows.map (·.nid)).map (room, ·) ++ pend bus) := by rw [h2]; exact hb
    exact fold_from hu rows hb' h3 hkey hin ha
  | init room snap =>
    have hjj : (∃ c, s.conn = some c) → Tracker.isUserJoined (handle cfg s (.init room snap)).disp.jrt cfg.user r =
        Tracker.isUserJoined s.disp.jrt cfg.user r := by
      rintro ⟨c, hc⟩
      rw [hj]
      simp only [sayMsg]
      by_cases hr : room = r
      · subst hr
        rw [if_pos rfl]
        obtain ⟨h0, t, ht, rfl, htr, hk⟩ := hm snap rfl
        rw [Store.stripped_spec hI ht, Option.bind_some, h0]
        unfold says
        cases hl : ((s.db.rows.filter fun x => decide (x.nid ∈ t.nids)).filterMap fun x => Dispatcher.saysEvent cfg.user (toEvent cfg x)).getLast? with
        | none => rfl
        | some b =>
          cases b with
          | false => rfl
          | true =>
            exfalso
            obtain ⟨x, hx, hs⟩ := List.mem_filterMap.1 (List.mem_of_getLast? hl)
            simp only [List.mem_filter, decide_eq_true_eq] at hx
            rw [says_row] at hs
            split at hs
            · rename_i hkk
              have hk2 := hkk.2
              simp only [Ev.key, Prod.mk.injEq] at hk2
              obtain ⟨y, hy, hyn, hyr⟩ := hI.exist t ht _ hx.2
              have hxy : y = x := nid_inj hb.ti hy hx.1 hyn
              subst hxy
              have := (hin.first y hy (hyr.trans htr) hk2.1 hk2.2 (hk _ hx.2)).2
              simp only [verdict] at hs
              rw [if_neg this] at hs
              split at hs <;> cases hs
            · cases hs
      · rw [if_neg hr, Option.getD_none]
    revert hjj
    simp only [handle]
    split
    · intro _; exact ha
    · rename_i rows _
      intro hjj
      obtain ⟨k1, k2, _⟩ := initial_spec s.disp room (rows.map (toEvent cfg))
      refine ⟨ha.1, fun c' hc' => ?_⟩
      simp only [Option.map_eq_some_iff] at hc'
      obtain ⟨c, hc, rfl⟩ := hc'
      obtain ⟨h1, h2, h3⟩ := ha.2 c hc
      rw [give_zero k2]
      exact ⟨by rw [k1]; exact h1, by rw [hjj ⟨c, hc⟩]; exact h2, h3⟩
  | inval room =>
    refine ⟨ha.1, fun c hc => ?_⟩
    have hc0 := hc
    simp only [handle] at hc
    split at hc
    · cases hc
    · rename_i hout
      obtain ⟨h1, h2, h3⟩ := ha.2 c hc
      refine ⟨?_, ?_, h3⟩
      · simp only [handle]
        rw [unregister_eq] at hout ⊢
        exact unregister_keeps _ _ _ _ h1 hout
      · rw [hj]
        simp only [sayMsg]
        show _ ↔ j ≤ s.handed
        by_cases hr : room = r
        · subst hr
          have hnone : cur s.db room cfg.user = none := by
            rcases Option.eq_none_or_eq_some (cur s.db room cfg.user) with h | ⟨id, h⟩
            · exact h
            · rw [inval_drops hdb hok h h1] at hc0
              cases hc0
          rw [if_pos rfl, Option.getD_some]
          constructor
          · intro h
            exfalso
            rw [decide_eq_true_eq, hdb, mem_members hok] at h
            obtain ⟨id, h, _⟩ := h
            rw [← hdb, hnone] at h
            cases h
          · intro h
            exfalso
            have hpos := hin.pos h (hb.bus.le_seq hb.ti)
            have hJ : In cfg s.db room j := ⟨hin.after hpos (Nat.le_refl _), hin.stays⟩
            obtain ⟨id, hid⟩ := in_cur hkey hJ
            rw [hnone] at hid
            cases hid
        · rw [if_neg hr, Option.getD_none]
          exact h2

/-! ## The whole -/

theorem from_open {cfg : Cfg} {s : State} {r : String} {j : Nat} (hj : s.handed < j) (hn : cfg.user ∉ s.disp.jrt.joinedUsers r) :
    AfterJ cfg r s.handed j (step cfg s .open) := by
  refine ⟨Nat.le_refl _, fun c hc => ?_⟩
  simp only [step, Option.some.injEq] at hc
  subst hc
  refine ⟨?_, ?_, Or.inl ⟨rfl, fun _ => rfl, rfl, ⟨List.Pairwise.nil, nofun, fun e => ⟨?_, ?_⟩⟩⟩⟩
  · simp only [step, Dispatcher.register]
    split
    · rename_i h; exact h
    · simp
  · have h1 : (step cfg s .open).disp.jrt = s.disp.jrt := by
      simp only [step, Dispatcher.register]
    rw [h1, ← Dispatcher.mem_joined_iff]
    exact ⟨fun h => absurd h hn, fun h => by simp only [step] at h; omega⟩
  · rintro ⟨x, hx, _⟩; cases hx
  · rintro ⟨_, h1, h2⟩; simp only [step] at h1 h2; omega

theorem main_from {cfg : Cfg} (hu : cfg.user ≠ Dispatcher.allUsers) (hu0 : cfg.user ≠ "") {pre : List Op} {r : String} {j : Nat}
    (hd : (run cfg {} pre).handed < j) (hne : (run cfg {} pre).db.rows ≠ []) (hn : cfg.user ∉ (run cfg {} pre).disp.jrt.joinedUsers r) (post : List Op) :
    (∀ o ∈ polls (pre ++ .open :: post), Store.OkOp o) → (∀ o ∈ polls (pre ++ .open :: post), NoKey o) → (∀ o ∈ polls (pre ++ .open :: post), KeyOk o) →
    (∀ o ∈ post, OneConn o) → Joins cfg (run cfg {} (pre ++ .open :: post)).db r j →
    (run cfg {} (pre ++ .open :: post)).db.rows ≠ [] ∧
    ((run cfg {} (pre ++ .open :: post)).conn = none ∨ AfterJ cfg r (run cfg {} pre).handed j (run cfg {} (pre ++ .open :: post))) := by
  induction post using Util.snocRec with
  | nil =>
    intro _ _ _ _ _
    rw [show run cfg {} (pre ++ [Op.open]) = step cfg (run cfg {} pre) .open by simp [run]]
    exact ⟨hne, Or.inr (from_open hd hn)⟩
  | append_singleton post o ih =>
    intro hok hnk hk hpost hin
    have hR := reach cfg (pre ++ .open :: post)
    have he : pre ++ .open :: (post ++ [o]) = (pre ++ .open :: post) ++ [o] := by simp
    rw [he] at hok hnk hk hin ⊢
    have hrun : run cfg {} ((pre ++ .open :: post) ++ [o]) = step cfg (run cfg {} (pre ++ .open :: post)) o := by simp [run]
    rw [hrun] at hin ⊢
    have hsub : ∀ x ∈ polls (pre ++ .open :: post), x ∈ polls ((pre ++ .open :: post) ++ [o]) := fun x hx => by rw [polls_append]; exact List.mem_append_left _ hx
    have hok' : ∀ o ∈ polls (pre ++ .open :: post), Store.OkOp o := fun x hx => hok x (hsub x hx)
    have hnk' : ∀ o ∈ polls (pre ++ .open :: post), NoKey o := fun x hx => hnk x (hsub x hx)
    have hk' : ∀ o ∈ polls (pre ++ .open :: post), KeyOk o := fun x hx => hk x (hsub x hx)
    have ih := ih hok' hnk' hk' fun x hx => hpost x (List.mem_append_left _ hx)
    have ho := hpost o (by simp)
    have hib := init_before (cfg := cfg) hu0 (r := r) (j := j) (pre ++ .open :: post) hok' hnk'
    have hM := mi_run cfg (pre ++ .open :: post) hok' hk'
    have hno := fun h => no_init cfg (pre ++ .open :: post) hok' hk' (u := cfg.user) (r := r) h
    generalize run cfg {} (pre ++ .open :: post) = s at ih hR hin hib hM hno
    generalize (run cfg {} pre).handed = d at ih hd
    have hhs := hR.base.bus.le_seq hR.base.ti
    cases o with
    | poll o =>
      obtain ⟨_, hs, new, k1, k2, _⟩ := poll_new hR.base.ti o
      obtain ⟨h0, h1⟩ := ih (Joins.back k1 k2 hs hin)
      refine ⟨fun h => ?_, h1.imp id' fun h1 => ⟨h1.1, fun c hc => ?_⟩⟩
      · have h : (Store.step s.db o).rows = [] := h
        rw [h] at k1
        have := congrArg List.length k1
        simp only [List.map_nil, List.length_nil, List.length_append, List.length_map] at this
        exact h0 (List.eq_nil_of_length_eq_zero (by omega))
      · obtain ⟨e1, e2, e3⟩ := h1.2 c hc
        exact ⟨e1, e2, poll_from hR.base.ti hhs e3 o⟩
    | recv =>
      cases hb : s.bus with
      | nil =>
        have hstep : step cfg s .recv = s := by simp only [step, hb]
        rw [hstep] at hin ⊢
        exact ih hin
      | cons m rest =>
        have hstep : step cfg s .recv = handle cfg { s with bus := rest } m := by simp only [step, hb]
        rw [hstep] at hin ⊢
        have hB : Base { s with bus := rest } (pend (m :: rest)) := by rw [← hb]; exact ⟨hR.base.ti, hR.base.bus, hR.base.jrt⟩
        obtain ⟨h1, h2, h3⟩ := handle_base (cfg := cfg) hB
        rw [h2] at hin ⊢
        obtain ⟨k0, k1⟩ := ih hin
        refine ⟨k0, ?_⟩
        rcases Option.eq_none_or_eq_some s.conn with hcn | ⟨c, hcn⟩
        · left
          rcases Option.eq_none_or_eq_some (handle cfg { s with bus := rest } m).conn with hh | ⟨c', hh⟩
          · exact hh
          · obtain ⟨c, _, hc, _⟩ := handle_conn hh
            rw [show ({ s with bus := rest } : State).conn = s.conn from rfl, hcn] at hc
            cases hc
        · have ha : AfterJ cfg r d j s := by
            rcases k1 with h | h
            · rw [hcn] at h; cases h
            · exact h
          right
          have hkey : ∀ x ∈ s.db.rows, x.ev.stateKey = cfg.user → x.ev.hasKey = true := by rw [hR.db]; exact user_key hu0 hnk'
          refine handle_from (s := { s with bus := rest }) hu hR.db hok' hB (hM.valid m (by rw [hb]; simp)) hkey (fun n hm => ⟨?_, ?_⟩) hin ⟨ha.1, ha.2⟩
          · cases hj : Tracker.isUserJoined s.disp.jrt cfg.user r with
            | false => rfl
            | true =>
              refine absurd ?_ (hno ((Dispatcher.mem_joined_iff _ _ _).2 hj) n)
              rw [hb, hm]; simp
          · exact hib hin n (by rw [hb, hm]; simp)
    | «open» => exact ho.elim
    | restart => exact ⟨(ih hin).1, Or.inl rfl⟩
    | request xs =>
      obtain ⟨h0, h1⟩ := ih hin
      refine ⟨h0, ?_⟩
      rcases h1 with h1 | h1
      · left; simp only [step, h1, Option.map_none]
      · right
        refine ⟨h1.1, fun c' hc' => ?_⟩
        simp only [step, Option.map_eq_some_iff] at hc'
        obtain ⟨c, hc, rfl⟩ := hc'
        obtain ⟨e1, e2, e3⟩ := h1.2 c hc
        refine ⟨e1, e2, ?_⟩
        have hin : Joins cfg s.db r j := hin
        have hh := hR.base.bus.handed
        simp only [step]
        rw [hR.db] at hin e3 hh h0 ⊢
        exact request_from hok' hin h1.1 hh h0 e3 xs ho
    | take vis xs =>
      obtain ⟨h0, h1⟩ := ih hin
      refine ⟨h0, ?_⟩
      rcases h1 with h1 | h1
      · left; simp only [step, h1, Option.map_none]
      · right
        refine ⟨h1.1, fun c' hc' => ?_⟩
        simp only [step, Option.map_eq_some_iff] at hc'
        obtain ⟨c, hc, rfl⟩ := hc'
        obtain ⟨e1, e2, e3⟩ := h1.2 c hc
        exact ⟨e1, e2, take_from hR.base.ti hin hhs e3 vis xs ho⟩
where id' {p : Prop} (h : p) : p := h

theorem from_stretch {cfg : Cfg} {r : String} {d j : Nat} {s : State} {ops : List Op} (hR : Reach s ops) (hd : d < j) (h1 : AfterJ cfg r d j s)
    {c : Conn} (hc : s.conn = some c) {l : List Nat} (hv : c.view r = some l) :
    ∃ before after, posFrom s.db r j = before ++ l ++ after ∧ (∀ e ∈ after, Pending s c r e) ∧ (l = [] → before = []) := by
  obtain ⟨_, _, h3⟩ := h1.2 c hc
  rcases h3 with hf | ⟨q, A, hC⟩
  · rw [hf.view] at hv; cases hv
  · have hpend : ∀ e ∈ posFrom s.db r j, q < e → Pending s c r e := by
      intro e he hq
      rcases Nat.lt_or_ge s.handed e with hlt | hge
      · have : e ∈ inRoom r (pend s.bus) := by rw [hR.base.bus.room]; exact List.mem_filter.2 ⟨(mem_posFrom.1 he).1, by simpa using hlt⟩
        exact Or.inr (mem_pend (mem_inRoom.1 this))
      · obtain ⟨x, hx, h4, h5⟩ := (hC.queue.room e).2 ⟨he, hq, hge⟩
        exact Or.inl ⟨x, hx, h4, by rw [(hC.queue.range x hx).2.2]; exact h5⟩
    cases l with
    | nil =>
      refine ⟨[], posFrom s.db r j, rfl, fun e he => hpend e he ((hC.ri.empty hv).2 e he ?_), fun _ => rfl⟩
      have := (mem_posFrom.1 he).2
      omega
    | cons a l =>
      obtain ⟨b, t, h4, h5⟩ := split_suffix (posFrom_asc hR.base.ti r j) (hC.ri.suffix _ hv)
      refine ⟨b, t, h4, fun e he => ?_, nofun⟩
      have he' : e ∈ posFrom s.db r j := by rw [h4]; exact List.mem_append_right _ he
      apply hpend e he'
      apply Classical.byContradiction
      intro hn
      have := hC.ri.full _ hv (by simp) e he' (by omega)
      have := h5 e he
      omega

/-! ## The property -/

/-- **C114** for a room the user joins after the connection was made, with the event at position `j`: the timeline the client has of the room is a stretch
of the room's stored timeline from the join on with nothing left out, and every event behind it is in a message not yet taken or in the connection's queue.
State blocks (also the room's first one) and restarts may come at any time; they may close the connection.

Partial: something is stored when the connection is made (else the first request does not load the connection),
the dispatcher does not take the user as joined already, and until the join the user has no member event in the room's timelines (an invite from a
timeline is loaded by itself, C42, see `C114_needs_no_invite`). Rooms must be loaded with a timeline of at least one event. -/
theorem C114_joined_later_partial (cfg : Cfg) (hu : cfg.user ≠ Dispatcher.allUsers) (hu0 : cfg.user ≠ "") (pre post : List Op)
    (hok : ∀ o ∈ polls (pre ++ .open :: post), Store.OkOp o) (hnk : ∀ o ∈ polls (pre ++ .open :: post), NoKey o)
    (hk : ∀ o ∈ polls (pre ++ .open :: post), KeyOk o) (hpost : ∀ o ∈ post, OneConn o) (r : String) (j : Nat) (hd : (run cfg {} pre).handed < j)
    (hne : (run cfg {} pre).db.rows ≠ []) (hn : cfg.user ∉ (run cfg {} pre).disp.jrt.joinedUsers r)
    (hin : Joins cfg (run cfg {} (pre ++ .open :: post)).db r j)
    (c : Conn) (hc : (run cfg {} (pre ++ .open :: post)).conn = some c) (l : List Nat) (hv : c.view r = some l) :
    ∃ before after, (posOf (run cfg {} (pre ++ .open :: post)).db r).filter (j ≤ ·) = before ++ l ++ after ∧
      (∀ e ∈ after, Pending (run cfg {} (pre ++ .open :: post)) c r e) ∧ (l = [] → before = []) := by
  rcases (main_from hu hu0 hd hne hn post hok hnk hk hpost hin).2 with h | h
  · rw [hc] at h; cases h
  · exact from_stretch (reach cfg (pre ++ .open :: post)) hd h hc hv

/-- When all messages and updates are taken, the client has the end of the timeline since the join; if the client has nothing, the user has not joined. -/
theorem C114_joined_later_up_to_date (cfg : Cfg) (hu : cfg.user ≠ Dispatcher.allUsers) (hu0 : cfg.user ≠ "") (pre post : List Op)
    (hok : ∀ o ∈ polls (pre ++ .open :: post), Store.OkOp o) (hnk : ∀ o ∈ polls (pre ++ .open :: post), NoKey o)
    (hk : ∀ o ∈ polls (pre ++ .open :: post), KeyOk o) (hpost : ∀ o ∈ post, OneConn o) (r : String) (j : Nat) (hd : (run cfg {} pre).handed < j)
    (hne : (run cfg {} pre).db.rows ≠ []) (hn : cfg.user ∉ (run cfg {} pre).disp.jrt.joinedUsers r)
    (hin : Joins cfg (run cfg {} (pre ++ .open :: post)).db r j)
    (c : Conn) (hc : (run cfg {} (pre ++ .open :: post)).conn = some c) (l : List Nat) (hv : c.view r = some l)
    (hb : (run cfg {} (pre ++ .open :: post)).bus = []) (hq : c.queue = []) :
    l <:+ (posOf (run cfg {} (pre ++ .open :: post)).db r).filter (j ≤ ·) ∧
    (l = [] → ∀ x ∈ (run cfg {} (pre ++ .open :: post)).db.rows, x.nid ≠ j) := by
  obtain ⟨b, t, h1, h2, h3⟩ := C114_joined_later_partial cfg hu hu0 pre post hok hnk hk hpost r j hd hne hn hin c hc l hv
  have : t = [] := by
    cases t with
    | nil => rfl
    | cons e t =>
      rcases h2 e (by simp) with ⟨x, hx, _⟩ | ⟨n, hn, _⟩
      · rw [hq] at hx; cases hx
      · rw [hb] at hn; cases hn
  rw [this, List.append_nil] at h1
  refine ⟨⟨b, h1.symm⟩, fun hl x hx he => ?_⟩
  obtain ⟨k1, k2, _⟩ := hin.joins x hx he
  have hm : j ∈ (posOf (run cfg {} (pre ++ .open :: post)).db r).filter (j ≤ ·) := List.mem_filter.2 ⟨mem_posOf.2 ⟨x, hx, k1, k2, he⟩, by simp⟩
  rw [h1, h3 hl, hl] at hm
  cases hm

end Verif.EndToEnd
