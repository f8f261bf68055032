import Verif.EndToEndJoined
/-!
# C116 for rooms that are joined after the connection was made
-/
namespace Verif.EndToEnd
open Verif.Store (DB Row TI St Ev)

/-! ## State blocks that come after the join -/

/-- All events of state blocks of the room come before the position. -/
def BlocksBefore (db : DB) (r : String) (j : Nat) : Prop := ∀ x ∈ db.rows, x.room = r → x.isState = true → x.nid < j

theorem blocks_unjoined {db : DB} (hI : TI db) {r : String} {j : Nat} (h : db.seq < j) : BlocksBefore db r j := fun x hx _ _ => by
  have := (hI.range x hx).2; omega

theorem BlocksBefore.grow {db db' : DB} {new : List Row} (he : db'.rows.map Row.core = db.rows.map Row.core ++ new.map Row.core) {r : String} {j : Nat}
    (hnew : ∀ x ∈ new, x.room = r → x.isState = false) (h : BlocksBefore db r j) : BlocksBefore db' r j := by
  intro x hx hr hs
  have : x.core ∈ db.rows.map Row.core ++ new.map Row.core := by rw [← he]; exact List.mem_map_of_mem hx
  rcases List.mem_append.1 this with hm | hm
  · obtain ⟨y, hy, hc⟩ := List.mem_map.1 hm
    obtain ⟨c1, c2, _, c4⟩ := Store.core_eq hc
    rw [← c1]
    exact h y hy (c2.trans hr) (c4.trans hs)
  · obtain ⟨y, hy, hc⟩ := List.mem_map.1 hm
    obtain ⟨_, c2, _, c4⟩ := Store.core_eq hc
    have := hnew y hy (c2.trans hr)
    rw [c4, hs] at this; cases this

/-- What a poller's call does to the state blocks of a room the user has joined. -/
theorem poll_joined {cfg : Cfg} (hu0 : cfg.user ≠ "") {ops : List Store.Op} (hok : ∀ o ∈ ops, Store.OkOp o) (hnk : ∀ o ∈ ops, NoKey o) {o : Store.Op}
    (hoo : Store.OkOp o) {r : String} {j : Nat} (hin : Joins cfg (Store.step (Store.run ops) o) r j) (hj : j ∈ posOf (Store.step (Store.run ops) o) r) :
    Msg.inval r ∈ publish (Store.run ops) o ∨ ∃ new : List Row,
      (Store.step (Store.run ops) o).rows.map Row.core = (Store.run ops).rows.map Row.core ++ new.map Row.core ∧
      (∀ x ∈ new, (Store.run ops).seq < x.nid) ∧ ∀ x ∈ new, x.room = r → x.isState = false := by
  by_cases hp : Msg.inval r ∈ publish (Store.run ops) o
  · exact Or.inl hp
  · right
    by_cases ho : OkOp r (.poll o)
    · obtain ⟨_, h⟩ := poll_rows hok hoo ho
      exact h
    · cases o with
      | acc room skip limited timeline => exact absurd trivial ho
      | init room skip block =>
        have hr : room = r := Classical.byContradiction fun h => ho h
        subst hr
        -- a state block has no timeline, so the join was there
        have hR := Store.run_spec ops hok
        obtain ⟨_, _, new, k1, k2, _⟩ := Store.initialise_spec hR room skip block hoo
        obtain ⟨x, hx, hxr, hxs, hxj⟩ := mem_posOf.1 hj
        obtain ⟨_, _, _, x4, _⟩ := hin.joins x hx hxj
        have hxm : x.core ∈ (Store.run ops).rows.map Row.core ++ new.map Row.core := by rw [← k1]; exact List.mem_map_of_mem hx
        rcases List.mem_append.1 hxm with hm | hm
        · obtain ⟨y, hy, hc⟩ := List.mem_map.1 hm
          obtain ⟨_, c2, c3, _⟩ := Store.core_eq hc
          have hne := key_cur hok hy (Or.inr (user_key hu0 hnk y hy (by rw [c3]; exact x4)))
          rw [c2, hxr] at hne
          obtain ⟨_, h⟩ := poll_blocks hok hoo hne hp
          exact h
        · obtain ⟨y, hy, hc⟩ := List.mem_map.1 hm
          obtain ⟨_, _, _, c4⟩ := Store.core_eq hc
          rw [← c4, (k2 y hy).2] at hxs; cases hxs

theorem poll_seq {ops : List Store.Op} (o : Store.Op) : (Store.run ops).seq ≤ (Store.step (Store.run ops) o).seq :=
  (poll_new (Store.run_table ops) o).2.1

/-- A state block that comes after the join is followed by a message that closes the connections of the room's members, and that message comes after the
one with the join. -/
theorem blocks_told {cfg : Cfg} (hu0 : cfg.user ≠ "") {r : String} {j : Nat} (ops : List Op) : (∀ o ∈ polls ops, Store.OkOp o) → (∀ o ∈ polls ops, NoKey o) →
    Joins cfg (run cfg {} ops).db r j →
    BlocksBefore (run cfg {} ops).db r j ∨ j ≤ (run cfg {} ops).handed ∨
      (j ∈ posOf (run cfg {} ops).db r ∧ ∃ A B, (run cfg {} ops).bus = A ++ .inval r :: B ∧ (r, j) ∉ pend B) := by
  induction ops using Util.snocRec with
  | nil => intro _ _ _; left; intro x hx; simp [run] at hx
  | append_singleton ops o ih =>
    intro hok hnk hin
    have hR := reach cfg ops
    have hrun : run cfg {} (ops ++ [o]) = step cfg (run cfg {} ops) o := by simp [run]
    rw [hrun] at hin ⊢
    have hsub : ∀ x ∈ polls ops, x ∈ polls (ops ++ [o]) := fun x hx => by rw [polls_append]; exact List.mem_append_left _ hx
    have hok' : ∀ o ∈ polls ops, Store.OkOp o := fun x hx => hok x (hsub x hx)
    have hnk' : ∀ o ∈ polls ops, NoKey o := fun x hx => hnk x (hsub x hx)
    have ih := ih hok' hnk'
    have hR' := reach cfg (ops ++ [o])
    rw [hrun] at hR'
    clear hrun
    generalize run cfg {} ops = s at *
    cases o with
    | poll o =>
      have ho : Store.OkOp o := hok o (by simp [polls])
      obtain ⟨_, hs, new, k1, k2, k3⟩ := poll_new hR.base.ti o
      have hin : Joins cfg (Store.step s.db o) r j := hin
      have ih := ih (hin.back k1 k2 hs)
      by_cases hj : j ∈ posOf (Store.step s.db o) r
      · rcases ih with h | h | ⟨h1, A, B, h2, h3⟩
        · have hpj := poll_joined hu0 hok' hnk' ho (by rw [← hR.db]; exact hin) (by rw [← hR.db]; exact hj)
          rw [← hR.db] at hpj
          rcases hpj with hp | ⟨new, g1, _, g3⟩
          · right; right
            refine ⟨hj, s.bus, [], ?_, by simp [pend]⟩
            rcases publish_one s.db o with h0 | ⟨m, h0⟩
            · rw [h0] at hp; cases hp
            · rw [h0, List.mem_singleton] at hp
              simp only [step]
              rw [h0, ← hp]
          · left
            exact h.grow g1 g3
        · exact Or.inr (Or.inl h)
        · right; right
          refine ⟨hj, A, B ++ publish s.db o, by simp only [step]; rw [h2]; simp, ?_⟩
          rw [pend_append, List.mem_append]
          rintro (h | h)
          · exact h3 h
          · rw [k3] at h
            obtain ⟨y, hy, hye⟩ := List.mem_map.1 h
            simp only [Prod.mk.injEq] at hye
            have h4 := k2 y (List.mem_filter.1 hy).1
            obtain ⟨x, hx, _, _, hxj⟩ := mem_posOf.1 h1
            have := (hR.base.ti.range x hx).2
            omega
      · left
        refine blocks_unjoined hR'.base.ti ?_
        · rcases hin.here with ⟨x, hx, he⟩ | h
          · obtain ⟨h1, h2, _⟩ := hin.joins x hx he
            exact absurd (mem_posOf.2 ⟨x, hx, h1, h2, he⟩) hj
          · exact h
    | recv =>
      cases hb : s.bus with
      | nil => rw [show step cfg s .recv = s by simp [step, hb]] at hin ⊢; exact ih hin
      | cons m rest =>
        have hstep : step cfg s .recv = handle cfg { s with bus := rest } m := by simp [step, hb]
        have hB : Base { s with bus := rest } (pend (m :: rest)) := by rw [← hb]; exact ⟨hR.base.ti, hR.base.bus, hR.base.jrt⟩
        obtain ⟨h1, h2, h3⟩ := handle_base (cfg := cfg) hB
        rw [hstep] at hin ⊢
        rw [h2] at hin ⊢
        rw [h3]
        rcases ih hin with h | h | ⟨k1, A, B, k2, k3⟩
        · exact Or.inl h
        · right; left
          apply Classical.byContradiction
          intro hlt
          have hB' := h1.bus
          rw [h2] at hB'
          have hj : j ∈ posOf s.db r := hin.pos h (hR.base.bus.le_seq hR.base.ti)
          have : j ∈ inRoom r (pend rest) := by
            rw [hB'.room]; exact List.mem_filter.2 ⟨hj, by simp only [decide_eq_true_eq]; omega⟩
          have hm : (r, j) ∈ pend s.bus := by
            rw [hb, show m :: rest = [m] ++ rest from rfl, pend_append]
            exact List.mem_append_right _ (mem_inRoom.1 this)
          have := hR.base.bus.gt _ hm
          simp only at this
          omega
        · rw [hb] at k2
          cases A with
          | nil =>
            right; left
            simp only [List.nil_append, List.cons.injEq] at k2
            obtain ⟨rfl, rfl⟩ := k2
            apply Classical.byContradiction
            intro hlt
            have hB' := h1.bus
            rw [h2] at hB'
            have : j ∈ inRoom r (pend rest) := by
              rw [hB'.room]; exact List.mem_filter.2 ⟨k1, by simp only [decide_eq_true_eq]; omega⟩
            exact k3 (mem_inRoom.1 this)
          | cons m' A =>
            right; right
            simp only [List.cons_append, List.cons.injEq] at k2
            exact ⟨k1, A, B, k2.2, k3⟩
    | «open» => exact ih hin
    | request xs => exact ih hin
    | take vis xs => exact ih hin
    | restart =>
      have hin : Joins cfg s.db r j := hin
      rcases hin.here with ⟨x, hx, he⟩ | h
      · right; left
        obtain ⟨h1, h2, _⟩ := hin.joins x hx he
        apply Classical.byContradiction
        intro hlt
        have : j ∈ inRoom r (pend (step cfg s .restart).bus) := by
          rw [hR'.base.bus.room]
          exact List.mem_filter.2 ⟨mem_posOf.2 ⟨x, hx, h1, h2, he⟩, by simp only [decide_eq_true_eq]; omega⟩
        cases this
      · exact Or.inl (blocks_unjoined hR.base.ti h)

/-! ## The invariant -/

structure SJ (db : DB) (r : String) (j : Nat) (c : Conn) : Prop where
  fresh : c.anchor = 0 → c.base r = none
  blocks : BlocksBefore db r j
  base : ∀ b, c.base r = some b → ∃ l0, c.view r = some (l0 ++ c.live r) ∧ (l0 ≠ [] → ∃ a, j ≤ a ∧ a ≤ db.seq ∧ BaseOk db r a b ∧
    (∀ x ∈ l0, x ≤ a) ∧ (∀ x ∈ c.live r, a < x) ∧ ∀ e ∈ posFrom db r j, e ≤ a → e ≤ c.lp r)

theorem SJ.queue {db : DB} {r : String} {j : Nat} {c : Conn} (h : SJ db r j c) (q : List Upd) : SJ db r j { c with queue := q } :=
  ⟨h.fresh, h.blocks, h.base⟩

theorem SJ.grow {db db' : DB} {new : List Row} (he : db'.rows.map Row.core = db.rows.map Row.core ++ new.map Row.core) (hn : ∀ x ∈ new, db.seq < x.nid)
    (hs : db.seq ≤ db'.seq) {r : String} {j : Nat} (hb : BlocksBefore db' r j) {c : Conn} (h : SJ db r j c) : SJ db' r j c := by
  refine ⟨h.fresh, hb, fun b hbe => ?_⟩
  obtain ⟨l0, h1, h2⟩ := h.base b hbe
  refine ⟨l0, h1, fun h0 => ?_⟩
  obtain ⟨a, k1, k2, k3, k4, k5, k6⟩ := h2 h0
  refine ⟨a, k1, by omega, k3.grow he hn k2, k4, k5, fun e hep hle => ?_⟩
  obtain ⟨hep, hje⟩ := mem_posFrom.1 hep
  obtain ⟨x, hx, hxr, hxs, rfl⟩ := mem_posOf.1 hep
  have : x.core ∈ db.rows.map Row.core ++ new.map Row.core := by rw [← he]; exact List.mem_map_of_mem hx
  rcases List.mem_append.1 this with hm | hm
  · obtain ⟨y, hy, hc⟩ := List.mem_map.1 hm
    obtain ⟨c1, c2, _, c4⟩ := Store.core_eq hc
    exact k6 _ (mem_posFrom.2 ⟨mem_posOf.2 ⟨y, hy, c2.trans hxr, c4.trans hxs, c1⟩, hje⟩) hle
  · obtain ⟨y, hy, hc⟩ := List.mem_map.1 hm
    have := hn y hy
    rw [(Store.core_eq hc).1] at this
    omega

/-- The rooms of a request or an update are loaded. -/
theorem loads_sj {cfg : Cfg} {db : DB} (hI : TI db) {r : String} {d j : Nat} (hd : d < j) (hin : Joins cfg db r j)
    (hb : ∀ a, j ≤ a → a ≤ db.seq → BaseOk db r a (stateOf db r a)) {c : Conn} (h : SJ db r j c) (ha : c.anchor ≠ 0) (hseq : c.anchor ≤ db.seq)
    (hlp : ∀ ρ, c.lp ρ ≤ c.anchor) (hlj : c.lp r = 0 ∨ j ≤ c.lp r) (xs : List (String × Nat)) (hx : ∀ x ∈ xs, 1 ≤ x.2) :
    SJ db r j (loads cfg db c xs) := by
  obtain ⟨b1, _, _, _, b4⟩ := loads_from (d := d) hI hin xs hseq hx hlp hlj
  obtain ⟨_, k2⟩ := loads_base cfg db r xs c
  generalize loads cfg db c xs = c1 at *
  rcases k2 with ⟨k2, k3, k4⟩ | ⟨k2, k3, k4⟩
  · rcases b4 with ⟨_, e1, e2⟩ | ⟨e0, _⟩
    · refine ⟨fun h0 => absurd (b1.symm.trans h0) ha, h.blocks, fun b hb => ?_⟩
      rw [e1, e2, k4]
      exact h.base b (k3.symm.trans hb)
    · rw [k2] at e0; cases e0
  · rcases b4 with ⟨e0, _⟩ | ⟨_, l, e1, e2⟩
    · rw [k2] at e0; cases e0
    · refine ⟨fun h0 => absurd (b1.symm.trans h0) ha, h.blocks, fun b hbe => ?_⟩
      rw [k3] at hbe
      cases hbe
      refine ⟨l, by rw [k4, List.append_nil]; exact e1, fun h0 => ?_⟩
      have hl : ∀ x ∈ l, x ≤ c.anchor ∧ j ≤ x := fun x hx => by
        obtain ⟨m1, m2⟩ := List.mem_filter.1 (e2.suffix.subset hx)
        have := e2.le
        simp only [decide_eq_true_eq] at m2
        exact ⟨by omega, (mem_posFrom.1 m1).2⟩
      obtain ⟨x, hx⟩ := List.exists_mem_of_ne_nil _ h0
      have := hl x hx
      refine ⟨c.anchor, by omega, hseq, hb _ (by omega) hseq, fun x hx => (hl x hx).1, by rw [k4]; nofun, fun e he hle => ?_⟩
      exact e2.all e he (by have := (mem_posFrom.1 he).2; omega) hle

theorem take_sj {cfg : Cfg} {db : DB} (hI : TI db) {r : String} {d h j : Nat} (hdj : d < j) (hin : Joins cfg db r j) (hh : h ≤ db.seq) {c : Conn}
    (hc : COkJ db r d h j c) (hb : ∀ a, j ≤ a → a ≤ db.seq → BaseOk db r a (stateOf db r a)) (hs : SJ db r j c) (vis : Bool) (xs : List (String × Nat))
    (hx : ∀ x ∈ xs, 1 ≤ x.2) : SJ db r j (take cfg db c vis xs) := by
  rcases hc with hf | ⟨q, A, hc⟩
  · unfold take
    rw [if_pos hf.anchor]
    exact hs
  · unfold take
    rw [if_neg (by have := hc.anchor; omega)]
    cases hq : c.queue with
    | nil => exact hs
    | cons u queue =>
      have hqi := hc.queue
      rw [hq] at hqi
      obtain ⟨t1, t2, t3, t4, t5, t6, t7⟩ := hqi.tail
      obtain ⟨⟨hd, _⟩, _, ⟨ha1, ha2, ha3, ha4, ha5⟩, hlpA, hlpJ, hri⟩ := hc
      simp only
      unfold deliver
      by_cases hskip : 0 < c.lp u.room ∧ u.nid < c.lp u.room
      · rw [if_pos hskip]
        exact ⟨hs.fresh, hs.blocks, hs.base⟩
      · rw [if_neg hskip]
        have hmax : c.anchor ≤ max c.anchor u.nid ∧ max c.anchor u.nid ≤ db.seq ∧
            (max c.anchor u.nid = u.nid ∨ (max c.anchor u.nid = A)) := by
          rcases Nat.le_total c.anchor u.nid with h' | h'
          · rw [Nat.max_eq_right h']; omega
          · rw [Nat.max_eq_left h']; omega
        obtain ⟨m1, m3, m4⟩ := hmax
        have hlp' : ∀ ρ, ({ c with queue := queue, anchor := max c.anchor u.nid } : Conn).lp ρ ≤ max c.anchor u.nid := by
          intro ρ; have := hlpA ρ; simp only; omega
        have hs0 : SJ db r j { c with queue := queue, anchor := max c.anchor u.nid } :=
          ⟨fun h0 => by simp only at h0; omega, hs.blocks, hs.base⟩
        have hs1 := loads_sj hI hdj hin hb hs0 (by simp only; omega) (by simp only; omega) hlp' hlpJ xs hx
        obtain ⟨_, _, _, _, b4⟩ := loads_from (d := d) hI hin xs (c := { c with queue := queue, anchor := max c.anchor u.nid }) m3 hx hlp' hlpJ
        simp only at b4
        generalize loads cfg db { c with queue := queue, anchor := max c.anchor u.nid } xs = c1 at hs1 b4
        have hle : u.room = r → c1.lp r ≤ u.nid := by
          intro hr
          have hold : c.lp r ≤ u.nid := by rw [← hr]; omega
          rcases b4 with ⟨_, k2, _⟩ | ⟨_, l, _, k3⟩
          · rw [k2]; exact hold
          · rcases m4 with m4 | m4
            · have := k3.le; omega
            · rcases k3.mem with h0 | h0
              · omega
              · apply Classical.byContradiction
                intro hlt
                have := hri.known _ h0 (by omega) (by have := k3.le; omega)
                omega
        cases vis with
        | true =>
          simp only [if_true]
          by_cases hr : u.room = r
          · refine ⟨hs1.fresh, hs1.blocks, fun b hbe => ?_⟩
            obtain ⟨l0, p1, p2⟩ := hs1.base b hbe
            have hlp : (append c1 u).lp r = u.nid := by simp [append, set, hr]
            by_cases hn : u.nid ≤ c1.lp r
            · have hv : (append c1 u).view r = c1.view r := by simp [append, hr, hn]
              have hl : (append c1 u).live r = c1.live r := by simp [append, hr, hn]
              refine ⟨l0, by rw [hv, hl]; exact p1, fun h0 => ?_⟩
              obtain ⟨a, k1, k2, k3, k4, k5, k6⟩ := p2 h0
              refine ⟨a, k1, k2, k3, k4, by rw [hl]; exact k5, fun e he hea => ?_⟩
              have := k6 e he hea
              have := hle hr
              rw [hlp]
              omega
            · have hv : (append c1 u).view r = some (l0 ++ (c1.live r ++ [u.nid])) := by
                simp [append, set, hr, hn, p1, t4]
              have hl : (append c1 u).live r = c1.live r ++ [u.nid] := by simp [append, set, hr, hn, t4]
              refine ⟨l0, by rw [hv, hl], fun h0 => ?_⟩
              obtain ⟨a, k1, k2, k3, k4, k5, k6⟩ := p2 h0
              have hgt : a < u.nid := by
                apply Classical.byContradiction
                intro h0
                have := k6 u.nid (t5 hr) (by omega)
                omega
              refine ⟨a, k1, k2, k3, k4, ?_, fun e he hle => by rw [hlp]; omega⟩
              rw [hl]
              intro x hx
              rcases List.mem_append.1 hx with hx | hx
              · exact k5 x hx
              · rw [List.mem_singleton.1 hx]; exact hgt
          · have hr' : r ≠ u.room := fun h => hr h.symm
            have hv : (append c1 u).view r = c1.view r := by
              simp only [append]; split
              · rfl
              · simp [set, hr']
            have hl : (append c1 u).live r = c1.live r := by
              simp only [append]; split
              · rfl
              · simp [set, hr']
            have hlp : (append c1 u).lp r = c1.lp r := by simp [append, set, hr']
            refine ⟨hs1.fresh, hs1.blocks, fun b hbe => ?_⟩
            rw [hv, hl, hlp]
            exact hs1.base b hbe
        | false =>
          simp only [Bool.false_eq_true, if_false]
          by_cases hany : xs.any (·.1 = u.room) = true
          · rw [if_pos hany]; exact hs1
          · rw [if_neg hany]
            by_cases hr : u.room = r
            · refine ⟨fun _ => by simp [set, hr], hs1.blocks, fun b hbe => ?_⟩
              simp [set, hr] at hbe
            · have hr' : r ≠ u.room := fun h => hr h.symm
              refine ⟨fun h0 => by simp only [set, hr', if_false]; exact hs1.fresh h0, hs1.blocks, fun b hbe => ?_⟩
              simp only [set, hr', if_false] at hbe ⊢
              exact hs1.base b hbe

theorem request_sj {cfg : Cfg} {ops : List Store.Op} (hok : ∀ o ∈ ops, Store.OkOp o) {r : String} {d h j : Nat} (hdj : d < j)
    (hin : Joins cfg (Store.run ops) r j) (hd : d ≤ h) (hh : h = 0 ∨ ∃ x ∈ (Store.run ops).rows, x.nid = h) (hne : (Store.run ops).rows ≠ []) {c : Conn}
    (hc : COkJ (Store.run ops) r d h j c) (hb : ∀ a, j ≤ a → a ≤ (Store.run ops).seq → BaseOk (Store.run ops) r a (stateOf (Store.run ops) r a))
    (hs : SJ (Store.run ops) r j c) (xs : List (String × Nat)) (hx : ∀ x ∈ xs, 1 ≤ x.2) : SJ (Store.run ops) r j (request cfg (Store.run ops) c xs) := by
  obtain ⟨⟨q, A, h1⟩, h2⟩ : (∃ q A, CJ (Store.run ops) r d h j q A (if c.anchor = 0 then load cfg (Store.run ops) c else c)) ∧
      SJ (Store.run ops) r j (if c.anchor = 0 then load cfg (Store.run ops) c else c) := by
    rcases hc with hf | ⟨q, A, hc⟩
    · rw [if_pos hf.anchor]
      refine ⟨⟨_, _, load_from hok hin hd hh hne hf⟩, fun _ => hs.fresh hf.anchor, hs.blocks, fun b hbe => ?_⟩
      have h0 : (load cfg (Store.run ops) c).base r = none := hs.fresh hf.anchor
      rw [h0] at hbe; cases hbe
    · rw [if_neg (by have := hc.anchor; omega)]; exact ⟨⟨q, A, hc⟩, hs⟩
  unfold request
  obtain ⟨_, _, k4, k5, k6, _⟩ := h1
  exact loads_sj (Store.run_table ops) hdj hin hb h2 (by omega) (by omega) k5 k6 xs hx

/-! ## The whole -/

theorem joins_base {cfg : Cfg} (hu0 : cfg.user ≠ "") {ops : List Store.Op} (hok : ∀ o ∈ ops, Store.OkOp o) (hnk : ∀ o ∈ ops, NoKey o) {r : String} {j : Nat}
    (hin : Joins cfg (Store.run ops) r j) : ∀ a, j ≤ a → a ≤ (Store.run ops).seq → BaseOk (Store.run ops) r a (stateOf (Store.run ops) r a) :=
  fun _ ha hs => in_base hu0 hok hnk ⟨hin.after (hin.pos ha hs) (Nat.le_refl _), hin.stays⟩ ha

theorem main_sj {cfg : Cfg} (hu : cfg.user ≠ Dispatcher.allUsers) (hu0 : cfg.user ≠ "") {pre : List Op} {r : String} {j : Nat}
    (hd : (run cfg {} pre).handed < j) (hne : (run cfg {} pre).db.rows ≠ []) (hn : cfg.user ∉ (run cfg {} pre).disp.jrt.joinedUsers r) (post : List Op) :
    (∀ o ∈ polls (pre ++ .open :: post), Store.OkOp o) → (∀ o ∈ polls (pre ++ .open :: post), NoKey o) → (∀ o ∈ polls (pre ++ .open :: post), KeyOk o) →
    (∀ o ∈ post, OneConn o) → Joins cfg (run cfg {} (pre ++ .open :: post)).db r j →
    (j ∈ posOf (run cfg {} (pre ++ .open :: post)).db r ∧ Msg.inval r ∈ (run cfg {} (pre ++ .open :: post)).bus) ∨
    ∀ c, (run cfg {} (pre ++ .open :: post)).conn = some c → SJ (run cfg {} (pre ++ .open :: post)).db r j c := by
  induction post using Util.snocRec with
  | nil =>
    intro hok hnk _ _ hin
    have hpp : polls (pre ++ [Op.open]) = polls pre := by rw [polls_append]; simp [polls]
    rw [hpp] at hok hnk
    rw [show run cfg {} (pre ++ [Op.open]) = step cfg (run cfg {} pre) .open by simp [run]] at hin ⊢
    rcases blocks_told hu0 pre hok hnk hin with h | h | ⟨h1, A, B, h2, _⟩
    · right
      intro c hc
      simp only [step, Option.some.injEq] at hc
      subst hc
      exact ⟨fun _ => rfl, h, nofun⟩
    · omega
    · left
      refine ⟨h1, ?_⟩
      simp only [step]
      rw [h2]; simp
  | append_singleton post o ih =>
    intro hok hnk hk hpost hin
    have hR := reach cfg (pre ++ .open :: post)
    have hR' := reach cfg ((pre ++ .open :: post) ++ [o])
    have he : pre ++ .open :: (post ++ [o]) = (pre ++ .open :: post) ++ [o] := by simp
    rw [he] at hok hnk hk hin ⊢
    have hrun : run cfg {} ((pre ++ .open :: post) ++ [o]) = step cfg (run cfg {} (pre ++ .open :: post)) o := by simp [run]
    rw [hrun] at hin hR' ⊢
    have hsub : ∀ x ∈ polls (pre ++ .open :: post), x ∈ polls ((pre ++ .open :: post) ++ [o]) := fun x hx => by rw [polls_append]; exact List.mem_append_left _ hx
    have hok' : ∀ o ∈ polls (pre ++ .open :: post), Store.OkOp o := fun x hx => hok x (hsub x hx)
    have hnk' : ∀ o ∈ polls (pre ++ .open :: post), NoKey o := fun x hx => hnk x (hsub x hx)
    have hk' : ∀ o ∈ polls (pre ++ .open :: post), KeyOk o := fun x hx => hk x (hsub x hx)
    have hpost' : ∀ o ∈ post, OneConn o := fun x hx => hpost x (List.mem_append_left _ hx)
    have hm := main_from hu hu0 hd hne hn post hok' hnk' hk' hpost'
    have ih := ih hok' hnk' hk' hpost'
    have ho := hpost o (by simp)
    clear hrun
    generalize run cfg {} (pre ++ .open :: post) = s at ih hR hR' hin hm
    generalize (run cfg {} pre).handed = d at hd hm
    have hhs := hR.base.bus.le_seq hR.base.ti
    have hmc : Joins cfg s.db r j → ∀ c, s.conn = some c → AfterJ cfg r d j s := fun h c hc => by
      rcases (hm h).2 with h | h
      · rw [hc] at h; cases h
      · exact h
    cases o with
    | poll o =>
      have hoo : Store.OkOp o := hok o (by rw [polls_append]; exact List.mem_append_right _ (by simp [polls]))
      obtain ⟨_, hs, new, k1, k2, _⟩ := poll_new hR.base.ti o
      have hin : Joins cfg (Store.step s.db o) r j := hin
      have hin' : Joins cfg s.db r j := hin.back k1 k2 hs
      show (j ∈ posOf (Store.step s.db o) r ∧ Msg.inval r ∈ s.bus ++ publish s.db o) ∨ ∀ c, s.conn = some c → SJ (Store.step s.db o) r j c
      by_cases hj : j ∈ posOf (Store.step s.db o) r
      · rcases ih hin' with ih | ih
        · exact Or.inl ⟨hj, List.mem_append_left _ ih.2⟩
        · have hpj := poll_joined hu0 hok' hnk' hoo (by rw [← hR.db]; exact hin) (by rw [← hR.db]; exact hj)
          rw [← hR.db] at hpj
          rcases hpj with hp | ⟨new, g1, g2, g3⟩
          · exact Or.inl ⟨hj, List.mem_append_right _ hp⟩
          · exact Or.inr fun c hc => (ih c hc).grow g1 g2 hs ((ih c hc).blocks.grow g1 g3)
      · have hlt : (Store.step s.db o).seq < j := by
          rcases hin.here with ⟨x, hx, he⟩ | h
          · obtain ⟨h1, h2, _⟩ := hin.joins x hx he
            exact absurd (mem_posOf.2 ⟨x, hx, h1, h2, he⟩) hj
          · exact h
        rcases ih hin' with ih | ih
        · obtain ⟨x, hx, _, _, he⟩ := mem_posOf.1 ih.1
          have := (hR.base.ti.range x hx).2
          omega
        · exact Or.inr fun c hc => (ih c hc).grow k1 k2 hs (blocks_unjoined hR'.base.ti hlt)
    | recv =>
      cases hb : s.bus with
      | nil =>
        have hstep : step cfg s .recv = s := by simp only [step, hb]
        rw [hstep] at hin ⊢
        exact ih hin
      | cons m rest =>
        have hstep : step cfg s .recv = handle cfg { s with bus := rest } m := by simp only [step, hb]
        rw [hstep] at hin ⊢
        have hB : Base { s with bus := rest } (pend (m :: rest)) := by rw [← hb]; exact ⟨hR.base.ti, hR.base.bus, hR.base.jrt⟩
        obtain ⟨_, h2, h3⟩ := handle_base (cfg := cfg) hB
        rw [h2] at hin ⊢
        rw [h3]
        rcases ih hin with ⟨ih1, ih2⟩ | ih
        · by_cases hrest : Msg.inval r ∈ rest
          · exact Or.inl ⟨ih1, hrest⟩
          · right
            intro c' hc'
            obtain ⟨c, q, hc, rfl⟩ := handle_conn hc'
            rw [hb] at ih2
            rcases List.mem_cons.1 ih2 with hmi | h
            · subst hmi
              have hkey : ∀ x ∈ s.db.rows, x.ev.stateKey = cfg.user → x.ev.hasKey = true := by rw [hR.db]; exact user_key hu0 hnk'
              have hin : Joins cfg s.db r j := hin
              obtain ⟨id, hid⟩ := in_cur hkey (⟨hin.after ih1 (Nat.le_refl _), hin.stays⟩ : In cfg s.db r j)
              have := inval_drops (s := { s with bus := rest }) hR.db hok' hid ((hmc hin c hc).2 c hc).1
              rw [hc'] at this
              cases this
            · exact absurd h hrest
        · right
          intro c' hc'
          obtain ⟨c, q, hc, rfl⟩ := handle_conn hc'
          exact (ih c hc).queue q
    | «open» => exact ho.elim
    | restart => exact Or.inr fun c hc => by cases hc
    | request xs =>
      rcases ih hin with ih | ih
      · exact Or.inl ih
      · right
        intro c' hc'
        simp only [step, Option.map_eq_some_iff] at hc'
        obtain ⟨c, hc, rfl⟩ := hc'
        have hin : Joins cfg s.db r j := hin
        have h1 := hmc hin c hc
        obtain ⟨_, _, e3⟩ := h1.2 c hc
        have h0 := (hm hin).1
        have hsi := ih c hc
        have hh := hR.base.bus.handed
        simp only [step]
        rw [hR.db] at hin e3 hh hsi h0 ⊢
        exact request_sj hok' hd hin h1.1 hh h0 e3 (joins_base hu0 hok' hnk' hin) hsi xs ho
    | take vis xs =>
      rcases ih hin with ih | ih
      · exact Or.inl ih
      · right
        intro c' hc'
        simp only [step, Option.map_eq_some_iff] at hc'
        obtain ⟨c, hc, rfl⟩ := hc'
        have hin : Joins cfg s.db r j := hin
        obtain ⟨_, _, e3⟩ := (hmc hin c hc).2 c hc
        have hb := hin
        rw [hR.db] at hb
        have hb := joins_base hu0 hok' hnk' hb
        rw [← hR.db] at hb
        exact take_sj hR.base.ti hd hin hhs e3 hb (ih c hc) vis xs ho

/-! ## The property -/

theorem sj_state {s : State} {ops : List Op} (hR : Reach s ops) {r : String} {j : Nat} {c : Conn} (hsi : SJ s.db r j c)
    (hst : ∀ l, c.view r = some l → ∃ before after, posFrom s.db r j = before ++ l ++ after ∧ (∀ e ∈ after, Pending s c r e) ∧
      (l = [] → before = [])) {b : List Row} (hb : c.base r = some b) (hl : c.view r ≠ some (c.live r)) (k : Store.Key) :
    (∃ x, lastState s.db r k = some x ∧ Pending s c r x.nid) ∨
    ∀ id, id ∈ clientState s.db (c.live r) b k ↔ (lastState s.db r k).map (·.ev.id) = some id := by
  have hI := hR.base.ti
  obtain ⟨l0, p5, hp⟩ := hsi.base b hb
  have hl0 : l0 ≠ [] := fun h => hl (by rw [p5, h, List.nil_append])
  obtain ⟨a, p1, _, p4, p6, p7, _⟩ := hp hl0
  obtain ⟨before, after, q1, q2, _⟩ := hst _ p5
  have hlive : ∀ n ∈ c.live r, n ∈ posOf s.db r := fun n hn => (mem_posFrom.1 (show n ∈ posFrom s.db r j by rw [q1]; simp [hn])).1
  have hbase : (∀ x ∈ s.db.rows, Keyed r k x → x.nid ≤ a) → ∀ id, id ∈ clientState s.db (c.live r) b k ↔
      (lastState s.db r k).map (·.ev.id) = some id := by
    intro hk id
    have hnone : ((c.live r).filterMap fun n => s.db.rows.find? fun x => decide (x.nid = n)).filter
        (fun x => x.ev.hasKey && decide (x.ev.type = k.1 ∧ x.ev.stateKey = k.2)) = [] := by
      rw [List.eq_nil_iff_forall_not_mem]
      intro x hx
      obtain ⟨h1, h2, h3⟩ := mem_live hlive hx hI
      have := hk x h1 h3
      have := p7 _ h2
      omega
    unfold clientState
    rw [hnone]
    simp only [List.getLast?_nil]
    rw [← last_state, ← p4 k hk id]
    constructor
    · intro h
      obtain ⟨y, hy, rfl⟩ := List.mem_map.1 h
      obtain ⟨hy1, hy2⟩ := List.mem_filter.1 hy
      exact ⟨y, hy1, (key_iff y k).2 (by simpa using hy2), rfl⟩
    · rintro ⟨y, hy, hyk, rfl⟩
      exact List.mem_map.2 ⟨y, List.mem_filter.2 ⟨hy, by simpa using (key_iff y k).1 hyk⟩, rfl⟩
  cases hls : lastState s.db r k with
  | none =>
    right
    rw [← hls]
    exact hbase fun x hx hk => absurd hk (last_none hls x hx)
  | some x =>
    obtain ⟨hx, hk, hmax⟩ := last_max hI hls
    by_cases hxa : x.nid ≤ a
    · right
      rw [← hls]
      exact hbase fun y hy hky => Nat.le_trans (hmax y hy hky) hxa
    · -- the event came after the room was loaded
      have hns : x.isState = false := by
        cases h : x.isState with
        | false => rfl
        | true => have := hsi.blocks x hx hk.1 h; omega
      have hkey : x.ev.hasKey = true := by
        rcases hk.2.1 with h | h
        · rw [hns] at h; cases h
        · exact h
      have hpos : x.nid ∈ posFrom s.db r j := mem_posFrom.2 ⟨mem_posOf.2 ⟨x, hx, hk.1, hns, rfl⟩, by omega⟩
      have hasc := posFrom_asc hI r j
      rw [q1] at hasc
      have hpos' := hpos
      rw [q1, List.mem_append, List.mem_append] at hpos'
      rcases hpos' with (hp | hp) | hp
      · exfalso
        obtain ⟨y, hy⟩ := List.exists_mem_of_ne_nil _ hl0
        have := (List.pairwise_append.1 (List.pairwise_append.1 hasc).1).2.2 _ hp y (List.mem_append_left _ hy)
        have := p6 y hy
        omega
      · right
        have hxl : x.nid ∈ c.live r := by
          rcases List.mem_append.1 hp with hp | hp
          · exact absurd (p6 _ hp) hxa
          · exact hp
        have hlasc : (c.live r).Pairwise (· < ·) :=
          (List.pairwise_append.1 (List.pairwise_append.1 (List.pairwise_append.1 hasc).1).2.1).2.1
        exact live_last hI hlive hlasc hls hxl hkey
      · left
        exact ⟨x, rfl, q2 _ hp⟩

/-- **C116** for a room the user joins after the connection was made, with the event at position `j`: when the room was last loaded, events were loaded with
it (it was loaded since the join), then under every key, the state event stored last for the room is what the client has, or that event is in a message not
yet taken or in the connection's queue, or the message that closes the connection has not been taken yet.

Partial: under the conditions of `C114_joined_later_partial`; a client that was given the room only before the join has the state of then, see
`C116_needs_load`. -/
theorem C116_joined_later_partial (cfg : Cfg) (hu : cfg.user ≠ Dispatcher.allUsers) (hu0 : cfg.user ≠ "") (pre post : List Op)
    (hok : ∀ o ∈ polls (pre ++ .open :: post), Store.OkOp o) (hnk : ∀ o ∈ polls (pre ++ .open :: post), NoKey o)
    (hk : ∀ o ∈ polls (pre ++ .open :: post), KeyOk o) (hpost : ∀ o ∈ post, OneConn o) (r : String) (j : Nat) (hd : (run cfg {} pre).handed < j)
    (hne : (run cfg {} pre).db.rows ≠ []) (hn : cfg.user ∉ (run cfg {} pre).disp.jrt.joinedUsers r)
    (hin : Joins cfg (run cfg {} (pre ++ .open :: post)).db r j)
    (c : Conn) (hc : (run cfg {} (pre ++ .open :: post)).conn = some c) (b : List Row) (hb : c.base r = some b) (hl : c.view r ≠ some (c.live r))
    (k : Store.Key) :
    Msg.inval r ∈ (run cfg {} (pre ++ .open :: post)).bus ∨
    (∃ x, lastState (run cfg {} (pre ++ .open :: post)).db r k = some x ∧ Pending (run cfg {} (pre ++ .open :: post)) c r x.nid) ∨
    ∀ id, id ∈ clientState (run cfg {} (pre ++ .open :: post)).db (c.live r) b k ↔
      (lastState (run cfg {} (pre ++ .open :: post)).db r k).map (·.ev.id) = some id := by
  rcases main_sj hu hu0 hd hne hn post hok hnk hk hpost hin with h | h
  · exact Or.inl h.2
  · exact Or.inr (sj_state (reach cfg (pre ++ .open :: post)) (h c hc)
      (fun l hv => C114_joined_later_partial cfg hu hu0 pre post hok hnk hk hpost r j hd hne hn hin c hc l hv) hb hl k)

/-- When all messages and updates are taken, the client has exactly the current state. -/
theorem C116_joined_later_up_to_date (cfg : Cfg) (hu : cfg.user ≠ Dispatcher.allUsers) (hu0 : cfg.user ≠ "") (pre post : List Op)
    (hok : ∀ o ∈ polls (pre ++ .open :: post), Store.OkOp o) (hnk : ∀ o ∈ polls (pre ++ .open :: post), NoKey o)
    (hk : ∀ o ∈ polls (pre ++ .open :: post), KeyOk o) (hpost : ∀ o ∈ post, OneConn o) (r : String) (j : Nat) (hd : (run cfg {} pre).handed < j)
    (hne : (run cfg {} pre).db.rows ≠ []) (hn : cfg.user ∉ (run cfg {} pre).disp.jrt.joinedUsers r)
    (hin : Joins cfg (run cfg {} (pre ++ .open :: post)).db r j)
    (c : Conn) (hc : (run cfg {} (pre ++ .open :: post)).conn = some c) (b : List Row) (hb : c.base r = some b) (hl : c.view r ≠ some (c.live r))
    (he : (run cfg {} (pre ++ .open :: post)).bus = []) (hq : c.queue = []) (k : Store.Key) (id : String) :
    id ∈ clientState (run cfg {} (pre ++ .open :: post)).db (c.live r) b k ↔
      (lastState (run cfg {} (pre ++ .open :: post)).db r k).map (·.ev.id) = some id := by
  rcases C116_joined_later_partial cfg hu hu0 pre post hok hnk hk hpost r j hd hne hn hin c hc b hb hl k with h | ⟨x, _, h⟩ | h
  · rw [he] at h; cases h
  · rcases h with ⟨y, hy, _⟩ | ⟨n, hn, _⟩
    · rw [hq] at hy; cases hy
    · rw [he] at hn; cases hn
  · exact h id

end Verif.EndToEnd
