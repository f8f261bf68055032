import Verif.EndToEndConn
import Verif.DispatcherProps
/-!
# C114: from the pollers to the client, no event of a room is lost, repeated or out of order
-/
namespace Verif.EndToEnd
open Verif.Store (DB Row TI)

/-! ## Specification -/

/-- The event is still under way: in the connection's queue, or in a message that was not taken yet. -/
def Pending (s : State) (c : Conn) (r : String) (e : Nat) : Prop :=
  (∃ x ∈ c.queue, x.room = r ∧ x.ev = e) ∨ ∃ nids, Msg.acc r nids ∈ s.bus ∧ e ∈ nids

/-- The sections handled by the pollers. -/
def polls (ops : List Op) : List Store.Op := ops.filterMap fun | .poll o => some o | _ => none

/-- Anything may happen but a second connection, a restart, a state block for the room and loading a room with no timeline. -/
def OkOp (r : String) : Op → Prop
  | .poll (.init r' _ _) => r' ≠ r
  | .poll (.acc _ _ _ _) => True
  | .recv => True
  | .open => False
  | .request xs => ∀ x ∈ xs, 1 ≤ x.2
  | .take _ xs => ∀ x ∈ xs, 1 ≤ x.2
  | .restart => False

/-- The message makes the request handler forget what it knows of the room. -/
def resets (r : String) : Msg → Prop
  | .acc _ _ => False
  | .init r' _ => r' = r
  | .inval r' => r' = r

/-! ## The queue -/

structure QI (P : List Nat) (r : String) (q handed : Nat) (queue : List Upd) : Prop where
  asc : (queue.map (·.nid)).Pairwise (· < ·)
  range : ∀ x ∈ queue, q < x.nid ∧ x.nid ≤ handed ∧ x.ev = x.nid
  room : ∀ e, (∃ x ∈ queue, x.room = r ∧ x.nid = e) ↔ e ∈ P ∧ q < e ∧ e ≤ handed

theorem QI.grow {P N : List Nat} {r : String} {q h seq : Nat} {queue : List Upd} (hq : QI P r q h queue) (hN : ∀ e ∈ N, seq < e) (hs : h ≤ seq) :
    QI (P ++ N) r q h queue := by
  refine ⟨hq.asc, hq.range, fun e => ?_⟩
  rw [hq.room, List.mem_append]
  constructor
  · rintro ⟨a, b⟩; exact ⟨Or.inl a, b⟩
  · rintro ⟨a | a, b⟩
    · exact ⟨a, b⟩
    · have := hN e a; omega

/-- The first update of the queue is taken. -/
theorem QI.tail {P : List Nat} {r : String} {q h : Nat} {u : Upd} {queue : List Upd} (hq : QI P r q h (u :: queue)) :
    QI P r u.nid h queue ∧ q < u.nid ∧ u.nid ≤ h ∧ u.ev = u.nid ∧ (u.room = r → u.nid ∈ P) ∧
    (∀ e ∈ P, e < u.nid → e ≤ q) ∧ (u.room ≠ r → ∀ e ∈ P, e ≤ u.nid → e ≤ q) := by
  have hasc := hq.asc
  rw [List.map_cons, List.pairwise_cons] at hasc
  obtain ⟨h1, h2, h3⟩ := hq.range u (List.mem_cons_self)
  have hgt : ∀ x ∈ queue, u.nid < x.nid := fun x hx => hasc.1 _ (List.mem_map_of_mem hx)
  have hin : ∀ e ∈ P, q < e → e ≤ u.nid → u.room = r ∧ e = u.nid := by
    intro e he hqe hle
    obtain ⟨x, hx, hr, hn⟩ := (hq.room e).2 ⟨he, hqe, by omega⟩
    rcases List.mem_cons.1 hx with rfl | hx
    · exact ⟨hr, hn.symm⟩
    · have := hgt x hx; omega
  refine ⟨⟨hasc.2, fun x hx => ⟨hgt x hx, (hq.range x (List.mem_cons_of_mem _ hx)).2⟩, fun e => ⟨?_, ?_⟩⟩, h1, h2, h3, fun hr => ?_, ?_, ?_⟩
  · rintro ⟨x, hx, hr, hn⟩
    have h4 := (hq.room e).1 ⟨x, List.mem_cons_of_mem _ hx, hr, hn⟩
    have := hgt x hx
    exact ⟨h4.1, by omega, h4.2.2⟩
  · rintro ⟨he, hlt, hle⟩
    obtain ⟨x, hx, hr, hn⟩ := (hq.room e).2 ⟨he, by omega, hle⟩
    rcases List.mem_cons.1 hx with rfl | hx
    · omega
    · exact ⟨x, hx, hr, hn⟩
  · exact ((hq.room u.nid).1 ⟨u, List.mem_cons_self, hr, rfl⟩).1
  · intro e he hlt
    rcases Nat.lt_or_ge q e with h | h
    · have := (hin e he h (by omega)).2; omega
    · exact h
  · intro hr e he hle
    rcases Nat.lt_or_ge q e with h | h
    · exact absurd (hin e he h hle).1 hr
    · exact h

/-! ## The connection -/

/-- Not loaded yet. -/
structure Fresh (P : List Nat) (r : String) (d handed : Nat) (c : Conn) : Prop where
  anchor : c.anchor = 0
  lp : ∀ ρ, c.lp ρ = 0
  view : c.view r = none
  queue : QI P r d handed c.queue

structure CI (db : DB) (r : String) (d handed q A : Nat) (c : Conn) : Prop where
  from_ : d ≤ q ∧ q ≤ handed
  queue : QI (posOf db r) r q handed c.queue
  anchor : A ≤ c.anchor ∧ q ≤ c.anchor ∧ (c.anchor = A ∨ c.anchor ≤ q) ∧ c.anchor ≤ db.seq ∧ 0 < c.anchor
  lpA : ∀ ρ, c.lp ρ ≤ c.anchor
  ri : RI (posOf db r) d q A (c.lp r) (c.view r)

def COk (db : DB) (r : String) (d handed : Nat) (c : Conn) : Prop :=
  Fresh (posOf db r) r d handed c ∨ ∃ q A, CI db r d handed q A c

theorem load1_spec {cfg : Cfg} {db : DB} (hI : TI db) {r : String} {d : Nat} (hin : In cfg db r d) {c : Conn} (hd : d ≤ c.anchor)
    (x : String × Nat) (hx : 1 ≤ x.2) (hA : ∀ ρ, c.lp ρ ≤ c.anchor) :
    (load1 cfg db c x).anchor = c.anchor ∧ (load1 cfg db c x).queue = c.queue ∧ (∀ ρ, (load1 cfg db c x).lp ρ ≤ c.anchor) ∧
    ((x.1 ≠ r ∧ (load1 cfg db c x).lp r = c.lp r ∧ (load1 cfg db c x).view r = c.view r) ∨
     (x.1 = r ∧ ∃ l, (load1 cfg db c x).view r = some l ∧ Loaded (posOf db r) d c.anchor ((load1 cfg db c x).lp r) l)) := by
  unfold load1
  by_cases hr : x.1 = r
  · obtain ⟨t, ht, hl⟩ := latest_loaded hI hin hd hx
    rw [hr, ht]
    refine ⟨rfl, rfl, fun ρ => ?_, Or.inr ⟨rfl, t.map (·.nid.toNat), by simp [set], by simpa [set] using hl⟩⟩
    simp only [set]
    split
    · exact hl.le
    · exact hA ρ
  · have hr' : r ≠ x.1 := fun h => hr h.symm
    cases ht : Visibility.latestEvents (mrows cfg db) (trows db) [x.1] c.anchor cfg.maxLimit x.2 x.1 with
    | none => exact ⟨rfl, rfl, hA, Or.inl ⟨hr, rfl, by simp [set, hr']⟩⟩
    | some t =>
      refine ⟨rfl, rfl, fun ρ => ?_, Or.inl ⟨hr, by simp [set, hr'], by simp [set, hr']⟩⟩
      simp only [set]
      split
      · exact latest_le hI ht
      · exact hA ρ

theorem loads_spec {cfg : Cfg} {db : DB} (hI : TI db) {r : String} {d : Nat} (hin : In cfg db r d) (xs : List (String × Nat)) : ∀ {c : Conn},
    d ≤ c.anchor → (∀ x ∈ xs, 1 ≤ x.2) → (∀ ρ, c.lp ρ ≤ c.anchor) →
    (loads cfg db c xs).anchor = c.anchor ∧ (loads cfg db c xs).queue = c.queue ∧ (∀ ρ, (loads cfg db c xs).lp ρ ≤ c.anchor) ∧
    ((xs.any (·.1 = r) = false ∧ (loads cfg db c xs).lp r = c.lp r ∧ (loads cfg db c xs).view r = c.view r) ∨
     (xs.any (·.1 = r) = true ∧ ∃ l, (loads cfg db c xs).view r = some l ∧ Loaded (posOf db r) d c.anchor ((loads cfg db c xs).lp r) l)) := by
  induction xs with
  | nil => intro c _ _ hA; exact ⟨rfl, rfl, hA, Or.inl ⟨rfl, rfl, rfl⟩⟩
  | cons x xs ih =>
    intro c hd hx hA
    obtain ⟨a1, a2, a3, a4⟩ := load1_spec hI hin hd x (hx x (by simp)) hA
    obtain ⟨b1, b2, b3, b4⟩ := ih (c := load1 cfg db c x) (by rw [a1]; exact hd) (fun y hy => hx y (by simp [hy])) (by rw [a1]; exact a3)
    have e : loads cfg db c (x :: xs) = loads cfg db (load1 cfg db c x) xs := rfl
    rw [e]
    rw [a1] at b1 b3 b4
    rw [a2] at b2
    refine ⟨b1, b2, b3, ?_⟩
    rcases b4 with ⟨h1, h2, h3⟩ | ⟨h1, l, h2, h3⟩
    · rcases a4 with ⟨k1, k2, k3⟩ | ⟨k1, l, k2, k3⟩
      · exact Or.inl ⟨by simp [k1, h1], h2.trans k2, h3.trans k3⟩
      · exact Or.inr ⟨by simp [k1], l, h3.trans k2, by rw [h2]; exact k3⟩
    · exact Or.inr ⟨by simp [h1], l, h2, h3⟩

theorem take_ok {cfg : Cfg} {db : DB} (hI : TI db) {r : String} {d h : Nat} (hin : In cfg db r d) (hh : h ≤ db.seq) {c : Conn} (hc : COk db r d h c)
    (vis : Bool) (xs : List (String × Nat)) (hx : ∀ x ∈ xs, 1 ≤ x.2) : COk db r d h (take cfg db c vis xs) := by
  rcases hc with hf | ⟨q, A, hc⟩
  · unfold take
    rw [if_pos hf.anchor]
    exact Or.inl hf
  · right
    unfold take
    rw [if_neg (by have := hc.anchor; omega)]
    cases hq : c.queue with
    | nil => exact ⟨q, A, hc⟩
    | cons u queue =>
      have hqi := hc.queue
      rw [hq] at hqi
      obtain ⟨t1, t2, t3, t4, t5, t6, t7⟩ := hqi.tail
      obtain ⟨⟨hd, _⟩, _, ⟨ha1, ha2, ha3, ha4, ha5⟩, hlpA, hri⟩ := hc
      simp only
      unfold deliver
      by_cases hskip : 0 < c.lp u.room ∧ u.nid < c.lp u.room
      · rw [if_pos hskip]
        refine ⟨u.nid, A, ⟨by omega, t3⟩, t1, ⟨ha1, ?_, ha3.imp id (fun h => Nat.le_trans h (Nat.le_of_lt t2)), ha4, ha5⟩, hlpA, ?_⟩
        · have := hlpA u.room; simp only; omega
        · by_cases hr : u.room = r
          · exact hri.skip (by omega) (by rw [← hr]; exact hskip.2)
          · exact hri.other (by omega) (t7 hr)
      · rw [if_neg hskip]
        have hmax : c.anchor ≤ max c.anchor u.nid ∧ u.nid ≤ max c.anchor u.nid ∧ max c.anchor u.nid ≤ db.seq ∧
            (max c.anchor u.nid = u.nid ∨ (max c.anchor u.nid = A)) := by
          rcases Nat.le_total c.anchor u.nid with h' | h'
          · rw [Nat.max_eq_right h']; omega
          · rw [Nat.max_eq_left h']; omega
        obtain ⟨m1, m2, m3, m4⟩ := hmax
        obtain ⟨b1, b2, b3, b4⟩ := loads_spec hI hin xs (c := { c with queue := queue, anchor := max c.anchor u.nid }) (by simp only; omega) hx
          (by intro ρ; have := hlpA ρ; simp only; omega)
        simp only at b1 b2 b3 b4
        generalize loads cfg db { c with queue := queue, anchor := max c.anchor u.nid } xs = c1 at b1 b2 b3 b4
        generalize max c.anchor u.nid = a at *
        -- the state before the event is appended
        have hri1 : RI (posOf db r) d q A (c1.lp r) (c1.view r) := by
          rcases b4 with ⟨_, k2, k3⟩ | ⟨_, l, k2, k3⟩
          · rw [k2, k3]; exact hri
          · rw [k2]; exact RI.load k3 hd (by omega) (by omega)
        cases vis with
        | true =>
          simp only [if_true]
          by_cases hr : u.room = r
          · have hle : c1.lp r ≤ u.nid := by
              have hold : c.lp r ≤ u.nid := by rw [← hr]; omega
              rcases b4 with ⟨_, k2, _⟩ | ⟨_, l, _, k3⟩
              · rw [k2]; exact hold
              · rcases m4 with m4 | m4
                · have := k3.le; omega
                · rcases k3.mem with h0 | h0
                  · omega
                  · apply Classical.byContradiction
                    intro hlt
                    have := hri.known _ h0 (by omega) (by have := k3.le; omega)
                    omega
            have happ := RI.append (posOf_asc hI r) hri1 t2 (t5 hr) t6 hle
            refine ⟨u.nid, A, ⟨by omega, t3⟩, by simp only [append]; rw [b2]; exact t1, ?_, fun ρ => ?_, ?_⟩
            · simp only [append]; omega
            · simp only [append, set]
              rw [b1]
              split
              · exact m2
              · exact b3 ρ
            · simp only [append, set, t4, hr, if_true]
              split
              · rename_i hle'
                rw [if_pos hle'] at happ; exact happ
              · rename_i hle'
                rw [if_neg hle'] at happ
                simpa [set] using happ
          · have hr' : r ≠ u.room := fun h => hr h.symm
            refine ⟨u.nid, A, ⟨by omega, t3⟩, by simp only [append]; rw [b2]; exact t1, ?_, fun ρ => ?_, ?_⟩
            · simp only [append]; omega
            · simp only [append, set]
              rw [b1]
              split
              · exact m2
              · exact b3 ρ
            · have hv : (append c1 u).view r = c1.view r := by
                simp only [append]
                split
                · rfl
                · simp [set, hr']
              have hl : (append c1 u).lp r = c1.lp r := by simp [append, set, hr']
              rw [hv, hl]
              exact hri1.other (by omega) (t7 hr)
        | false =>
          simp only [Bool.false_eq_true, if_false]
          by_cases hany : xs.any (·.1 = u.room) = true
          · rw [if_pos hany]
            refine ⟨u.nid, A, ⟨by omega, t3⟩, by rw [b2]; exact t1, by omega, fun ρ => by rw [b1]; exact b3 ρ, ?_⟩
            by_cases hr : u.room = r
            · rcases b4 with ⟨k1, _⟩ | ⟨_, l, k2, k3⟩
              · rw [hr] at hany; rw [hany] at k1; cases k1
              · rw [k2]; exact RI.load k3 (by omega) m2 (by omega)
            · exact hri1.other (by omega) (t7 hr)
          · rw [if_neg hany]
            refine ⟨u.nid, A, ⟨by omega, t3⟩, by simp only; rw [b2]; exact t1, by simp only; omega, fun ρ => by simp only; rw [b1]; exact b3 ρ, ?_⟩
            by_cases hr : u.room = r
            · simp only [set, hr, if_true]
              exact hri1.forget (by omega)
            · have hr' : r ≠ u.room := fun h => hr h.symm
              simp only [set, hr', if_false]
              exact hri1.other (by omega) (t7 hr)

theorem joinedRooms_mem {cfg : Cfg} {db : DB} (hI : TI db) {r : String} {d p : Nat} (hin : In cfg db r d) (hp : d ≤ p) : r ∈ joinedRooms cfg db p := by
  have hj := hin.at hp
  unfold joinedRooms
  rw [List.mem_filter, List.mem_eraseDups]
  constructor
  · obtain ⟨e, he, hr, _⟩ := hj
    obtain ⟨x, hx, _, _, rfl⟩ := mem_mrows.1 he
    exact List.mem_map.2 ⟨x, hx, hr⟩
  · rw [Visibility.determineJoined_spec]
    have := (Visibility.joinedAt_iff (mrows_sorted cfg hI) r p).1 hj
    rw [← this]
    unfold Visibility.at' Visibility.logsOf
    rw [List.filter_filter, List.filter_filter]
    congr 1
    apply List.filter_congr
    intro e _
    rw [Bool.and_comm]

theorem load_ok {cfg : Cfg} {ops : List Store.Op} (hok : ∀ o ∈ ops, Store.OkOp o) {r : String} {d h : Nat} (hin : In cfg (Store.run ops) r d)
    (hd : d ≤ h) (hh : h = 0 ∨ ∃ x ∈ (Store.run ops).rows, x.nid = h) {c : Conn} (hc : Fresh (posOf (Store.run ops) r) r d h c) :
    CI (Store.run ops) r d h d (Store.highest (Store.run ops)) (load cfg (Store.run ops) c) := by
  have hI := Store.run_table ops
  have hseq := Store.highest_seq ops hok
  have hdH : d ≤ Store.highest (Store.run ops) := by
    rcases hh with h0 | ⟨x, hx, he⟩
    · omega
    · have := Store.highest_ge _ x hx; omega
  have hpos : 0 < Store.highest (Store.run ops) := by
    obtain ⟨e, he, _⟩ := hin.joined
    obtain ⟨x, hx, _, _, rfl⟩ := mem_mrows.1 he
    have := (hI.range x hx).1
    have := Store.highest_ge _ x hx
    omega
  refine ⟨⟨Nat.le_refl _, hd⟩, hc.queue, ⟨Nat.le_refl _, hdH, Or.inl rfl, hseq, hpos⟩, fun ρ => ?_, ?_⟩
  · simp only [load, hc.lp]
    by_cases hρ : ρ ∈ joinedRooms cfg (Store.run ops) (Store.highest (Store.run ops))
    · cases hg : Assoc.get (Store.latestNIDs (Store.run ops) (Store.highest (Store.run ops)) (joinedRooms cfg (Store.run ops) (Store.highest (Store.run ops)))) ρ with
      | none => simp
      | some n => exact ((Store.C101_exact ops hok _ _ ρ hρ n).1 hg).2.1
    · rw [Store.C101_only _ _ _ _ hρ]; simp
  · have hr := joinedRooms_mem hI hin hdH
    refine ⟨fun e he _ hle => ?_, fun l hl => by simp [load, hc.view] at hl, fun l hl => by simp [load, hc.view] at hl,
      fun hl => by simp [load, hc.view] at hl⟩
    obtain ⟨x, hx, hxr, _, rfl⟩ := mem_posOf.1 he
    obtain ⟨n, hn⟩ : ∃ n, Assoc.get (Store.latestNIDs (Store.run ops) (Store.highest (Store.run ops))
        (joinedRooms cfg (Store.run ops) (Store.highest (Store.run ops)))) r = some n := by
      cases hs : Store.slowNID (Store.run ops) (Store.highest (Store.run ops)) r with
      | none =>
        exfalso
        simp only [Store.slowNID] at hs
        split at hs
        · rename_i h0
          have hm : x.nid ∈ ((Store.run ops).rows.filter fun r' => decide (r'.room = r) && decide (r'.nid ≤ Store.highest (Store.run ops))).map (·.nid) :=
            List.mem_map.2 ⟨x, List.mem_filter.2 ⟨hx, by simp only [Bool.and_eq_true, decide_eq_true_eq]; exact ⟨hxr, hle⟩⟩, rfl⟩
          rw [h0] at hm; cases hm
        · cases hs
      | some n => exact ⟨n, (Store.C101_exact ops hok _ _ r hr n).2 ((Store.slow_spec _ _ _ _).1 hs)⟩
    have := ((Store.C101_exact ops hok _ _ r hr n).1 hn).2.2 x hx hxr hle
    simp only [load, hn, Option.getD_some]
    exact this

theorem request_ok {cfg : Cfg} {ops : List Store.Op} (hok : ∀ o ∈ ops, Store.OkOp o) {r : String} {d h : Nat} (hin : In cfg (Store.run ops) r d)
    (hd : d ≤ h) (hh : h = 0 ∨ ∃ x ∈ (Store.run ops).rows, x.nid = h) {c : Conn} (hc : COk (Store.run ops) r d h c)
    (xs : List (String × Nat)) (hx : ∀ x ∈ xs, 1 ≤ x.2) : COk (Store.run ops) r d h (request cfg (Store.run ops) c xs) := by
  obtain ⟨q, A, h1⟩ : ∃ q A, CI (Store.run ops) r d h q A (if c.anchor = 0 then load cfg (Store.run ops) c else c) := by
    rcases hc with hf | ⟨q, A, hc⟩
    · rw [if_pos hf.anchor]; exact ⟨_, _, load_ok hok hin hd hh hf⟩
    · rw [if_neg (by have := hc.anchor; omega)]; exact ⟨q, A, hc⟩
  right
  unfold request
  generalize (if c.anchor = 0 then load cfg (Store.run ops) c else c) = c0 at h1
  obtain ⟨⟨k1, k2⟩, k3, k4, k5, k6⟩ := h1
  obtain ⟨b1, b2, b3, b4⟩ := loads_spec (Store.run_table ops) hin xs (c := c0) (by omega) hx k5
  refine ⟨q, A, ⟨k1, k2⟩, by rw [b2]; exact k3, by rw [b1]; exact k4, fun ρ => by rw [b1]; exact b3 ρ, ?_⟩
  rcases b4 with ⟨_, e1, e2⟩ | ⟨_, l, e1, e2⟩
  · rw [e1, e2]; exact k6
  · rw [e1]; exact RI.load e2 k1 k4.2.1 k4.1

theorem poll_ok {db : DB} (hI : TI db) {r : String} {d h : Nat} (hh : h ≤ db.seq) {c : Conn} (hc : COk db r d h c) (o : Store.Op) :
    COk (Store.step db o) r d h c := by
  obtain ⟨_, hs, new, h1, h2, h3⟩ := poll_new hI o
  have hN : ∀ e ∈ inRoom r ((new.filter fun x => !x.isState).map fun x => (x.room, x.nid)), db.seq < e := by
    intro e he
    obtain ⟨x, hx, hxe⟩ := List.mem_map.1 (mem_inRoom.1 he)
    simp only [Prod.mk.injEq] at hxe
    rw [← hxe.2]
    exact h2 x (List.mem_filter.1 hx).1
  rcases hc with hf | ⟨q, A, hc⟩
  · left
    rw [posOf_new h1]
    exact ⟨hf.anchor, hf.lp, hf.view, hf.queue.grow hN hh⟩
  · right
    obtain ⟨k1, k3, k4, k5, k6⟩ := hc
    have := k5 r
    refine ⟨q, A, k1, by rw [posOf_new h1]; exact k3.grow hN hh, by omega, k5, ?_⟩
    rw [posOf_new h1]
    exact k6.grow hN (by omega) (by omega) (by omega)

/-! ## The dispatcher -/

theorem filter_nodup {L : List String} (h : L.Nodup) (u : String) : L.filter (· = u) = if u ∈ L then [u] else [] := by
  induction L with
  | nil => rfl
  | cons a L ih =>
    rw [List.nodup_cons] at h
    by_cases ha : a = u
    · subst ha
      have : L.filter (fun x => decide (x = a)) = [] := by
        rw [ih h.2, if_neg h.1]
      simp [this]
    · have ha' : ¬ u = a := fun h => ha h.symm
      simp [List.filter_cons, ha, ha', ih h.2]

theorem event_fields (s : Dispatcher.State) (room : String) (ev : Dispatcher.Event) (n : Int) :
    (Dispatcher.onNewEvent s room ev n).1.receivers = s.receivers ∧
    ∀ x ∈ (Dispatcher.onNewEvent s room ev n).2, x.room = room ∧ x.ev = ev ∧ x.nid = n := by
  have hn : ∀ (s' : Dispatcher.State) jc ic us t f, ∀ x ∈ Dispatcher.notifyListeners s' room ev n jc ic us t f, x.room = room ∧ x.ev = ev ∧ x.nid = n := by
    intro s' jc ic us t f x hx
    unfold Dispatcher.notifyListeners at hx
    rcases List.mem_append.1 hx with hx | hx
    · split at hx
      · simp only [List.mem_singleton] at hx; subst hx; exact ⟨rfl, rfl, rfl⟩
      · cases hx
    · obtain ⟨y, _, rfl⟩ := List.mem_map.1 hx
      exact ⟨rfl, rfl, rfl⟩
  unfold Dispatcher.onNewEvent
  split
  · exact ⟨rfl, hn _ _ _ _ _ _⟩
  · exact ⟨rfl, hn _ _ _ _ _ _⟩

theorem give_event {cfg : Cfg} (hu : cfg.user ≠ Dispatcher.allUsers) {s : Dispatcher.State} (hT : Tracker.Inv s.jrt) (room : String) (x : Row)
    (hx : 0 < x.nid) (c : Conn) :
    ∃ L, give cfg (Dispatcher.onNewEvent s room (toEvent cfg x) x.nid).2 c = { c with queue := c.queue ++ L } ∧
      (L = [] ∨ L = [⟨room, x.nid, x.nid⟩]) ∧ (cfg.user ∈ s.receivers → cfg.user ∈ s.jrt.joinedUsers room → L = [⟨room, x.nid, x.nid⟩]) := by
  refine ⟨_, rfl, ?_⟩
  obtain ⟨L, h1, h2, h3, _⟩ := Dispatcher.event_recipients hT room (toEvent cfg x) x.nid
  have hf := (event_fields s room (toEvent cfg x) x.nid).2
  generalize (Dispatcher.onNewEvent s room (toEvent cfg x) x.nid).2 = ds at *
  have hfl : (ds.filter fun d => decide (d.to = cfg.user) && decide (d.nid ≠ 0)) = ds.filter fun d => decide (d.to = cfg.user) := by
    apply List.filter_congr
    intro d hd
    rw [(hf d hd).2.2]
    simp; omega
  have hto : (ds.filter fun d => decide (d.to = cfg.user)).map (·.to) = if cfg.user ∈ L then [cfg.user] else [] := by
    rw [← filter_nodup h2]
    have e1 : (ds.filter fun d => decide (d.to = cfg.user)).map (·.to) = (ds.map (·.to)).filter (· = cfg.user) := by
      rw [List.filter_map]; rfl
    rw [e1, h1, List.filter_append]
    have : ((if Dispatcher.allUsers ∈ s.receivers then [Dispatcher.allUsers] else []).filter fun x => decide (x = cfg.user)) = [] := by
      rw [List.filter_eq_nil_iff]
      intro y hy
      split at hy
      · simp only [List.mem_singleton] at hy
        subst hy
        simpa using fun h => hu h.symm
      · cases hy
    rw [this, List.nil_append]
  have hin : ∀ d ∈ ds.filter (fun d => decide (d.to = cfg.user)), (⟨d.room, d.ev.id, d.nid.toNat⟩ : Upd) = ⟨room, x.nid, x.nid⟩ := by
    intro d hd
    obtain ⟨a, b, c⟩ := hf d (List.mem_filter.1 hd).1
    rw [a, b, c]
    simp [toEvent]
  rw [hfl]
  by_cases hL : cfg.user ∈ L
  · rw [if_pos hL] at hto
    have : (ds.filter fun d => decide (d.to = cfg.user)).map (fun d => (⟨d.room, d.ev.id, d.nid.toNat⟩ : Upd)) = [⟨room, x.nid, x.nid⟩] := by
      generalize ds.filter (fun d => decide (d.to = cfg.user)) = l at hto hin
      cases l with
      | nil => simp at hto
      | cons d l =>
        cases l with
        | nil => simp [hin d (by simp)]
        | cons e l => simp at hto
    rw [this]
    exact ⟨Or.inr rfl, fun _ _ => rfl⟩
  · rw [if_neg hL] at hto
    have := List.eq_nil_of_map_eq_nil hto
    rw [this]
    refine ⟨Or.inl rfl, fun hr hj => ?_⟩
    exfalso
    apply hL
    rw [h3 _ hu]
    refine ⟨hr, ?_⟩
    unfold Dispatcher.MaySee
    split
    · exact hj
    · repeat' split
      all_goals first | trivial | exact hj | exact Or.inl hj

theorem unregister_keeps (us : List String) (u : String) : ∀ (s : Dispatcher.State) (out : List String), u ∈ s.receivers →
    u ∉ (us.foldl (fun (p : Dispatcher.State × List String) u =>
      if u ∈ p.1.receivers then ({ p.1 with receivers := p.1.receivers.filter (· ≠ u) }, p.2 ++ [u]) else p) (s, out)).2 →
    u ∈ (us.foldl (fun (p : Dispatcher.State × List String) u =>
      if u ∈ p.1.receivers then ({ p.1 with receivers := p.1.receivers.filter (· ≠ u) }, p.2 ++ [u]) else p) (s, out)).1.receivers := by
  induction us using Util.snocRec with
  | nil => intro s out h _; exact h
  | append_singleton us v ih =>
    intro s out h hn
    rw [List.foldl_append, List.foldl_cons, List.foldl_nil] at hn ⊢
    generalize hp : us.foldl (fun (p : Dispatcher.State × List String) u =>
      if u ∈ p.1.receivers then ({ p.1 with receivers := p.1.receivers.filter (· ≠ u) }, p.2 ++ [u]) else p) (s, out) = p at hn ⊢
    have ih' := ih s out h
    rw [hp] at ih'
    split at hn
    · rename_i hv
      simp only [List.mem_append, List.mem_singleton, not_or] at hn
      rw [if_pos hv]
      simp only [List.mem_filter]
      exact ⟨ih' hn.1, by simpa using hn.2⟩
    · rename_i hv
      rw [if_neg hv]
      exact ih' hn

/-! ## The whole -/

structure Base (s : State) (p : List (String × Nat)) : Prop where
  ti : TI s.db
  bus : Bus s.db s.handed p
  jrt : Tracker.Inv s.disp.jrt

/-- Since the connection was made. -/
def After (cfg : Cfg) (r : String) (d : Nat) (s : State) : Prop :=
  d ≤ s.handed ∧ ∀ c, s.conn = some c → cfg.user ∈ s.disp.receivers ∧ cfg.user ∈ s.disp.jrt.joinedUsers r ∧ COk s.db r d s.handed c

theorem dispatch_base {cfg : Cfg} {s : State} {room : String} {x : Row} {p : List (String × Nat)} (hb : Base s ((room, x.nid) :: p)) :
    Base (dispatch cfg room s (x, x.nid)) p ∧ (dispatch cfg room s (x, x.nid)).db = s.db ∧ (dispatch cfg room s (x, x.nid)).bus = s.bus :=
  ⟨⟨hb.ti, bus_next hb.bus, Dispatcher.inv_event hb.jrt room _ _⟩, rfl, rfl⟩

theorem queue_next {db : DB} {r room : String} {q h n : Nat} {p : List (String × Nat)} {queue L : List Upd} (hb : Bus db h ((room, n) :: p))
    (hqh : q ≤ h) (hq : QI (posOf db r) r q h queue) (hL : L = [] ∨ L = [⟨room, n, n⟩]) (hr : room = r → L = [⟨room, n, n⟩]) :
    QI (posOf db r) r q n (queue ++ L) := by
  have hn := hb.gt _ (List.mem_cons_self)
  simp only at hn
  have hLm : ∀ x ∈ L, x = ⟨room, n, n⟩ := fun x hx => by
    rcases hL with h | h <;> rw [h] at hx
    · cases hx
    · simpa using hx
  refine ⟨?_, ?_, fun e => ⟨?_, ?_⟩⟩
  · rw [List.map_append, List.pairwise_append]
    refine ⟨hq.asc, by rcases hL with h | h <;> rw [h] <;> simp, fun a ha b hb' => ?_⟩
    obtain ⟨x, hx, rfl⟩ := List.mem_map.1 ha
    obtain ⟨y, hy, rfl⟩ := List.mem_map.1 hb'
    rw [hLm y hy]
    have := (hq.range x hx).2.1
    simp only; omega
  · intro x hx
    rcases List.mem_append.1 hx with hx | hx
    · have := hq.range x hx; exact ⟨this.1, by omega, this.2.2⟩
    · rw [hLm x hx]; exact ⟨by simp only; omega, Nat.le_refl _, rfl⟩
  · rintro ⟨x, hx, hxr, rfl⟩
    rcases List.mem_append.1 hx with hx | hx
    · have := (hq.room x.nid).1 ⟨x, hx, hxr, rfl⟩
      exact ⟨this.1, this.2.1, by omega⟩
    · rw [hLm x hx] at hxr ⊢
      simp only at hxr
      refine ⟨?_, by simp only; omega, Nat.le_refl _⟩
      exact hb.mem (by rw [← hxr]; exact List.mem_cons_self)
  · rintro ⟨he, h1, h2⟩
    rcases Nat.lt_or_ge h e with hlt | hge
    · have : e ∈ inRoom r ((room, n) :: p) := by rw [hb.room]; exact List.mem_filter.2 ⟨he, by simpa using hlt⟩
      rcases List.mem_cons.1 (mem_inRoom.1 this) with h3 | h3
      · simp only [Prod.mk.injEq] at h3
        have := hr h3.1.symm
        rw [this]
        exact ⟨⟨room, n, n⟩, by simp, h3.1.symm, h3.2.symm⟩
      · have hasc := hb.asc
        rw [List.map_cons, List.pairwise_cons] at hasc
        have := hasc.1 e (List.mem_map.2 ⟨_, h3, rfl⟩)
        simp only at this
        omega
    · obtain ⟨x, hx, h3⟩ := (hq.room e).2 ⟨he, h1, hge⟩
      exact ⟨x, List.mem_append_left _ hx, h3⟩

theorem dispatch_after {cfg : Cfg} (hu : cfg.user ≠ Dispatcher.allUsers) {s : State} {room r : String} {d : Nat} {x : Row} {p : List (String × Nat)}
    (hb : Base s ((room, x.nid) :: p)) (hx : x ∈ s.db.rows) (hxr : x.room = room) (hin : In cfg s.db r d) (ha : After cfg r d s) :
    After cfg r d (dispatch cfg room s (x, x.nid)) := by
  have hn := hb.bus.gt _ (List.mem_cons_self)
  simp only at hn
  refine ⟨by simp only [dispatch]; have := ha.1; omega, fun c' hc' => ?_⟩
  simp only [dispatch, Option.map_eq_some_iff] at hc'
  obtain ⟨c, hc, rfl⟩ := hc'
  obtain ⟨h1, h2, h3⟩ := ha.2 c hc
  obtain ⟨L, e1, e2, e3⟩ := give_event hu hb.jrt room x (by omega) c
  rw [e1]
  refine ⟨?_, ?_, ?_⟩
  · simp only [dispatch]; rw [(event_fields _ _ _ _).1]; exact h1
  · simp only [dispatch]
    rw [Dispatcher.mem_joined_iff, Dispatcher.says_event]
    rw [Dispatcher.mem_joined_iff] at h2
    by_cases hr : room = r
    · rw [if_pos hr]
      cases hs : Dispatcher.saysEvent cfg.user (toEvent cfg x) with
      | none => exact h2
      | some b =>
        cases b with
        | true => rfl
        | false =>
          exfalso
          unfold Dispatcher.saysEvent Dispatcher.about toEvent at hs
          simp only at hs
          by_cases ht : x.ev.type = "m.room.member"
          · rw [if_pos ht] at hs
            cases hk : x.ev.hasKey with
            | false => simp [hk] at hs
            | true =>
              simp only [hk, if_true, Option.map_some] at hs
              by_cases hku : x.ev.stateKey = cfg.user
              · have hst := hin.stays x hx (by rw [hxr]; exact hr) ht hku (by have := ha.1; omega)
                rw [if_pos hku] at hs
                split at hs
                · cases hs
                · split at hs
                  · rename_i h; exact h.elim hst.1 hst.2
                  · cases hs
              · rw [if_neg hku] at hs; cases hs
          · rw [if_neg ht] at hs; cases hs
    · rw [if_neg hr]; exact h2
  · have hL : room = r → L = [⟨room, x.nid, x.nid⟩] := fun hr => e3 h1 (by rw [hr]; exact h2)
    rcases h3 with hf | ⟨q, A, hc⟩
    · exact Or.inl ⟨hf.anchor, hf.lp, hf.view, queue_next hb.bus ha.1 hf.queue e2 hL⟩
    · obtain ⟨k1, k3, k4, k5, k6⟩ := hc
      exact Or.inr ⟨q, A, ⟨k1.1, by simp only [dispatch]; omega⟩, queue_next hb.bus k1.2 k3 e2 hL, k4, k5, k6⟩

theorem fold_base {cfg : Cfg} {room : String} {p : List (String × Nat)} (rows : List Row) : ∀ {s : State},
    Base s ((rows.map (·.nid)).map (room, ·) ++ p) →
    Base ((rows.map fun x => (x, x.nid)).foldl (dispatch cfg room) s) p ∧
    ((rows.map fun x => (x, x.nid)).foldl (dispatch cfg room) s).db = s.db ∧ ((rows.map fun x => (x, x.nid)).foldl (dispatch cfg room) s).bus = s.bus := by
  induction rows with
  | nil => intro s hb; exact ⟨hb, rfl, rfl⟩
  | cons x rows ih =>
    intro s hb
    obtain ⟨h1, h2, h3⟩ := dispatch_base (cfg := cfg) hb
    obtain ⟨k1, k2, k3⟩ := ih h1
    exact ⟨k1, k2.trans h2, k3.trans h3⟩

theorem fold_after {cfg : Cfg} (hu : cfg.user ≠ Dispatcher.allUsers) {room r : String} {d : Nat} {p : List (String × Nat)} (rows : List Row) : ∀ {s : State},
    Base s ((rows.map (·.nid)).map (room, ·) ++ p) → (∀ x ∈ rows, x ∈ s.db.rows ∧ x.room = room) → In cfg s.db r d → After cfg r d s →
    After cfg r d ((rows.map fun x => (x, x.nid)).foldl (dispatch cfg room) s) := by
  induction rows with
  | nil => intro s _ _ _ ha; exact ha
  | cons x rows ih =>
    intro s hb hr hin ha
    have h1 := dispatch_base (cfg := cfg) hb
    refine ih h1.1 (fun y hy => ?_) ?_ (dispatch_after hu hb (hr x (by simp)).1 (hr x (by simp)).2 hin ha)
    · rw [h1.2.1]; exact hr y (by simp [hy])
    · rw [h1.2.1]; exact hin

theorem zip_self (rows : List Row) : rows.zip (rows.map (·.nid)) = rows.map fun x => (x, x.nid) := by
  induction rows with
  | nil => rfl
  | cons x rows ih => simp [ih]

theorem events_zero (s : Dispatcher.State) (room : String) (evs : List Dispatcher.Event) :
    (Dispatcher.onNewEvents s room evs).1.receivers = s.receivers ∧ ∀ x ∈ (Dispatcher.onNewEvents s room evs).2, x.nid = 0 := by
  induction evs using Util.snocRec with
  | nil => exact ⟨rfl, by simp [Dispatcher.onNewEvents]⟩
  | append_singleton evs e ih =>
    unfold Dispatcher.onNewEvents at ih ⊢
    rw [List.foldl_append, List.foldl_cons, List.foldl_nil]
    refine ⟨(event_fields _ _ _ _).1.trans ih.1, fun x hx => ?_⟩
    rcases List.mem_append.1 hx with hx | hx
    · exact ih.2 x hx
    · exact ((event_fields _ _ _ _).2 x hx).2.2

theorem initial_spec (s : Dispatcher.State) (room : String) (evs : List Dispatcher.Event) :
    (Dispatcher.onNewInitialRoomState s room evs).1.receivers = s.receivers ∧
    (∀ x ∈ (Dispatcher.onNewInitialRoomState s room evs).2, x.nid = 0) ∧
    ∀ u r, r ≠ room → u ∈ s.jrt.joinedUsers r → u ∈ (Dispatcher.onNewInitialRoomState s room evs).1.jrt.joinedUsers r := by
  unfold Dispatcher.onNewInitialRoomState
  split
  · refine ⟨(events_zero s room evs).1, (events_zero s room evs).2, fun u r hr hm => ?_⟩
    rw [Dispatcher.mem_joined_iff, Dispatcher.says_events, if_neg (fun h => hr h.symm)]
    exact (Dispatcher.mem_joined_iff _ _ _).1 hm
  · refine ⟨rfl, fun x hx => ?_, fun u r _ hm => ?_⟩
    · obtain ⟨e, _, hx⟩ := List.mem_flatMap.1 hx
      simp only [Dispatcher.notifyListeners] at hx
      rcases List.mem_append.1 hx with hx | hx
      · split at hx
        · simp only [List.mem_singleton] at hx; subst hx; rfl
        · cases hx
      · obtain ⟨y, _, rfl⟩ := List.mem_map.1 hx
        rfl
    · exact ((Tracker.join_fields (Dispatcher.members evs "join") room s.jrt).1 u r).2 (Or.inl hm)

theorem give_zero {cfg : Cfg} {ds : List Dispatcher.Delivery} (h : ∀ x ∈ ds, x.nid = 0) (c : Conn) : give cfg ds c = c := by
  have : (ds.filter fun d => decide (d.to = cfg.user) && decide (d.nid ≠ 0)) = [] := by
    rw [List.filter_eq_nil_iff]
    intro x hx
    simp [h x hx]
  unfold give
  rw [this]
  simp

theorem unregister_eq (s : Dispatcher.State) (us : List String) : Dispatcher.unregister s us = us.foldl (fun (p : Dispatcher.State × List String) u =>
    if u ∈ p.1.receivers then ({ p.1 with receivers := p.1.receivers.filter (· ≠ u) }, p.2 ++ [u]) else p) (s, []) := rfl

theorem handle_base {cfg : Cfg} {s : State} {m : Msg} {bus : List Msg} (hb : Base s (pend (m :: bus))) :
    Base (handle cfg s m) (pend bus) ∧ (handle cfg s m).db = s.db ∧ (handle cfg s m).bus = s.bus := by
  cases m with
  | acc room nids =>
    obtain ⟨rows, h1, h2, _⟩ := select_acc hb.ti hb.bus
    simp only [handle, h1]
    rw [← h2, zip_self]
    have hb' : Base s ((rows.map (·.nid)).map (room, ·) ++ pend bus) := by rw [h2]; exact hb
    exact fold_base rows hb'
  | init room snap =>
    simp only [handle]
    split
    · exact ⟨hb, rfl, rfl⟩
    · exact ⟨⟨hb.ti, hb.bus, Dispatcher.inv_step hb.jrt (.initial room _)⟩, rfl, rfl⟩
  | inval room =>
    refine ⟨⟨hb.ti, hb.bus, ?_⟩, rfl, rfl⟩
    simp only [handle, Dispatcher.unregister_jrt]
    exact Dispatcher.inv_step hb.jrt (.invalidate room _ _)

theorem handle_after {cfg : Cfg} (hu : cfg.user ≠ Dispatcher.allUsers) {s : State} {r : String} {d : Nat} {m : Msg} {bus : List Msg}
    (hb : Base s (pend (m :: bus))) (hm : ¬ resets r m) (hin : In cfg s.db r d) (ha : After cfg r d s) : After cfg r d (handle cfg s m) := by
  cases m with
  | acc room nids =>
    obtain ⟨rows, h1, h2, h3⟩ := select_acc hb.ti hb.bus
    simp only [handle, h1]
    rw [← h2, zip_self]
    have hb' : Base s ((rows.map (·.nid)).map (room, ·) ++ pend bus) := by rw [h2]; exact hb
    exact fold_after hu rows hb' (fun x hx => ⟨(h3 x hx).1, (h3 x hx).2.1⟩) hin ha
  | init room snap =>
    simp only [handle]
    split
    · exact ha
    · rename_i rows _
      obtain ⟨k1, k2, k3⟩ := initial_spec s.disp room (rows.map (toEvent cfg))
      refine ⟨ha.1, fun c' hc' => ?_⟩
      simp only [Option.map_eq_some_iff] at hc'
      obtain ⟨c, hc, rfl⟩ := hc'
      obtain ⟨h1, h2, h3⟩ := ha.2 c hc
      rw [give_zero k2]
      exact ⟨by rw [k1]; exact h1, k3 _ _ (fun h => hm h.symm) h2, h3⟩
  | inval room =>
    refine ⟨ha.1, fun c hc => ?_⟩
    simp only [handle] at hc
    split at hc
    · cases hc
    · rename_i hout
      obtain ⟨h1, h2, h3⟩ := ha.2 c hc
      refine ⟨?_, ?_, h3⟩
      · simp only [handle]
        rw [unregister_eq] at hout ⊢
        exact unregister_keeps _ _ _ _ h1 hout
      · simp only [handle, Dispatcher.unregister_jrt]
        exact (Tracker.says_step s.disp.jrt (.reload room _ _) cfg.user r).1.2 (by
          simp only [Tracker.saysJoined]
          rw [if_neg (show ¬ room = r from hm)]
          simpa using h2)

/-- What holds in every reachable state. -/
structure Reach (s : State) (ops : List Op) : Prop where
  base : Base s (pend s.bus)
  db : s.db = Store.run (polls ops)

theorem polls_append (a b : List Op) : polls (a ++ b) = polls a ++ polls b := List.filterMap_append

theorem eraseDups_nodup : ∀ (n : Nat) (l : List String), l.length ≤ n → l.eraseDups.Nodup
  | _, [], _ => by simp
  | n + 1, a :: l, h => by
    rw [List.eraseDups_cons, List.nodup_cons]
    refine ⟨by simp [List.mem_eraseDups], eraseDups_nodup n _ ?_⟩
    have := List.length_filter_le (fun b => !b == a) l
    simp only [List.length_cons] at h
    omega

theorem bus_restart {db : DB} (hI : TI db) : Bus db ((db.rows.getLast?.map (·.nid)).getD 0) [] := by
  refine ⟨List.Pairwise.nil, nofun, fun r => ?_, ?_⟩
  · symm
    show _ = []
    rw [List.filter_eq_nil_iff]
    intro e he
    obtain ⟨x, hx, _, _, rfl⟩ := mem_posOf.1 he
    have hasc : (db.rows.map (·.nid)).Pairwise (· < ·) := by rw [List.pairwise_map]; exact hI.asc
    have := (ConnLoad.getLast_max _ hasc).1 x.nid (List.mem_map_of_mem hx)
    rw [List.getLast?_map] at this
    simpa using this
  · cases h : db.rows.getLast? with
    | none => exact Or.inl rfl
    | some x => exact Or.inr ⟨x, List.mem_of_getLast? h, rfl⟩

theorem reach (cfg : Cfg) (ops : List Op) : Reach (run cfg {} ops) ops := by
  induction ops using Util.snocRec with
  | nil =>
    refine ⟨⟨?_, ⟨by simp [run, pend], by simp [run, pend], fun r => by simp [run, pend, inRoom, posOf], Or.inl rfl⟩, Tracker.inv_startup [] (by simp)⟩, rfl⟩
    exact Store.run_table []
  | append_singleton ops o ih =>
    unfold run at ih ⊢
    rw [List.foldl_append, List.foldl_cons, List.foldl_nil]
    generalize List.foldl (step cfg) {} ops = s at ih
    cases o with
    | poll o =>
      refine ⟨⟨(Store.step_table ih.base.ti o).1, bus_poll ih.base.ti ih.base.bus o, ih.base.jrt⟩, ?_⟩
      simp only [step, polls_append, Store.run, List.foldl_append]
      rw [ih.db]
      rfl
    | recv =>
      have hp : polls (ops ++ [Op.recv]) = polls ops := by simp [polls]
      simp only [step]
      split
      · exact ⟨ih.base, by rw [hp]; exact ih.db⟩
      · rename_i m rest hb
        have hB : Base { s with bus := rest } (pend (m :: rest)) := by rw [← hb]; exact ⟨ih.base.ti, ih.base.bus, ih.base.jrt⟩
        obtain ⟨h1, h2, h3⟩ := handle_base (cfg := cfg) hB
        exact ⟨by rw [h3]; exact h1, by rw [h2, hp]; exact ih.db⟩
    | «open» =>
      have hp : polls (ops ++ [Op.open]) = polls ops := by simp [polls]
      exact ⟨⟨ih.base.ti, ih.base.bus, ih.base.jrt⟩, by rw [hp]; exact ih.db⟩
    | request xs =>
      have hp : polls (ops ++ [Op.request xs]) = polls ops := by simp [polls]
      exact ⟨⟨ih.base.ti, ih.base.bus, ih.base.jrt⟩, by rw [hp]; exact ih.db⟩
    | take vis xs =>
      have hp : polls (ops ++ [Op.take vis xs]) = polls ops := by simp [polls]
      exact ⟨⟨ih.base.ti, ih.base.bus, ih.base.jrt⟩, by rw [hp]; exact ih.db⟩
    | restart =>
      have hp : polls (ops ++ [Op.restart]) = polls ops := by simp [polls]
      refine ⟨⟨ih.base.ti, bus_restart ih.base.ti, ?_⟩, by rw [hp]; exact ih.db⟩
      refine Tracker.inv_startup _ ?_
      rw [List.map_map, show ((fun x : String × List String => x.1) ∘ fun room => (room, membersWith cfg s.db room (· == "join"))) = id from rfl,
        List.map_id]
      exact eraseDups_nodup _ _ (Nat.le_refl _)

theorem seq_mono (cfg : Cfg) (a b : List Op) : (run cfg {} a).db.seq ≤ (run cfg {} (a ++ b)).db.seq := by
  induction b using Util.snocRec with
  | nil => rw [List.append_nil]; exact Nat.le_refl _
  | append_singleton b o ih =>
    have hR := reach cfg (a ++ b)
    have hR' := reach cfg (a ++ (b ++ [o]))
    refine Nat.le_trans ih ?_
    rw [hR'.db, ← List.append_assoc, polls_append, hR.db]
    cases o with
    | poll o =>
      have := (poll_new (Store.run_table (polls (a ++ b))) o).2.1
      rw [show Store.run (polls (a ++ b) ++ polls [Op.poll o]) = Store.step (Store.run (polls (a ++ b))) o by simp [Store.run, polls]]
      exact this
    | _ => simp [polls]

/-- A poller that is not given a state block of the room does not reset it. -/
theorem publish_resets {db : DB} {r : String} {o : Store.Op} (ho : OkOp r (.poll o)) : ∀ m ∈ publish db o, ¬ resets r m := by
  intro m hm
  cases o with
  | acc room skip limited timeline =>
    simp only [publish] at hm
    split at hm
    · cases hm
    · split at hm
      · simp only [List.mem_singleton] at hm; subst hm; exact fun h => h
      · cases hm
  | init room skip block =>
    have ho : room ≠ r := ho
    simp only [publish] at hm
    split at hm
    · cases hm
    · split at hm
      · cases hm
      · split at hm <;> (simp only [List.mem_singleton] at hm; subst hm; exact ho)

theorem after_open {cfg : Cfg} {s : State} {r : String} (hj : cfg.user ∈ s.disp.jrt.joinedUsers r) :
    After cfg r s.handed (step cfg s .open) := by
  refine ⟨Nat.le_refl _, fun c hc => ?_⟩
  simp only [step, Option.some.injEq] at hc
  subst hc
  refine ⟨?_, hj, Or.inl ⟨rfl, fun _ => rfl, rfl, ⟨List.Pairwise.nil, nofun, fun e => ⟨?_, ?_⟩⟩⟩⟩
  · simp only [step, Dispatcher.register]
    split
    · rename_i h; exact h
    · simp
  · rintro ⟨x, hx, _⟩; cases hx
  · rintro ⟨_, h1, h2⟩; simp only [step] at h1 h2; omega

theorem main {cfg : Cfg} (hu : cfg.user ≠ Dispatcher.allUsers) {pre : List Op} {r : String}
    (hbus : ∀ m ∈ (run cfg {} pre).bus, ¬ resets r m) (hj : cfg.user ∈ (run cfg {} pre).disp.jrt.joinedUsers r) (post : List Op) :
    (∀ o ∈ polls (pre ++ .open :: post), Store.OkOp o) → (∀ o ∈ post, OkOp r o) →
    In cfg (run cfg {} (pre ++ .open :: post)).db r (run cfg {} pre).handed →
    After cfg r (run cfg {} pre).handed (run cfg {} (pre ++ .open :: post)) ∧ ∀ m ∈ (run cfg {} (pre ++ .open :: post)).bus, ¬ resets r m := by
  induction post using Util.snocRec with
  | nil =>
    intro _ _ _
    rw [show run cfg {} (pre ++ [Op.open]) = step cfg (run cfg {} pre) .open by simp [run]]
    exact ⟨after_open hj, hbus⟩
  | append_singleton post o ih =>
    intro hok hpost hin
    have hR := reach cfg (pre ++ .open :: post)
    have he : pre ++ .open :: (post ++ [o]) = (pre ++ .open :: post) ++ [o] := by simp
    rw [he] at hok hin ⊢
    have hrun : run cfg {} ((pre ++ .open :: post) ++ [o]) = step cfg (run cfg {} (pre ++ .open :: post)) o := by simp [run]
    rw [hrun] at hin ⊢
    have hok' : ∀ o ∈ polls (pre ++ .open :: post), Store.OkOp o := fun x hx => hok x (by rw [polls_append]; exact List.mem_append_left _ hx)
    have ih := ih hok' fun x hx => hpost x (List.mem_append_left _ hx)
    have ho := hpost o (by simp)
    have hds : (run cfg {} pre).handed ≤ (run cfg {} (pre ++ .open :: post)).db.seq :=
      Nat.le_trans ((reach cfg pre).base.bus.le_seq (reach cfg pre).base.ti) (seq_mono cfg pre _)
    generalize run cfg {} (pre ++ .open :: post) = s at ih hR hin hds
    generalize (run cfg {} pre).handed = d at ih hin hds
    have hhs := hR.base.bus.le_seq hR.base.ti
    cases o with
    | poll o =>
      obtain ⟨_, _, new, k1, k2, _⟩ := poll_new hR.base.ti o
      have hin' : d ≤ s.db.seq → In cfg s.db r d := fun h => In.back k1 k2 h hin
      obtain ⟨h1, h2⟩ := ih (hin' hds)
      refine ⟨⟨h1.1, fun c hc => ?_⟩, fun m hm => ?_⟩
      · obtain ⟨e1, e2, e3⟩ := h1.2 c hc
        exact ⟨e1, e2, poll_ok hR.base.ti hhs e3 o⟩
      · rcases List.mem_append.1 hm with hm | hm
        · exact h2 m hm
        · exact publish_resets ho m hm
    | recv =>
      cases hb : s.bus with
      | nil =>
        have hstep : step cfg s .recv = s := by simp only [step, hb]
        rw [hstep] at hin ⊢
        exact ih hin
      | cons m rest =>
        have hstep : step cfg s .recv = handle cfg { s with bus := rest } m := by simp only [step, hb]
        rw [hstep] at hin ⊢
        have hB : Base { s with bus := rest } (pend (m :: rest)) := by rw [← hb]; exact ⟨hR.base.ti, hR.base.bus, hR.base.jrt⟩
        obtain ⟨h1, h2, h3⟩ := handle_base (cfg := cfg) hB
        rw [h2] at hin
        obtain ⟨k1, k2⟩ := ih hin
        rw [hb] at k2
        refine ⟨handle_after hu hB (k2 m (by simp)) hin ⟨k1.1, k1.2⟩, ?_⟩
        rw [h3]
        exact fun x hx => k2 x (by simp [hx])
    | «open» => exact ho.elim
    | restart => exact ho.elim
    | request xs =>
      obtain ⟨h1, h2⟩ := ih hin
      refine ⟨⟨h1.1, fun c' hc' => ?_⟩, h2⟩
      simp only [step, Option.map_eq_some_iff] at hc'
      obtain ⟨c, hc, rfl⟩ := hc'
      obtain ⟨e1, e2, e3⟩ := h1.2 c hc
      refine ⟨e1, e2, ?_⟩
      have hin : In cfg s.db r d := hin
      have hh := hR.base.bus.handed
      simp only [step]
      rw [hR.db] at hin e3 hh ⊢
      exact request_ok hok' hin h1.1 hh e3 xs ho
    | take vis xs =>
      obtain ⟨h1, h2⟩ := ih hin
      refine ⟨⟨h1.1, fun c' hc' => ?_⟩, h2⟩
      simp only [step, Option.map_eq_some_iff] at hc'
      obtain ⟨c, hc, rfl⟩ := hc'
      obtain ⟨e1, e2, e3⟩ := h1.2 c hc
      exact ⟨e1, e2, take_ok hR.base.ti hin hhs e3 vis xs ho⟩

theorem split_suffix {P l : List Nat} (hP : P.Pairwise (· < ·)) {k : Nat} (h : l <:+ P.filter (· ≤ k)) :
    ∃ before after, P = before ++ l ++ after ∧ ∀ e ∈ after, k < e := by
  obtain ⟨b, hb⟩ := h
  refine ⟨b, P.filter (k < ·), ?_, fun e he => by simpa using (List.mem_filter.1 he).2⟩
  rw [hb]
  clear hb
  induction P with
  | nil => rfl
  | cons a P ih =>
    rw [List.pairwise_cons] at hP
    by_cases ha : a ≤ k
    · rw [List.filter_cons_of_pos (by simpa using ha), List.filter_cons_of_neg (by simpa using ha), List.cons_append, ← ih hP.2]
    · have h1 : (a :: P).filter (· ≤ k) = [] := by
        rw [List.filter_eq_nil_iff]
        intro e he
        rcases List.mem_cons.1 he with rfl | he
        · simpa using ha
        · have := hP.1 e he; simp; omega
      have h2 : (a :: P).filter (k < ·) = a :: P := by
        rw [List.filter_eq_self]
        intro e he
        rcases List.mem_cons.1 he with rfl | he
        · simpa using ha
        · have := hP.1 e he; simp; omega
      rw [h1, h2, List.nil_append]

theorem mem_pend {r : String} {e : Nat} {bus : List Msg} (h : (r, e) ∈ pend bus) : ∃ nids, Msg.acc r nids ∈ bus ∧ e ∈ nids := by
  induction bus with
  | nil => cases h
  | cons m bus ih =>
    cases m with
    | acc room nids =>
      rcases List.mem_append.1 h with h | h
      · obtain ⟨n, hn, he⟩ := List.mem_map.1 h
        simp only [Prod.mk.injEq] at he
        obtain ⟨rfl, rfl⟩ := he
        exact ⟨nids, List.mem_cons_self, hn⟩
      · obtain ⟨n, h1, h2⟩ := ih h; exact ⟨n, List.mem_cons_of_mem _ h1, h2⟩
    | init _ _ => obtain ⟨n, h1, h2⟩ := ih h; exact ⟨n, List.mem_cons_of_mem _ h1, h2⟩
    | inval _ => obtain ⟨n, h1, h2⟩ := ih h; exact ⟨n, List.mem_cons_of_mem _ h1, h2⟩

theorem after_stretch {cfg : Cfg} {r : String} {d : Nat} {s : State} {ops : List Op} (hR : Reach s ops) (h1 : After cfg r d s)
    {c : Conn} (hc : s.conn = some c) {l : List Nat} (hv : c.view r = some l) :
    ∃ before after, posOf s.db r = before ++ l ++ after ∧ (∀ e ∈ after, (l = [] → d < e) → Pending s c r e) ∧ (l = [] → before = []) := by
  obtain ⟨_, _, h3⟩ := h1.2 c hc
  rcases h3 with hf | ⟨q, A, hC⟩
  · rw [hf.view] at hv; cases hv
  · have hpend : ∀ e ∈ posOf s.db r, q < e → Pending s c r e := by
      intro e he hq
      rcases Nat.lt_or_ge s.handed e with hlt | hge
      · have : e ∈ inRoom r (pend s.bus) := by rw [hR.base.bus.room]; exact List.mem_filter.2 ⟨he, by simpa using hlt⟩
        exact Or.inr (mem_pend (mem_inRoom.1 this))
      · obtain ⟨x, hx, h4, h5⟩ := (hC.queue.room e).2 ⟨he, hq, hge⟩
        exact Or.inl ⟨x, hx, h4, by rw [(hC.queue.range x hx).2.2]; exact h5⟩
    cases l with
    | nil =>
      exact ⟨[], posOf s.db r, rfl, fun e he hd => hpend e he ((hC.ri.empty hv).2 e he (hd rfl)), fun _ => rfl⟩
    | cons a l =>
      obtain ⟨b, t, h4, h5⟩ := split_suffix (posOf_asc hR.base.ti r) (hC.ri.suffix _ hv)
      refine ⟨b, t, h4, fun e he _ => ?_, nofun⟩
      have he' : e ∈ posOf s.db r := by rw [h4]; exact List.mem_append_right _ he
      apply hpend e he'
      apply Classical.byContradiction
      intro hn
      have := hC.ri.full _ hv (by simp) e he' (by omega)
      have := h5 e he
      omega

/-- **C114.** From the poller to the client: whatever the pollers store (`pre`, `post`), in whatever order messages are taken, connections
made, requests handled and updates taken, the timeline a client has of a room it is in, is a stretch of the room's stored timeline with
nothing left out, and every event behind it is either in a message not yet taken or in the connection's queue. If the client has an empty
timeline for the room, the same holds of all events since the connection was made.

Partial: the user must have been in the room, as the store and the dispatcher see it, when the connection was made (C42, C40), must not leave
it since, there must be no restart since, and no state block may come for the room meanwhile (then connections of the members are closed, or the room is new). Rooms must be
loaded with a timeline of at least one event; without, the connection forgets the position of the room. Which events are of interest is not said here (C81). -/
theorem C114_end_to_end_partial (cfg : Cfg) (hu : cfg.user ≠ Dispatcher.allUsers) (pre post : List Op)
    (hok : ∀ o ∈ polls (pre ++ .open :: post), Store.OkOp o) (r : String) (hpost : ∀ o ∈ post, OkOp r o)
    (hbus : ∀ m ∈ (run cfg {} pre).bus, ¬ resets r m) (hj : cfg.user ∈ (run cfg {} pre).disp.jrt.joinedUsers r)
    (hin : In cfg (run cfg {} (pre ++ .open :: post)).db r (run cfg {} pre).handed)
    (c : Conn) (hc : (run cfg {} (pre ++ .open :: post)).conn = some c) (l : List Nat) (hv : c.view r = some l) :
    ∃ before after, posOf (run cfg {} (pre ++ .open :: post)).db r = before ++ l ++ after ∧
      (∀ e ∈ after, (l = [] → (run cfg {} pre).handed < e) → Pending (run cfg {} (pre ++ .open :: post)) c r e) ∧
      (l = [] → before = []) := by
  exact after_stretch (reach cfg (pre ++ .open :: post)) (main hu hbus hj post hok hpost hin).1 hc hv

/-- When all messages and updates are taken, the client has the end of the timeline. -/
theorem C114_up_to_date (cfg : Cfg) (hu : cfg.user ≠ Dispatcher.allUsers) (pre post : List Op)
    (hok : ∀ o ∈ polls (pre ++ .open :: post), Store.OkOp o) (r : String) (hpost : ∀ o ∈ post, OkOp r o)
    (hbus : ∀ m ∈ (run cfg {} pre).bus, ¬ resets r m) (hj : cfg.user ∈ (run cfg {} pre).disp.jrt.joinedUsers r)
    (hin : In cfg (run cfg {} (pre ++ .open :: post)).db r (run cfg {} pre).handed)
    (c : Conn) (hc : (run cfg {} (pre ++ .open :: post)).conn = some c) (l : List Nat) (hv : c.view r = some l) (hl : l ≠ [])
    (hb : (run cfg {} (pre ++ .open :: post)).bus = []) (hq : c.queue = []) :
    l <:+ posOf (run cfg {} (pre ++ .open :: post)).db r := by
  obtain ⟨b, t, h1, h2, _⟩ := C114_end_to_end_partial cfg hu pre post hok r hpost hbus hj hin c hc l hv
  have : t = [] := by
    cases t with
    | nil => rfl
    | cons e t =>
      rcases h2 e (by simp) (fun h => absurd h hl) with ⟨x, hx, _⟩ | ⟨n, hn, _⟩
      · rw [hq] at hx; cases hx
      · rw [hb] at hn; cases hn
  rw [h1, this, List.append_nil]
  exact ⟨b, rfl⟩

end Verif.EndToEnd
