import Verif.StoreState
/-!
# Removing snapshots (`state/storage.go:766-807`) and C43
-/
namespace Verif.Store

/-- `ROW_NUMBER() OVER (PARTITION BY room_id ORDER BY snapshot_id DESC)`, `storage.go:789`: one more than the number
of newer snapshots of the room. -/
def rowNum (snaps : List Snap) (s : Snap) : Nat :=
  (snaps.filter fun t => t.room = s.room && decide (s.id < t.id)).length + 1

/-- `RemoveInaccessibleStateSnapshots`, `storage.go:770-807`; `limit` is `MaxTimelineLimit`. -/
def cleanup (limit : Nat) (db : DB) : DB :=
  { db with snaps := db.snaps.filter fun s => decide (rowNum db.snaps s ≤ limit + 1) }

/-- Upstream sections with clean-ups in between. -/
inductive COp
  | op (o : Op)
  | clean

def cstep (limit : Nat) (db : DB) : COp → DB
  | .op o => step db o
  | .clean => cleanup limit db

def crun (limit : Nat) (ops : List COp) : DB := ops.foldl (cstep limit) {}

/-! ## Counting -/

/-- Snapshots of a room after `b`. -/
def nsn (snaps : List Snap) (room : String) (b : Nat) : Nat :=
  (snaps.filter fun t => t.room = room && decide (b < t.id)).length

/-- Rows of a room from `n` up to before `b`. -/
def nrw (cs : List (Nat × String × Ev × Bool)) (room : String) (n b : Nat) : Nat :=
  (cs.filter fun c => c.2.1 = room && (decide (n ≤ c.1) && decide (c.1 < b))).length

theorem nsn_append (a b : List Snap) (room : String) (n : Nat) : nsn (a ++ b) room n = nsn a room n + nsn b room n := by
  simp [nsn, List.filter_append]

theorem nrw_append (a b : List (Nat × String × Ev × Bool)) (room : String) (n m : Nat) :
    nrw (a ++ b) room n m = nrw a room n m + nrw b room n m := by
  simp [nrw, List.filter_append]

theorem filter_len_mono {α : Type} {p q : α → Bool} (l : List α) (h : ∀ x ∈ l, p x = true → q x = true) :
    (l.filter p).length ≤ (l.filter q).length := by
  rw [← List.countP_eq_length_filter, ← List.countP_eq_length_filter]
  exact List.countP_mono_left h

theorem nrw_mono (cs : List (Nat × String × Ev × Bool)) (room : String) (n : Nat) {b b' : Nat} (h : b ≤ b') :
    nrw cs room n b ≤ nrw cs room n b' := by
  apply filter_len_mono
  intro c _ hc
  simp only [Bool.and_eq_true, decide_eq_true_eq] at hc ⊢
  exact ⟨hc.1, hc.2.1, by omega⟩

/-- A row counts for one. -/
theorem nrw_add (cs : List (Nat × String × Ev × Bool)) (room : String) {n b : Nat} {e : Nat × String × Ev × Bool}
    (he : e ∈ cs) (hr : e.2.1 = room) (hn : n ≤ e.1) (hb : b ≤ e.1) : nrw cs room n b + 1 ≤ nrw cs room n (e.1 + 1) := by
  obtain ⟨a, c, rfl⟩ := List.append_of_mem he
  rw [show a ++ e :: c = a ++ ([e] ++ c) by simp, nrw_append, nrw_append, nrw_append, nrw_append]
  have h1 := nrw_mono a room n (show b ≤ e.1 + 1 by omega)
  have h2 := nrw_mono c room n (show b ≤ e.1 + 1 by omega)
  have h3 : nrw [e] room n b = 0 := by
    have : ¬ e.1 < b := by omega
    simp [nrw, this]
  have h4 : nrw [e] room n (e.1 + 1) = 1 := by simp [nrw, hr, hn]
  omega

theorem nsn_zero {snaps : List Snap} {room : String} {b : Nat} (h : ∀ s ∈ snaps, s.room = room → s.id ≤ b) :
    nsn snaps room b = 0 := by
  rw [nsn, List.length_eq_zero_iff, List.filter_eq_nil_iff]
  intro s hs hc
  simp only [Bool.and_eq_true, decide_eq_true_eq] at hc
  have := h s hs hc.1; omega

/-- The state of the accumulate loop as far as counting goes: `b` bounds the rows dealt with. -/
structure LCnt (db : DB) (room : String) (snap b : Nat) : Prop where
  asc : db.rows.Pairwise fun x y => x.nid < y.nid
  ids : ∀ s ∈ db.snaps, s.id ≤ db.sseq
  newest : ∀ s ∈ db.snaps, s.room = room → s.id ≤ snap
  le : snap ≤ db.sseq
  rows : ∀ r ∈ db.rows, r.room = room → r.isState = false → r.nid < b →
    nsn db.snaps room r.before ≤ nrw (db.rows.map Row.core) room r.nid b

theorem updateBefore_mem {db : DB} {n s p : Nat} {r : Row} (hr : r ∈ (updateBefore db n s p).rows) :
    ∃ q ∈ db.rows, q.core = r.core ∧ ((r.nid = n ∧ r.before = s) ∨ (r.nid ≠ n ∧ r = q)) := by
  simp only [updateBefore, List.mem_map] at hr
  obtain ⟨q, hq, rfl⟩ := hr
  refine ⟨q, hq, ?_, ?_⟩
  · split <;> rfl
  · split
    · rename_i h; exact Or.inl ⟨h, rfl⟩
    · rename_i h; exact Or.inr ⟨h, rfl⟩

theorem pairwise_core {a b : List Row} (h : a.map Row.core = b.map Row.core) (hb : b.Pairwise fun x y => x.nid < y.nid) :
    a.Pairwise fun x y => x.nid < y.nid := by
  have h1 : (b.map Row.core).Pairwise fun x y => x.1 < y.1 := by rw [List.pairwise_map]; exact hb
  rw [← h, List.pairwise_map] at h1
  exact h1

theorem accStep_cnt {db db' : DB} {room : String} {snap snap' b : Nat} {ev : Row} (h : LCnt db room snap b)
    (hev : ev.core ∈ db.rows.map Row.core) (hroom : ev.room = room) (hb : b ≤ ev.nid)
    (hgap : ∀ r ∈ db.rows, r.room = room → b ≤ r.nid → ¬ r.nid < ev.nid)
    (ha : accStep (db, snap) ev = some (db', snap')) :
    LCnt db' room snap' (ev.nid + 1) ∧ db'.rows.map Row.core = db.rows.map Row.core ∧
    (∃ ns, db'.snaps = db.snaps ++ ns ∧ ∀ s ∈ ns, s.room = room) ∧
    (∀ r ∈ db'.rows, r.room ≠ room → r ∈ db.rows) ∧ db'.cur = db.cur := by
  -- both branches: possibly one new snapshot, then the before column of the event
  have key : ∃ ns rep, db' = updateBefore { db with snaps := db.snaps ++ ns, sseq := max snap' db.sseq } ev.nid snap rep ∧
      (ns = [] ∧ snap' = snap ∨ ∃ s, ns = [s] ∧ s.room = room ∧ s.id = db.sseq + 1 ∧ snap' = db.sseq + 1) := by
    simp only [accStep] at ha
    split at ha
    · split at ha
      · cases ha
      · rename_i old _
        split at ha
        · cases ha
        · rename_i new rep _
          simp only [Option.some.injEq, Prod.mk.injEq, insertSnap] at ha
          obtain ⟨rfl, rfl⟩ := ha
          refine ⟨[⟨db.sseq + 1, ev.room, (new.filter (·.ev.type = "m.room.member")).map (·.nid),
            (new.filter (fun r => ¬ r.ev.type = "m.room.member")).map (·.nid)⟩], rep, ?_, Or.inr ⟨_, rfl, hroom, rfl, rfl⟩⟩
          have : max (db.sseq + 1) db.sseq = db.sseq + 1 := by omega
          rw [this]
    · simp only [Option.some.injEq, Prod.mk.injEq] at ha
      obtain ⟨rfl, rfl⟩ := ha
      refine ⟨[], 0, ?_, Or.inl ⟨rfl, rfl⟩⟩
      have : max snap db.sseq = db.sseq := by have := h.le; omega
      rw [this]; simp
  obtain ⟨ns, rep, rfl, hns⟩ := key
  have hcore := updateBefore_core { db with snaps := db.snaps ++ ns, sseq := max snap' db.sseq } ev.nid snap rep
  have hnsroom : ∀ s ∈ ns, s.room = room := by
    rcases hns with ⟨rfl, _⟩ | ⟨s, rfl, hs, _⟩
    · simp
    · intro x hx; rw [List.mem_singleton.1 hx]; exact hs
  have hge : snap ≤ snap' := by
    rcases hns with ⟨_, rfl⟩ | ⟨s, _, _, _, rfl⟩
    · exact Nat.le_refl _
    · have := h.le; omega
  have hns1 : ∀ n, nsn ns room n ≤ 1 := by
    intro n
    rcases hns with ⟨rfl, _⟩ | ⟨s, rfl, _⟩
    · simp [nsn]
    · have := List.length_filter_le (fun t : Snap => t.room = room && decide (n < t.id)) [s]
      simpa [nsn] using this
  have hnew : ∀ s ∈ db.snaps ++ ns, s.room = room → s.id ≤ snap' := by
    intro s hs hr
    rcases List.mem_append.1 hs with hs | hs
    · have := h.newest s hs hr; omega
    · rcases hns with ⟨rfl, _⟩ | ⟨t, rfl, _, ht, rfl⟩
      · cases hs
      · rw [List.mem_singleton.1 hs, ht]; omega
  refine ⟨⟨pairwise_core hcore h.asc, ?_, hnew, Nat.le_max_left _ _, ?_⟩, hcore, ⟨ns, rfl, hnsroom⟩, ?_, rfl⟩
  · intro s hs
    show s.id ≤ max snap' db.sseq
    rcases List.mem_append.1 hs with hs | hs
    · have := h.ids s hs; omega
    · have := hnew s (List.mem_append_right _ hs) (hnsroom s hs); omega
  · intro r hr hrr hst hlt
    obtain ⟨q, hq, hqc, hq2⟩ := updateBefore_mem hr
    obtain ⟨c1, c2, c3, c4⟩ := core_eq hqc
    have hq : q ∈ db.rows := hq
    rw [hcore]
    show nsn (db.snaps ++ ns) room r.before ≤ nrw (db.rows.map Row.core) room r.nid (ev.nid + 1)
    rw [nsn_append]
    have h1 := hns1 r.before
    rcases hq2 with ⟨hn, hbf⟩ | ⟨hn, rfl⟩
    · have h0 : nsn db.snaps room r.before = 0 := by rw [hbf]; exact nsn_zero h.newest
      have h2 := nrw_add (db.rows.map Row.core) room (n := r.nid) (b := b) hev hroom (by show r.nid ≤ ev.nid; omega) hb
      have h2 : nrw (db.rows.map Row.core) room r.nid b + 1 ≤ nrw (db.rows.map Row.core) room r.nid (ev.nid + 1) := h2
      omega
    · -- an earlier row
      have hrb : r.nid < b := by
        have := fun hc => hgap r hq hrr hc
        omega
      have h3 := h.rows r hq hrr hst hrb
      have h2 := nrw_add (db.rows.map Row.core) room (n := r.nid) (b := b) hev hroom (by show r.nid ≤ ev.nid; omega) hb
      have h2 : nrw (db.rows.map Row.core) room r.nid b + 1 ≤ nrw (db.rows.map Row.core) room r.nid (ev.nid + 1) := h2
      omega
  · intro r hr hne
    obtain ⟨q, hq, hqc, hq2⟩ := updateBefore_mem hr
    rcases hq2 with ⟨hn, _⟩ | ⟨hn, rfl⟩
    · -- the event is in the room
      exfalso
      obtain ⟨x, hx, hxc⟩ := List.mem_map.1 hev
      have hqx : q.nid = x.nid := by rw [(core_eq hqc).1, hn, (core_eq hxc).1]
      have := row_unique h.asc hq hx hqx
      subst this
      exact hne (by rw [← (core_eq hqc).2.1, (core_eq hxc).2.1, hroom])
    · exact hq

theorem accLoop_cnt (pend : List Row) : ∀ {db db' : DB} {room : String} {snap snap' b : Nat}, LCnt db room snap b →
    (∀ ev ∈ pend, ev.core ∈ db.rows.map Row.core ∧ ev.room = room ∧ b ≤ ev.nid) → pend.Pairwise (fun x y => x.nid < y.nid) →
    (∀ r ∈ db.rows, r.room = room → b ≤ r.nid → r.core ∈ pend.map Row.core) →
    accLoop (db, snap) pend = some (db', snap') →
    ∃ b', (∀ r ∈ db'.rows, r.room = room → r.nid < b') ∧ LCnt db' room snap' b' ∧ db'.rows.map Row.core = db.rows.map Row.core ∧
      (∃ ns, db'.snaps = db.snaps ++ ns ∧ ∀ s ∈ ns, s.room = room) ∧
      (∀ r ∈ db'.rows, r.room ≠ room → r ∈ db.rows) ∧ db'.cur = db.cur := by
  induction pend with
  | nil =>
    intro db db' room snap snap' b h _ _ hall ha
    simp only [accLoop, Option.some.injEq, Prod.mk.injEq] at ha
    obtain ⟨rfl, rfl⟩ := ha
    refine ⟨b, ?_, h, rfl, ⟨[], by simp, by simp⟩, fun r hr _ => hr, rfl⟩
    intro r hr hrr
    have := hall r hr hrr
    simp at this; omega
  | cons ev pend ih =>
    intro db db' room snap snap' b h hp hasc hall ha
    rw [List.pairwise_cons] at hasc
    simp only [accLoop] at ha
    cases hst : accStep (db, snap) ev with
    | none => rw [hst] at ha; cases ha
    | some st =>
      rw [hst] at ha
      obtain ⟨d1, s1⟩ := st
      simp only [Option.bind_some] at ha
      obtain ⟨he1, he2, he3⟩ := hp ev (by simp)
      obtain ⟨g1, g2, ⟨ns, g3, g3'⟩, g4, g5⟩ := accStep_cnt h he1 he2 he3 (by
        intro r hr hrr hb hlt
        have := hall r hr hrr hb
        simp only [List.map_cons, List.mem_cons] at this
        rcases this with he | he
        · have := (core_eq he).1; omega
        · obtain ⟨q, hq, hqc⟩ := List.mem_map.1 he
          have := hasc.1 q hq; have := (core_eq hqc).1; omega) hst
      have hback : ∀ r ∈ d1.rows, ∃ q ∈ db.rows, q.core = r.core := by
        intro r hr
        have : r.core ∈ db.rows.map Row.core := g2 ▸ List.mem_map_of_mem hr
        exact List.mem_map.1 this
      obtain ⟨b', k1, k2, k3, ⟨ns', k4, k4'⟩, k5, k6⟩ := ih g1 (by
        intro x hx
        obtain ⟨a1, a2, _⟩ := hp x (by simp [hx])
        exact ⟨by rw [g2]; exact a1, a2, hasc.1 x hx⟩) hasc.2 (by
        intro r hr hrr hb
        obtain ⟨q, hq, hqc⟩ := hback r hr
        obtain ⟨c1, c2, _, _⟩ := core_eq hqc
        have := hall q hq (c2.trans hrr) (by omega)
        simp only [List.map_cons, List.mem_cons] at this
        rw [← hqc]
        rcases this with he | he
        · have := (core_eq he).1; omega
        · exact he) ha
      refine ⟨b', k1, k2, k3.trans g2, ⟨ns ++ ns', by rw [k4, g3, List.append_assoc], ?_⟩, ?_, k6.trans g5⟩
      · intro s hs
        rcases List.mem_append.1 hs with hs | hs
        · exact g3' s hs
        · exact k4' s hs
      · intro r hr hne; exact g4 r (k5 r hr hne) hne

/-- The counting invariant between sections. -/
structure Cnt (db : DB) : Prop where
  newest : ∀ s ∈ db.snaps, s.id ≤ db.cur s.room
  rows : ∀ r ∈ db.rows, r.isState = false → ∃ b, nsn db.snaps r.room r.before ≤ nrw (db.rows.map Row.core) r.room r.nid b

theorem step_cnt {db : DB} {sp : Spec} (h : Rel db sp) (hc : Cnt db) (o : Op) (hok : OkOp o) : Cnt (step db o) := by
  cases o with
  | init room skip block =>
    simp only [step]
    cases hi : initialise db room skip block with
    | none => exact hc
    | some db' =>
      simp only [Option.getD_some]
      unfold initialise at hi
      by_cases hb0 : block.length = 0
      · rw [if_pos hb0] at hi; cases hi; exact hc
      rw [if_neg hb0] at hi
      simp only at hi
      generalize hevs : block.filterMap id = evs at hi
      by_cases he0 : evs.length = 0
      · rw [if_pos he0] at hi; cases hi
      rw [if_neg he0] at hi
      by_cases hg : db.cur room = 0 ∧ ¬ evs.any (fun e => e.type = "m.room.create" && e.stateKey = "")
      · rw [if_pos hg] at hi; cases hi
      rw [if_neg hg] at hi
      have hcl : ∀ e ∈ evs.map (fun e => (e, false)), Clean e.1 := by
        intro e he
        obtain ⟨x, hx, rfl⟩ := List.mem_map.1 he
        exact hok.2 x (by rw [hevs]; exact hx)
      obtain ⟨h1, h2, h3, h4, h5, h6, h7, h8, h9, h10, h11⟩ :=
        insert_spec db h.inv room true skip (evs.map fun e => (e, false)) hcl
      generalize insert db room true skip (evs.map fun e => (e, false)) = ins at *
      by_cases hl : ins.2.length = 0
      · rw [if_pos hl] at hi
        cases hi
        have hnil : ins.2 = [] := List.length_eq_zero_iff.1 hl
        rw [hnil, List.append_nil] at h3
        exact ⟨by rw [h8, h10]; exact hc.newest, by rw [h3, h8]; exact hc.rows⟩
      · rw [if_neg hl] at hi
        split at hi
        · cases hi
        · rename_i cur _
          simp only [Option.some.injEq] at hi
          subst hi
          generalize (List.foldl ingest cur (List.filterMap (fun e => Option.map (fun r : Row => { r with ev := e })
            (List.find? (fun x => decide (x.ev.id = e.id)) ins.2)) evs)) = m
          constructor
          · simp only [insertSnap]
            intro s hs
            show s.id ≤ if s.room = room then ins.1.sseq + 1 else db.cur s.room
            rw [h8] at hs
            rcases List.mem_append.1 hs with hs | hs
            · split
              · have := (h.inv.srange s hs).2; omega
              · exact hc.newest s hs
            · rw [List.mem_singleton.1 hs]; simp
          · simp only [insertSnap]
            intro r hr hst
            rw [h3] at hr
            rcases List.mem_append.1 hr with hr | hr
            · obtain ⟨b, hb⟩ := hc.rows r hr hst
              rw [h8, h3, nsn_append, List.map_append]
              obtain ⟨x, xs, hx⟩ := List.exists_cons_of_ne_nil (l := ins.2) (fun h0 => hl (by rw [h0]; rfl))
              have hxm : x ∈ ins.2 := by rw [hx]; simp
              obtain ⟨a1, a2, _⟩ := h4 x hxm
              refine ⟨max b (x.nid + 1), ?_⟩
              rw [nrw_append]
              have e1 := nrw_mono (db.rows.map Row.core) r.room r.nid (Nat.le_max_left b (x.nid + 1))
              by_cases hrr : r.room = room
              · have e2 : 1 ≤ nrw (ins.2.map Row.core) r.room r.nid (max b (x.nid + 1)) := by
                  have := nrw_add (ins.2.map Row.core) r.room (n := r.nid) (b := 0) (e := x.core)
                    (List.mem_map_of_mem hxm) (a2.trans hrr.symm)
                    (by show r.nid ≤ x.nid; have := (h.inv.range r hr).2; omega) (Nat.zero_le _)
                  have e3 := nrw_mono (ins.2.map Row.core) r.room r.nid (Nat.le_max_right b (x.nid + 1))
                  have : nrw (ins.2.map Row.core) r.room r.nid 0 + 1 ≤ nrw (ins.2.map Row.core) r.room r.nid (x.nid + 1) := this
                  omega
                have e3 : nsn [(⟨ins.1.sseq + 1, room, (m.filter (·.ev.type = "m.room.member")).map (·.nid),
                    (m.filter (fun r => ¬ r.ev.type = "m.room.member")).map (·.nid)⟩ : Snap)] r.room r.before ≤ 1 :=
                  List.length_filter_le _ _
                omega
              · have e3 : nsn [(⟨ins.1.sseq + 1, room, (m.filter (·.ev.type = "m.room.member")).map (·.nid),
                    (m.filter (fun r => ¬ r.ev.type = "m.room.member")).map (·.nid)⟩ : Snap)] r.room r.before = 0 := by
                  have : ¬ room = r.room := fun h => hrr h.symm
                  simp [nsn, this]
                omega
            · have := (h4 r hr).2.2.1
              rw [this] at hst; cases hst
  | acc room skip limited timeline =>
    simp only [step]
    cases hi : accumulate db room skip limited timeline with
    | none => exact hc
    | some p =>
      obtain ⟨db', post⟩ := p
      simp only [Option.map_some, Option.getD_some]
      unfold accumulate at hi
      have hclean : ∀ e ∈ filterNew db (dedup [] timeline), Clean e := fun e he =>
        hok e ((dedup_sublist timeline []).subset ((filterNew_sublist db _).subset he))
      have hnd : ((filterNew db (dedup [] timeline)).map (·.id)).Nodup := by
        have h1 : ((dedup [] timeline).map (·.id)).Nodup := by
          rw [dedup_spec]
          exact ((List.filter_sublist).map _).nodup (firsts_nodup _)
        exact ((filterNew_sublist db _).map _).nodup h1
      simp only at hi
      generalize filterNew db (dedup [] timeline) = new at hi hclean hnd
      cases new with
      | nil => cases hi; exact hc
      | cons first rest =>
        simp only at hi
        by_cases hg : db.cur room = 0 ∧ ¬ (first.type = "m.room.create" ∧ first.stateKey = "")
        · rw [if_pos hg] at hi; cases hi; exact hc
        rw [if_neg hg] at hi
        generalize htg : ((first :: rest).map fun e => (e, missingPrevious limited (dedup [] timeline) first e)) = tagged at hi
        have htmap : tagged.map (·.1) = first :: rest := by rw [← htg, List.map_map]; simp [Function.comp_def]
        have hct : ∀ e ∈ tagged, Clean e.1 := by
          intro e he
          exact hclean _ (htmap ▸ List.mem_map_of_mem he)
        obtain ⟨h1, h2, h3, h4, h5, h6, h7, h8, h9, h10, h11⟩ := insert_spec db h.inv room false skip tagged hct
        generalize insert db room false skip tagged = ins at *
        by_cases hl : ins.2.length = 0
        · rw [if_pos hl] at hi
          cases hi
          have hnil : ins.2 = [] := List.length_eq_zero_iff.1 hl
          rw [hnil, List.append_nil] at h3
          exact ⟨by rw [h8, h10]; exact hc.newest, by rw [h3, h8]; exact hc.rows⟩
        · rw [if_neg hl] at hi
          rw [htmap] at h5
          have hfm := find_filterMap (first :: rest) ins.2 hnd h5
          simp only [hfm] at hi
          cases hloop : accLoop (ins.1, db.cur room) ins.2 with
          | none => rw [hloop] at hi; cases hi
          | some st =>
            rw [hloop] at hi
            obtain ⟨d2, snap2⟩ := st
            simp only [Option.some.injEq, Prod.mk.injEq] at hi
            obtain ⟨rfl, _⟩ := hi
            have hasc := h1.asc
            rw [h3] at hasc
            have hcurle : db.cur room ≤ db.sseq := (h.cur room).le h.inv
            have hbnd : ∃ b0, b0 = db.seq + 1 ∧ ∀ r ∈ db.rows, r.nid < b0 :=
              ⟨db.seq + 1, rfl, fun r hr => by have := (h.inv.range r hr).2; omega⟩
            obtain ⟨b0, hb0, hbo⟩ := hbnd
            obtain ⟨b', k1, k2, k3, ⟨ns, k4, k4'⟩, k5, k6⟩ := accLoop_cnt ins.2 (db := ins.1) (room := room) (b := b0)
              ⟨h1.asc, fun s hs => (h1.srange s hs).2, by
                rw [h8]; intro s hs hr; have := hc.newest s hs; rw [hr] at this; exact this,
                by rw [h9]; exact hcurle, by
                intro r hr hrr hst hlt
                rw [h3] at hr
                rcases List.mem_append.1 hr with hr | hr
                · obtain ⟨b, hb⟩ := hc.rows r hr hst
                  rw [hrr] at hb
                  rw [h8, h3, List.map_append, nrw_append]
                  have : nrw (db.rows.map Row.core) room r.nid b ≤ nrw (db.rows.map Row.core) room r.nid b0 := by
                    apply filter_len_mono
                    intro c hcm hcc
                    obtain ⟨q, hq, rfl⟩ := List.mem_map.1 hcm
                    simp only [Bool.and_eq_true, decide_eq_true_eq] at hcc ⊢
                    exact ⟨hcc.1, hcc.2.1, hbo q hq⟩
                  omega
                · have := (h4 r hr).1; omega⟩
              (fun ev hev => ⟨List.mem_map_of_mem (by rw [h3]; exact List.mem_append_right _ hev), (h4 ev hev).2.1,
                by have := (h4 ev hev).1; omega⟩)
              (List.pairwise_append.1 hasc).2.1
              (by
                intro r hr hrr hb
                rw [h3] at hr
                rcases List.mem_append.1 hr with hr | hr
                · have := hbo r hr; omega
                · exact List.mem_map_of_mem hr) hloop
            constructor
            · intro s hs
              show s.id ≤ if s.room = room then snap2 else db.cur s.room
              split
              · rename_i hr; exact k2.newest s hs hr
              · rename_i hr
                have hs : s ∈ d2.snaps := hs
                rw [k4, h8] at hs
                rcases List.mem_append.1 hs with hs | hs
                · exact hc.newest s hs
                · exact absurd (k4' s hs) hr
            · intro r hr hst
              have hr : r ∈ d2.rows := hr
              show ∃ b, nsn d2.snaps r.room r.before ≤ nrw (d2.rows.map Row.core) r.room r.nid b
              by_cases hrr : r.room = room
              · rw [hrr]
                exact ⟨b', k2.rows r hr hrr hst (k1 r hr hrr)⟩
              · have hr1 := k5 r hr hrr
                rw [h3] at hr1
                rcases List.mem_append.1 hr1 with hr1 | hr1
                · obtain ⟨b, hb⟩ := hc.rows r hr1 hst
                  refine ⟨b, ?_⟩
                  rw [k3, h3, k4, h8, List.map_append, nrw_append, nsn_append]
                  have : nsn ns r.room r.before = 0 := by
                    rw [nsn, List.length_eq_zero_iff, List.filter_eq_nil_iff]
                    intro s hs hcc
                    simp only [Bool.and_eq_true, decide_eq_true_eq] at hcc
                    exact hrr (hcc.1.symm.trans (k4' s hs))
                  omega
                · exact absurd (h4 r hr1).2.1 hrr

theorem run_cnt (ops : List Op) (hok : ∀ o ∈ ops, OkOp o) : Cnt (run ops) := by
  induction ops using Verif.Util.snocRec with
  | nil => constructor <;> simp [run]
  | append_singleton l a ih =>
    have hl : ∀ o ∈ l, OkOp o := fun o ho => hok o (by simp [ho])
    simp only [run, List.foldl_append, List.foldl_cons, List.foldl_nil]
    exact step_cnt (run_spec l hl) (ih hl) a (hok a (by simp))

/-! ## Running on a database with some snapshots removed -/

def repl (db : DB) (sn : List Snap) : DB := { db with snaps := sn }

/-- The snapshot is none, or found in both. -/
def Agree (db : DB) (sn : List Snap) (id : Nat) : Prop := id = 0 ∨ sn.find? (·.id = id) = db.snaps.find? (·.id = id)

theorem stripped_repl {db : DB} {sn : List Snap} {id : Nat} (h : Agree db sn id) : stripped (repl db sn) id = stripped db id := by
  simp only [stripped, selectSnap, repl]
  rcases h with h | h
  · simp [h]
  · rw [h]; rfl

theorem accStep_repl {db : DB} {sn : List Snap} {snap : Nat} (ev : Row) (h : Agree db sn snap) :
    accStep (repl db sn, snap) ev =
      (accStep (db, snap) ev).map fun p => (repl p.1 (sn ++ p.1.snaps.drop db.snaps.length), p.2) := by
  simp only [accStep]
  by_cases hk : ev.ev.hasKey = true
  · simp only [hk, if_true]
    rw [stripped_repl h]
    cases (if snap ≠ 0 then stripped db snap else some []) with
    | none => rfl
    | some old =>
      simp only
      cases roll old ev with
      | none => rfl
      | some p =>
        simp [insertSnap, updateBefore, repl]
  · simp only [hk, Bool.false_eq_true, if_false]
    simp [updateBefore, repl]

theorem accStep_shape {db d : DB} {snap s : Nat} {ev : Row} (h : accStep (db, snap) ev = some (d, s)) :
    (d.snaps = db.snaps ∧ s = snap ∧ d.sseq = db.sseq) ∨
    (∃ x, d.snaps = db.snaps ++ [x] ∧ x.id = s ∧ s = db.sseq + 1 ∧ d.sseq = db.sseq + 1) := by
  simp only [accStep] at h
  split at h
  · split at h
    · cases h
    · split at h
      · cases h
      · simp only [Option.some.injEq, Prod.mk.injEq, insertSnap] at h
        obtain ⟨rfl, rfl⟩ := h
        exact Or.inr ⟨_, rfl, rfl, rfl, rfl⟩
  · simp only [Option.some.injEq, Prod.mk.injEq] at h
    obtain ⟨rfl, rfl⟩ := h
    exact Or.inl ⟨rfl, rfl, rfl⟩

theorem accLoop_repl (l : List Row) : ∀ {db : DB} {sn : List Snap} {snap : Nat}, Agree db sn snap →
    (∀ s ∈ db.snaps, s.id ≤ db.sseq) → sn.Sublist db.snaps →
    accLoop (repl db sn, snap) l =
      (accLoop (db, snap) l).map (fun p => (repl p.1 (sn ++ p.1.snaps.drop db.snaps.length), p.2)) ∧
    ∀ d s, accLoop (db, snap) l = some (d, s) → ∃ ns, d.snaps = db.snaps ++ ns := by
  induction l with
  | nil =>
    intro db sn snap h _ _
    refine ⟨by simp [accLoop, repl], ?_⟩
    intro d s hd
    simp only [accLoop, Option.some.injEq, Prod.mk.injEq] at hd
    exact ⟨[], by simp [hd.1]⟩
  | cons ev l ih =>
    intro db sn snap h hle hsub
    simp only [accLoop]
    rw [accStep_repl ev h]
    cases hst : accStep (db, snap) ev with
    | none => exact ⟨rfl, by intro d s hd; cases hd⟩
    | some st =>
      obtain ⟨d1, s1⟩ := st
      simp only [Option.map_some, Option.bind_some]
      have hx := accStep_shape hst
      have key : ∃ ns, d1.snaps = db.snaps ++ ns ∧ Agree d1 (sn ++ ns) s1 ∧ (∀ s ∈ d1.snaps, s.id ≤ d1.sseq) := by
        rcases hx with ⟨a1, a2, a3⟩ | ⟨x, a1, a2, a3, a4⟩
        · refine ⟨[], by simpa using a1, ?_, by rw [a1, a3]; exact hle⟩
          rw [a2, List.append_nil]
          rcases h with h | h
          · exact Or.inl h
          · exact Or.inr (by rw [a1]; exact h)
        · refine ⟨[x], a1, Or.inr ?_, ?_⟩
          · have hno : ∀ m : List Snap, (∀ s ∈ m, s.id ≤ db.sseq) → (m ++ [x]).find? (·.id = s1) = some x := by
              intro m hm
              rw [List.find?_append]
              have : m.find? (·.id = s1) = none := by
                rw [List.find?_eq_none]
                intro s hs
                have := hm s hs
                simp; omega
              rw [this]; simp [a2]
            rw [a1, hno _ hle, hno sn fun s hs => hle s (hsub.subset hs)]
          · rw [a1, a4]
            intro s hs
            rcases List.mem_append.1 hs with hs | hs
            · have := hle s hs; omega
            · rw [List.mem_singleton.1 hs]; omega
      obtain ⟨ns, n1, n2, n3⟩ := key
      have hdrop : d1.snaps.drop db.snaps.length = ns := by rw [n1]; simp
      rw [hdrop]
      obtain ⟨i1, i2⟩ := ih n2 n3 (by rw [n1]; exact hsub.append (List.Sublist.refl _))
      rw [i1]
      constructor
      · cases hl : accLoop (d1, s1) l with
        | none => rfl
        | some p =>
          obtain ⟨d, s⟩ := p
          obtain ⟨ms, hms⟩ := i2 d s hl
          simp only [Option.map_some, Option.some.injEq, Prod.mk.injEq, and_true]
          rw [hms, n1, List.drop_left, List.append_assoc db.snaps, List.drop_left, List.append_assoc]
      · intro d s hd
        obtain ⟨ms, hms⟩ := i2 d s hd
        exact ⟨ns ++ ms, by rw [hms, n1, List.append_assoc]⟩

theorem step_repl {db : DB} {sn : List Snap} (hle : ∀ s ∈ db.snaps, s.id ≤ db.sseq) (hsub : sn.Sublist db.snaps)
    (hcur : ∀ room, Agree db sn (db.cur room)) (o : Op) :
    step (repl db sn) o = repl (step db o) (sn ++ (step db o).snaps.drop db.snaps.length) := by
  have hcr : (repl db sn).cur = db.cur := rfl
  have hlt : (repl db sn).latest = db.latest := rfl
  have hself : ∀ d : DB, d.snaps = db.snaps → repl d sn = repl d (sn ++ d.snaps.drop db.snaps.length) := by
    intro d hd; rw [hd]; simp
  cases o with
  | init room skip block =>
    simp only [step]
    have hs : initialise (repl db sn) room skip block =
        (initialise db room skip block).map fun d => repl d (sn ++ d.snaps.drop db.snaps.length) := by
      unfold initialise
      by_cases hb0 : block.length = 0
      · rw [if_pos hb0, if_pos hb0]; simp [repl]
      rw [if_neg hb0, if_neg hb0]
      simp only
      generalize block.filterMap id = evs
      by_cases he0 : evs.length = 0
      · rw [if_pos he0, if_pos he0]; rfl
      rw [if_neg he0, if_neg he0]
      simp only [hcr, hlt]
      by_cases hg : db.cur room = 0 ∧ ¬ evs.any (fun e => e.type = "m.room.create" && e.stateKey = "")
      · rw [if_pos hg, if_pos hg]; rfl
      rw [if_neg hg, if_neg hg]
      have hins : insert (repl db sn) room true skip (evs.map fun e => (e, false)) =
          (repl (insert db room true skip (evs.map fun e => (e, false))).1 sn,
            (insert db room true skip (evs.map fun e => (e, false))).2) := rfl
      rw [hins]
      have hsn : (insert db room true skip (evs.map fun e => (e, false))).1.snaps = db.snaps := rfl
      generalize insert db room true skip (evs.map fun e => (e, false)) = ins at hsn
      simp only
      by_cases hl : ins.2.length = 0
      · rw [if_pos hl, if_pos hl, Option.map_some, ← hself _ hsn]
      rw [if_neg hl, if_neg hl]
      have hag : Agree ins.1 sn (db.cur room) := by
        rcases hcur room with h | h
        · exact Or.inl h
        · exact Or.inr (by rw [hsn]; exact h)
      have hstr := stripped_repl hag
      rw [hstr]
      cases (if db.cur room > 0 then Option.map (fun x => List.foldl ingest [] x) (stripped ins.1 (db.cur room)) else some []) with
      | none => rfl
      | some cur =>
        simp only [insertSnap, repl, Option.map_some, Option.some.injEq]
        rw [hsn]
        simp
    rw [hs]
    cases initialise db room skip block with
    | none => simp only [Option.map_none, Option.getD_none]; exact hself db rfl
    | some d => rfl
  | acc room skip limited timeline =>
    simp only [step]
    have hs : accumulate (repl db sn) room skip limited timeline =
        (accumulate db room skip limited timeline).map fun p => (repl p.1 (sn ++ p.1.snaps.drop db.snaps.length), p.2) := by
      unfold accumulate
      simp only
      have hfn : filterNew (repl db sn) (dedup [] timeline) = filterNew db (dedup [] timeline) := rfl
      rw [hfn]
      cases filterNew db (dedup [] timeline) with
      | nil => simp [repl]
      | cons first rest =>
        simp only
        simp only [hcr, hlt]
        by_cases hg : db.cur room = 0 ∧ ¬ (first.type = "m.room.create" ∧ first.stateKey = "")
        · rw [if_pos hg, if_pos hg]; simp [repl]
        rw [if_neg hg, if_neg hg]
        generalize ((first :: rest).map fun e => (e, missingPrevious limited (dedup [] timeline) first e)) = tagged
        have hins : insert (repl db sn) room false skip tagged =
            (repl (insert db room false skip tagged).1 sn, (insert db room false skip tagged).2) := rfl
        rw [hins]
        have hsn : (insert db room false skip tagged).1.snaps = db.snaps := rfl
        have hsq : (insert db room false skip tagged).1.sseq = db.sseq := rfl
        generalize insert db room false skip tagged = ins at hsn hsq
        simp only
        by_cases hl : ins.2.length = 0
        · rw [if_pos hl, if_pos hl, Option.map_some, ← hself _ hsn]
        rw [if_neg hl, if_neg hl]
        have hag : Agree ins.1 sn (db.cur room) := by
          rcases hcur room with h | h
          · exact Or.inl h
          · exact Or.inr (by rw [hsn]; exact h)
        generalize ((first :: rest).filterMap fun e => ins.2.find? (·.ev.id = e.id)) = post
        obtain ⟨hl1, hl2⟩ := accLoop_repl post hag (by rw [hsn, hsq]; exact hle) (by rw [hsn]; exact hsub)
        rw [hl1, hsn]
        cases accLoop (ins.1, db.cur room) post with
        | none => rfl
        | some p => rfl
    rw [hs]
    cases accumulate db room skip limited timeline with
    | none => simp only [Option.map_none, Option.getD_none]; exact hself db rfl
    | some d => rfl

/-! ## C43 -/

/-- The sections of a run, without the clean-ups. -/
def sections : List COp → List Op
  | [] => []
  | .op o :: l => o :: sections l
  | .clean :: l => sections l

theorem sections_append (a b : List COp) : sections (a ++ b) = sections a ++ sections b := by
  induction a with
  | nil => rfl
  | cons x a ih => cases x <;> simp [sections, ih]

theorem rowNum_nsn (snaps : List Snap) (s : Snap) : rowNum snaps s = nsn snaps s.room s.id + 1 := rfl

theorem nsn_sublist {a b : List Snap} (h : a.Sublist b) (room : String) (n : Nat) : nsn a room n ≤ nsn b room n :=
  (h.filter _).length_le

/-- With clean-ups at any points the database is the one without clean-ups, less some snapshots that are not among the
newest `limit + 1` of their room. -/
theorem crun_sim (limit : Nat) (ops : List COp) (hok : ∀ o ∈ sections ops, OkOp o) :
    ∃ sn, crun limit ops = repl (run (sections ops)) sn ∧ sn.Sublist (run (sections ops)).snaps ∧
      ∀ s ∈ (run (sections ops)).snaps, rowNum (run (sections ops)).snaps s ≤ limit + 1 → s ∈ sn := by
  induction ops using Verif.Util.snocRec with
  | nil => exact ⟨[], rfl, by simp [sections, run], by simp [sections, run]⟩
  | append_singleton l a ih =>
    rw [sections_append] at hok ⊢
    obtain ⟨sn, h1, h2, h3⟩ := ih fun o ho => hok o (by simp [ho])
    have hrel := run_spec (sections l) fun o ho => hok o (by simp [ho])
    have hcnt := run_cnt (sections l) fun o ho => hok o (by simp [ho])
    have hcr : crun limit (l ++ [a]) = cstep limit (crun limit l) a := by simp [crun]
    rw [hcr, h1]
    cases a with
    | clean =>
      simp only [sections, List.append_nil, cstep]
      refine ⟨sn.filter fun s => decide (rowNum sn s ≤ limit + 1), rfl, (List.filter_sublist).trans h2, ?_⟩
      intro s hs hr
      rw [List.mem_filter]
      refine ⟨h3 s hs hr, decide_eq_true ?_⟩
      rw [rowNum_nsn] at hr ⊢
      have := nsn_sublist h2 s.room s.id
      omega
    | op o =>
      simp only [sections, cstep]
      have hstep : run (sections l ++ [o]) = step (run (sections l)) o := by simp [run]
      rw [hstep]
      generalize run (sections l) = db at *
      have hext := (step_spec hrel o (hok o (by simp [sections]))).2
      have hag : ∀ room, Agree db sn (db.cur room) := by
        intro room
        by_cases h0 : db.cur room = 0
        · exact Or.inl h0
        · right
          have hc := hrel.cur room
          have hne : specRun (sections l) |>.cur room |>.isSome := by
            cases hf : (specRun (sections l)).cur room with
            | none => exact absurd ((hc.zero hrel.inv).2 hf) h0
            | some f => rfl
          obtain ⟨f, hf⟩ := Option.isSome_iff_exists.1 hne
          rw [hf] at hc
          obtain ⟨⟨s, hs, hsid, hsr⟩, _⟩ := hc
          have hsn : s ∈ sn := by
            apply h3 s hs
            rw [rowNum_nsn, nsn_zero]
            · omega
            · intro t ht htr
              have := hcnt.newest t ht
              rw [htr, hsr, ← hsid] at this
              exact this
          have hfind : ∀ m : List Snap, m.Sublist db.snaps → s ∈ m → m.find? (·.id = db.cur room) = some s := by
            intro m hm hsm
            cases hf : m.find? (·.id = db.cur room) with
            | none => have := List.find?_eq_none.1 hf s hsm; simp [hsid] at this
            | some t =>
              have h1 := List.find?_some hf
              simp only [decide_eq_true_eq] at h1
              rw [hrel.inv.snap_unique (hm.subset (List.mem_of_find?_eq_some hf)) hs (h1.trans hsid.symm)]
          rw [hfind sn h2 hsn, hfind _ (List.Sublist.refl _) hs]
      rw [step_repl (fun s hs => (hrel.inv.srange s hs).2) h2 hag o]
      obtain ⟨ns, hns, _⟩ := hext.snaps
      have hdrop : (step db o).snaps.drop db.snaps.length = ns := by rw [hns]; simp
      rw [hdrop]
      refine ⟨_, rfl, by rw [hns]; exact h2.append (List.Sublist.refl _), ?_⟩
      rw [hns]
      intro s hs hr
      rcases List.mem_append.1 hs with hs | hs
      · refine List.mem_append_left _ (h3 s hs ?_)
        rw [rowNum_nsn, nsn_append] at hr
        rw [rowNum_nsn]; omega
      · exact List.mem_append_right _ hs

/-- The current snapshot of every room survives any number of clean-ups at any points: it is there and holds the room's
state, one event per key. -/
theorem C43_current (limit : Nat) (ops : List COp) (hok : ∀ o ∈ sections ops, OkOp o) (room : String) :
    (crun limit ops).cur room = (run (sections ops)).cur room ∧
    ((crun limit ops).cur room ≠ 0 → ∃ s ∈ (crun limit ops).snaps, s.id = (crun limit ops).cur room ∧ s.room = room ∧
      s ∈ (run (sections ops)).snaps) := by
  obtain ⟨sn, h1, h2, h3⟩ := crun_sim limit ops hok
  have hrel := run_spec (sections ops) hok
  have hcnt := run_cnt (sections ops) hok
  rw [h1]
  refine ⟨rfl, fun h0 => ?_⟩
  have h0 : (run (sections ops)).cur room ≠ 0 := h0
  have hc := hrel.cur room
  cases hf : (specRun (sections ops)).cur room with
  | none => exact absurd ((hc.zero hrel.inv).2 hf) h0
  | some f =>
    rw [hf] at hc
    obtain ⟨⟨s, hs, hsid, hsr⟩, _⟩ := hc
    refine ⟨s, ?_, hsid, hsr, hs⟩
    apply h3 s hs
    rw [rowNum_nsn, nsn_zero]
    · omega
    · intro t ht htr
      have := hcnt.newest t ht
      rw [htr, hsr, ← hsid] at this
      exact this

/-- The full statement of C43: after clean-ups, the before-state of each of the latest `limit` timeline events of a room
is still there. -/
def KeepsLatest (limit : Nat) (db : DB) : Prop :=
  ∀ r ∈ db.rows, r.isState = false → r.before ≠ 0 →
    (db.rows.filter fun x => x.room = r.room && (!x.isState && decide (r.nid ≤ x.nid))).length ≤ limit →
    ∃ s ∈ db.snaps, s.id = r.before ∧ s.room = r.room

/-- What holds: the before-state of every event among the latest `limit` *rows* of its room is there, counting the events of
v2 state blocks as well.  Missing from the full statement: state blocks (`Initialise`) received in between also make
snapshots, and the code only reckons with those made by timeline events, see `C43_violated`. -/
theorem C43_before_partial (limit : Nat) (ops : List COp) (hok : ∀ o ∈ sections ops, OkOp o) (r : Row)
    (hr : r ∈ (crun limit ops).rows) (hst : r.isState = false) (hb : r.before ≠ 0)
    (hlast : ((crun limit ops).rows.filter fun x => x.room = r.room && decide (r.nid ≤ x.nid)).length ≤ limit) :
    ∃ s ∈ (crun limit ops).snaps, s.id = r.before ∧ s.room = r.room := by
  obtain ⟨sn, h1, h2, h3⟩ := crun_sim limit ops hok
  have hrel := run_spec (sections ops) hok
  have hcnt := run_cnt (sections ops) hok
  rw [h1] at hr hlast ⊢
  have hr : r ∈ (run (sections ops)).rows := hr
  have hlast : ((run (sections ops)).rows.filter fun x => x.room = r.room && decide (r.nid ≤ x.nid)).length ≤ limit := hlast
  generalize run (sections ops) = db at *
  obtain ⟨o, _, hc, _⟩ := hrel.befs r hr hst
  cases o with
  | none => exact absurd hc hb
  | some f =>
    obtain ⟨⟨s, hs, hsid, hsr⟩, _⟩ := hc
    refine ⟨s, ?_, hsid, hsr⟩
    apply h3 s hs
    obtain ⟨b, hbb⟩ := hcnt.rows r hr hst
    rw [rowNum_nsn, hsr, hsid]
    have : nrw (db.rows.map Row.core) r.room r.nid b ≤
        (db.rows.filter fun x => x.room = r.room && decide (r.nid ≤ x.nid)).length := by
      rw [nrw, List.filter_map, List.length_map]
      apply filter_len_mono
      intro x _ hx
      simp only [Function.comp, Row.core, Bool.and_eq_true, decide_eq_true_eq] at hx ⊢
      exact ⟨of_decide_eq_true hx.1, of_decide_eq_true hx.2.1⟩
    omega

/-- In particular the full statement holds for a room that has had no state block since the event. -/
theorem C43_before_no_block (limit : Nat) (ops : List COp) (hok : ∀ o ∈ sections ops, OkOp o) (r : Row)
    (hr : r ∈ (crun limit ops).rows) (hst : r.isState = false) (hb : r.before ≠ 0)
    (hnb : ∀ x ∈ (crun limit ops).rows, x.room = r.room → r.nid ≤ x.nid → x.isState = false)
    (hlast : ((crun limit ops).rows.filter fun x => x.room = r.room && (!x.isState && decide (r.nid ≤ x.nid))).length ≤ limit) :
    ∃ s ∈ (crun limit ops).snaps, s.id = r.before ∧ s.room = r.room := by
  refine C43_before_partial limit ops hok r hr hst hb ?_
  refine Nat.le_trans (filter_len_mono _ ?_) hlast
  intro x hx hc
  simp only [Bool.and_eq_true, decide_eq_true_eq, Bool.not_eq_true'] at hc ⊢
  exact ⟨hc.1, hnb x hx hc.1 hc.2, hc.2⟩

/-- A name event, then two state blocks after gaps, then a clean-up with a limit of one event: the before-state of
the (latest) name event is removed. -/
def exClean : List COp :=
  [.op (.init "!r" 0 [some ⟨"$c", "m.room.create", "", true⟩]),
   .op (.acc "!r" 0 false [some ⟨"$n", "m.room.name", "", true⟩]),
   .op (.init "!r" 0 [some ⟨"$t", "m.room.topic", "", true⟩]),
   .op (.init "!r" 0 [some ⟨"$a", "m.room.avatar", "", true⟩]),
   .clean]

/-- C43 is violated by state blocks for a known room: each makes a snapshot, the cleaner counts those among the latest ones
of the room, and so removes the snapshot before the latest timeline event. -/
theorem C43_violated : ¬ KeepsLatest 1 (crun 1 exClean) := by
  unfold KeepsLatest
  decide +kernel

example : ∀ o ∈ sections exClean, OkOp o := by
  simp only [sections, exClean, OkOp, Clean, List.forall_mem_cons, List.not_mem_nil, false_implies, implies_true, and_true]
  decide +kernel

/-- The same with the blocks before the name event: all is kept. -/
example : KeepsLatest 1 (crun 1 [.op (.init "!r" 0 [some ⟨"$c", "m.room.create", "", true⟩]),
   .op (.init "!r" 0 [some ⟨"$t", "m.room.topic", "", true⟩]),
   .op (.acc "!r" 0 false [some ⟨"$n", "m.room.name", "", true⟩]), .clean]) := by
  unfold KeepsLatest
  decide +kernel

end Verif.Store
