import Verif.StoreInv
/-!
# What the store should do, and that it does

The specification knows nothing of numbers and snapshots: it has the ids seen, for each room the current
state as a function from keys to event ids, and for each timeline event the state before it.
-/
namespace Verif.Store

abbrev St := Key → Option String

def St.none : St := fun _ => Option.none

/-- The state after a state event. -/
def St.apply (f : St) (e : Ev) : St := fun k => if k = e.key then some e.id else f k

structure Spec where
  known : List String := []
  cur : String → Option St := fun _ => .none
  before : String → Option (Option St) := fun _ => .none

/-- The first event of each id. -/
def firsts : List Ev → List Ev
  | [] => []
  | e :: es => e :: (firsts es).filter fun x => x.id ≠ e.id

/-- The events after the last known one. -/
def newSuffix (known : List String) : List Ev → List Ev
  | [] => []
  | e :: es => if ∃ x ∈ e :: es, x.id ∈ known then newSuffix known es else e :: es

def isCreate (e : Ev) : Prop := e.type = "m.room.create" ∧ e.stateKey = ""
instance (e : Ev) : Decidable (isCreate e) := inferInstanceAs (Decidable (_ ∧ _))

/-- The state after an event. -/
def after (f : Option St) (e : Ev) : Option St :=
  if e.hasKey then some ((f.getD .none).apply e) else f

def setBefore (b : String → Option (Option St)) (id : String) (f : Option St) : String → Option (Option St) :=
  fun i => if i = id then some f else b i

/-- A timeline, event by event. -/
def specLoop : Option St × (String → Option (Option St)) → List Ev → Option St × (String → Option (Option St))
  | p, [] => p
  | p, e :: es => specLoop (after p.1 e, setBefore p.2 e.id p.1) es

/-- Is there something to start from: a current state, or the create event. -/
def canStart (cur : Option St) (evs : List Ev) : Prop := cur ≠ .none ∨ ∃ e ∈ evs, isCreate e

open Classical in
noncomputable def specStep (sp : Spec) : Op → Spec
  | .init room _ block =>
    let new := (block.filterMap id).filter fun e => e.id ∉ sp.known
    if new ≠ [] ∧ canStart (sp.cur room) (block.filterMap id) then
      { sp with
        known := sp.known ++ new.map (·.id)
        cur := fun r => if r = room then some (new.foldl St.apply ((sp.cur room).getD .none)) else sp.cur r }
    else sp
  | .acc room _ _ timeline =>
    let new := newSuffix sp.known (firsts (timeline.filterMap id))
    if new ≠ [] ∧ canStart (sp.cur room) (new.take 1) then
      { known := sp.known ++ new.map (·.id)
        cur := fun r => if r = room then (specLoop (sp.cur room, sp.before) new).1 else sp.cur r
        before := (specLoop (sp.cur room, sp.before) new).2 }
    else sp

open Classical in
theorem specStep_acc (sp : Spec) (room : String) (k : Nat) (l : Bool) (timeline : List (Option Ev)) {new : List Ev}
    (h : newSuffix sp.known (firsts (timeline.filterMap id)) = new) :
    specStep sp (.acc room k l timeline) = if new ≠ [] ∧ canStart (sp.cur room) (new.take 1) then
      { known := sp.known ++ new.map (·.id)
        cur := fun r => if r = room then (specLoop (sp.cur room, sp.before) new).1 else sp.cur r
        before := (specLoop (sp.cur room, sp.before) new).2 }
    else sp := by subst h; rfl

open Classical in
theorem specStep_init (sp : Spec) (room : String) (k : Nat) (block : List (Option Ev)) {new : List Ev}
    (h : ((block.filterMap id).filter fun e => decide (e.id ∉ sp.known)) = new) :
    specStep sp (.init room k block) = if new ≠ [] ∧ canStart (sp.cur room) (block.filterMap id) then
      { sp with
        known := sp.known ++ new.map (·.id)
        cur := fun r => if r = room then some (new.foldl St.apply ((sp.cur room).getD .none)) else sp.cur r }
    else sp := by
  subst h; rfl

noncomputable def specRun (ops : List Op) : Spec := ops.foldl specStep {}

/-! ## Relation -/

/-- Snapshot `sid` of `room` is the state `f`; 0 is "no state yet". -/
def Cur (db : DB) (room : String) (sid : Nat) (f : Option St) : Prop :=
  match f with
  | .none => sid = 0
  | some g => (∃ s ∈ db.snaps, s.id = sid ∧ s.room = room) ∧ ∀ k id, (∃ n, At db sid k id n) ↔ g k = some id

/-- The recorded replacement: the number of the event under the same key in the state before, 0 if none. -/
def RepOk (db : DB) (r : Row) : Prop :=
  if r.ev.hasKey then (r.replaces = 0 ∧ ∀ id n, ¬ At db r.before r.ev.key id n) ∨ ∃ id, At db r.before r.ev.key id r.replaces
  else r.replaces = 0

theorem Cur.le {db : DB} (h : Inv db) {room : String} {sid : Nat} {f : Option St} (hc : Cur db room sid f) : sid ≤ db.sseq := by
  cases f with
  | none => rw [show sid = 0 from hc]; omega
  | some g => obtain ⟨⟨s, hs, rfl, _⟩, _⟩ := hc; exact (h.srange s hs).2

theorem Cur.mono {a b : DB} (ha : Inv a) (h : Ext a b) {room : String} {sid : Nat} {f : Option St} (hc : Cur a room sid f) :
    Cur b room sid f := by
  have hle := hc.le ha
  cases f with
  | none => exact hc
  | some g =>
    obtain ⟨⟨s, hs, hid, hr⟩, h2⟩ := hc
    exact ⟨⟨s, h.snap_fwd hs, hid, hr⟩, fun k id => by simp only [h.at ha hle]; exact h2 k id⟩

theorem RepOk.mono {a b : DB} (ha : Inv a) (h : Ext a b) {r : Row} (hle : r.before ≤ a.sseq) (hr : RepOk a r) : RepOk b r := by
  unfold RepOk at *
  simp only [h.at ha hle]; exact hr

/-- While a timeline is being accumulated: `pend` are the inserted rows still to be processed. -/
structure Loop (db : DB) (room : String) (snap : Nat) (f : Option St) (bef : String → Option (Option St)) (pend : List Row) : Prop where
  inv : Inv db
  cur : Cur db room snap f
  befs : ∀ r ∈ db.rows, r ∉ pend → r.isState = false → ∃ o, bef r.ev.id = some o ∧ Cur db r.room r.before o ∧ RepOk db r
  rows : ∀ r ∈ pend, r ∈ db.rows ∧ r.room = room ∧ r.isState = false
  fresh : ∀ r ∈ pend, ∀ s ∈ db.snaps, r.nid ∉ s.nids
  asc : pend.Pairwise fun a b => a.nid < b.nid
  inits : ∀ r ∈ db.rows, r.isState = true → r.before = 0 ∧ r.replaces = 0

theorem snap_zero {db : DB} (h : Inv db) (k : Key) (id : String) (n : Nat) : ¬ At db 0 k id n := by
  rintro ⟨s, hs, h0, _⟩
  have := (h.srange s hs).1; omega

/-- The rows of the state so far. -/
theorem Cur.rows {db : DB} (h : Inv db) {room : String} {snap : Nat} {f : Option St} (hc : Cur db room snap f) :
    ∃ old, (if snap ≠ 0 then stripped db snap else some []) = some old ∧ (∀ r ∈ old, r ∈ db.rows ∧ r.room = room) ∧
      old.Pairwise (fun a b => a.ev.key ≠ b.ev.key) ∧ (∀ r ∈ old, ∃ s ∈ db.snaps, r.nid ∈ s.nids) ∧
      (∀ k id n, At db snap k id n ↔ ∃ r ∈ old, r.ev.key = k ∧ r.ev.id = id ∧ r.nid = n) ∧
      (∀ k id, (∃ r ∈ old, r.ev.key = k ∧ r.ev.id = id) ↔ (f.getD .none) k = some id) := by
  cases f with
  | none =>
    have h0 : snap = 0 := hc
    subst h0
    refine ⟨[], by simp, by simp, by simp, by simp, fun k id n => ?_, by simp [St.none]⟩
    simpa using snap_zero h k id n
  | some g =>
    obtain ⟨⟨s, hs, rfl, hroom⟩, hg⟩ := hc
    have hpos := (h.srange s hs).1
    have hat : ∀ k id n, At db s.id k id n ↔
        ∃ r ∈ db.rows.filter (fun r => decide (r.nid ∈ s.nids)), r.ev.key = k ∧ r.ev.id = id ∧ r.nid = n := by
      intro k id n
      simp only [List.mem_filter, decide_eq_true_eq]
      constructor
      · rintro ⟨t, ht, hts, r, hr, hn, hrest⟩
        rw [h.snap_unique ht hs hts] at hn
        exact ⟨r, ⟨hr, hn⟩, hrest⟩
      · rintro ⟨r, ⟨hr, hn⟩, hrest⟩
        exact ⟨s, hs, rfl, r, hr, hn, hrest⟩
    refine ⟨db.rows.filter fun r => decide (r.nid ∈ s.nids), ?_, ?_, stripped_keys h hs, ?_, hat, ?_⟩
    · rw [if_pos (by omega)]; exact stripped_spec h hs
    · intro r hr
      simp only [List.mem_filter, decide_eq_true_eq] at hr
      obtain ⟨q, hq, hqn, hqr⟩ := h.exist s hs _ hr.2
      rw [row_unique h.asc hq hr.1 hqn] at hqr
      exact ⟨hr.1, hqr.trans hroom⟩
    · intro r hr
      simp only [List.mem_filter, decide_eq_true_eq] at hr
      exact ⟨s, hs, hr.2⟩
    · intro k id
      rw [show ((some g : Option St).getD St.none) = g from rfl, ← hg k id]
      constructor
      · rintro ⟨r, hr, hk, hid⟩; exact ⟨r.nid, (hat _ _ _).2 ⟨r, hr, hk, hid, rfl⟩⟩
      · rintro ⟨n, hn⟩; obtain ⟨r, hr, hk, hid, _⟩ := (hat _ _ _).1 hn; exact ⟨r, hr, hk, hid⟩

/-- One turn of the loop of `Accumulate`. -/
theorem accStep_spec {db : DB} {room : String} {snap : Nat} {f : Option St} {bef : String → Option (Option St)} {ev : Row} {pend : List Row}
    (h : Loop db room snap f bef (ev :: pend)) :
    ∃ db' snap', accStep (db, snap) ev = some (db', snap') ∧
      Loop db' room snap' (after f ev.ev) (setBefore bef ev.ev.id f) pend ∧ Ext db db' ∧
      db'.rows.map Row.core = db.rows.map Row.core ∧ db'.cur = db.cur ∧ db'.latest = db.latest := by
  obtain ⟨hI, hcur, hbef, hpend, hfresh, hasc, hinit⟩ := h
  obtain ⟨hev, hroom, hst⟩ := hpend ev (by simp)
  rw [List.pairwise_cons] at hasc
  have hevp : ev ∉ pend := fun hm => by have := hasc.1 ev hm; omega
  -- everything but the new snapshot is the same in both cases
  have common : ∀ (db1 : DB) (snap' rep : Nat), Inv db1 → Ext db db1 → db1.rows = db.rows → 
      Cur db1 room snap' (after f ev.ev) →
      (∀ r ∈ pend, ∀ s ∈ db1.snaps, r.nid ∉ s.nids) →
      RepOk db { ev with before := snap, replaces := rep } →
      Loop (updateBefore db1 ev.nid snap rep) room snap' (after f ev.ev) (setBefore bef ev.ev.id f) pend := by
    intro db1 snap' rep hI1 hE1 hrows hcur1 hfr hrep
    obtain ⟨hI2, hE2⟩ := updateBefore_spec hI1 ev.nid snap rep
    have hE := hE1.trans hE2
    refine ⟨hI2, hcur1.mono hI1 hE2, ?_, ?_, hfr, hasc.2, ?_⟩
    · intro r hr hrp hrs
      simp only [updateBefore, hrows, List.mem_map] at hr
      obtain ⟨q, hq, hqr⟩ := hr
      by_cases hqn : q.nid = ev.nid
      · rw [if_pos hqn] at hqr
        have hqe := row_unique hI.asc hq hev hqn
        subst hqe; subst hqr
        refine ⟨f, by simp [setBefore], ?_, hrep.mono hI hE (hcur.le hI)⟩
        show Cur _ q.room snap f
        rw [hroom]; exact hcur.mono hI hE
      · rw [if_neg hqn] at hqr
        subst hqr
        have hne : q.ev.id ≠ ev.ev.id := fun he => hqn (by rw [hI.id_unique hq hev he])
        obtain ⟨o, ho, hco, hro⟩ := hbef q hq (fun hm => by
          rcases List.mem_cons.1 hm with rfl | hm
          · exact hqn rfl
          · exact hrp hm) hrs
        exact ⟨o, by simp [setBefore, hne, ho], hco.mono hI hE, hro.mono hI hE (hco.le hI)⟩
    · intro r hr
      obtain ⟨h1, h2, h3⟩ := hpend r (by simp [hr])
      refine ⟨?_, h2, h3⟩
      simp only [updateBefore, hrows, List.mem_map]
      exact ⟨r, h1, by rw [if_neg]; have := hasc.1 r hr; omega⟩
    · intro r hr hrs
      simp only [updateBefore, hrows, List.mem_map] at hr
      obtain ⟨q, hq, hqr⟩ := hr
      by_cases hqn : q.nid = ev.nid
      · rw [if_pos hqn] at hqr
        have hqe := row_unique hI.asc hq hev hqn
        subst hqe; subst hqr
        simp only [hst] at hrs; cases hrs
      · rw [if_neg hqn] at hqr
        subst hqr
        exact hinit q hq hrs
  unfold accStep
  by_cases hk : ev.ev.hasKey = true
  · obtain ⟨old, ho, hor, hok, hos, hoat, hof⟩ := hcur.rows hI
    obtain ⟨l, rep, hroll, hl, hlk, hrep⟩ := roll_spec old ev (hI.clean ev hev) (fun e he => hI.clean e (hor e he).1) hok
      (fun e he hne => by obtain ⟨s, hs, hn⟩ := hos e he; exact hfresh ev (by simp) s hs (hne ▸ hn))
    have hlr : ∀ r ∈ l, r ∈ db.rows ∧ r.room = ev.room := by
      intro r hr
      rcases (hl r).1 hr with rfl | ⟨hr, _⟩
      · exact ⟨hev, rfl⟩
      · rw [hroom]; exact hor r hr
    obtain ⟨hI1, hE1, hrows1, hid1, ⟨s1, hs1, hs1i, hs1r⟩, hsn1, hat1⟩ := insertSnap_spec hI ev.room l hlr hlk
    simp only [hk, if_true, ho, hroll]
    refine ⟨_, _, rfl, ?_, hE1.trans (updateBefore_spec hI1 _ _ _).2, ?_, rfl, rfl⟩
    · rw [hid1]
      apply common _ _ _ hI1 hE1 hrows1
      · simp only [after, hk, if_true]
        refine ⟨⟨s1, hs1, hs1i, hs1r.trans hroom⟩, fun k id => ?_⟩
        simp only [hat1, hl]
        have hofk := hof k id
        constructor
        · rintro ⟨n, r, hr, hrk, hri, hrn⟩
          rcases hr with rfl | ⟨hr, hne⟩
          · simp [St.apply, ← hrk, hri]
          · have : ¬ k = ev.ev.key := fun he => hne (hrk.trans he)
            simp only [St.apply, this, if_false]
            exact hofk.1 ⟨r, hr, hrk, hri⟩
        · intro hf
          by_cases hke : k = ev.ev.key
          · simp only [St.apply, hke, if_true, Option.some.injEq] at hf
            exact ⟨ev.nid, ev, Or.inl rfl, hke.symm, hf, rfl⟩
          · simp only [St.apply, hke, if_false] at hf
            obtain ⟨r, hr, hrk, hri⟩ := hofk.2 hf
            exact ⟨r.nid, r, Or.inr ⟨hr, fun he => hke (hrk.symm.trans he)⟩, hrk, hri, rfl⟩
      · intro r hr s hs hn
        rcases hsn1 s hs with hs | hs
        · exact hfresh r (by simp [hr]) s hs hn
        · obtain ⟨q, hq, hqn⟩ := (hs _).1 hn
          rcases (hl q).1 hq with rfl | ⟨hq, _⟩
          · have := hasc.1 r hr; omega
          · obtain ⟨t, ht, htn⟩ := hos q hq
            exact hfresh r (by simp [hr]) t ht (hqn ▸ htn)
      · simp only [RepOk, hk, if_true, hoat]
        rcases hrep with ⟨h0, hno⟩ | ⟨e, he, hek, hen⟩
        · exact Or.inl ⟨h0, fun id n hx => by obtain ⟨r, hr, hrk, _⟩ := hx; exact hno r hr hrk⟩
        · exact Or.inr ⟨e.ev.id, e, he, hek, rfl, hen.symm⟩
    · rw [updateBefore_core, hrows1]
  · simp only [hk, Bool.false_eq_true, if_false]
    refine ⟨_, _, rfl, ?_, (updateBefore_spec hI _ _ _).2, updateBefore_core _ _ _ _, rfl, rfl⟩
    apply common _ _ _ hI (Ext.refl db) rfl
    · simp only [after, hk, Bool.false_eq_true, if_false]; exact hcur
    · exact fun r hr => hfresh r (by simp [hr])
    · simp [RepOk, hk]

theorem accLoop_spec (pend : List Row) : ∀ {db : DB} {room : String} {snap : Nat} {f : Option St} {bef : String → Option (Option St)},
    Loop db room snap f bef pend →
    ∃ db' snap', accLoop (db, snap) pend = some (db', snap') ∧
      Loop db' room snap' (specLoop (f, bef) (pend.map (·.ev))).1 (specLoop (f, bef) (pend.map (·.ev))).2 [] ∧ Ext db db' ∧
      db'.rows.map Row.core = db.rows.map Row.core ∧ db'.cur = db.cur ∧ db'.latest = db.latest := by
  induction pend with
  | nil => intro db room snap f bef h; exact ⟨db, snap, rfl, h, Ext.refl db, rfl, rfl, rfl⟩
  | cons ev pend ih =>
    intro db room snap f bef h
    obtain ⟨db1, s1, h1, h2, h3, h4, h5, h6⟩ := accStep_spec h
    obtain ⟨db2, s2, g1, g2, g3, g4, g5, g6⟩ := ih h2
    refine ⟨db2, s2, ?_, g2, h3.trans g3, g4.trans h4, g5.trans h5, g6.trans h6⟩
    simp only [accLoop, h1, Option.bind_some, g1]

end Verif.Store
