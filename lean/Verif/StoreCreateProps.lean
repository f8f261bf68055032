import Verif.StoreProps
/-!
# A room is stored with its create event, or not at all (C145)
-/
namespace Verif.Store

/-- The key of create events. -/
def createKey : Key := ("m.room.create", "")

theorem isCreate_iff (e : Ev) : isCreate e ↔ e.key = createKey := by
  simp [isCreate, Ev.key, createKey]

def Op.roomOf : Op → String
  | .init r _ _ => r
  | .acc r _ _ _ => r

/-- What a homeserver that keeps to the rules sends: every event is of one room (`T` says which), and create events are state events. -/
def HonestOp (T : String → String) (o : Op) : Prop := ∀ e ∈ o.events, T e.id = o.roomOf ∧ (isCreate e → e.hasKey = true)

/-! ## The specification -/

def Good (f : St) : Prop := ∃ id, f createKey = some id

theorem Good.apply {f : St} (h : Good f) (e : Ev) : Good (f.apply e) := by
  obtain ⟨id, h⟩ := h
  unfold Good St.apply
  by_cases hk : createKey = e.key
  · exact ⟨e.id, by rw [if_pos hk]⟩
  · exact ⟨id, by rw [if_neg hk]; exact h⟩

theorem Good.create (f : St) {e : Ev} (h : isCreate e) : Good (f.apply e) :=
  ⟨e.id, by unfold St.apply; rw [if_pos ((isCreate_iff e).1 h).symm]⟩

theorem Good.foldl {f : St} (h : Good f) (es : List Ev) : Good (es.foldl St.apply f) := by
  induction es generalizing f with
  | nil => exact h
  | cons e es ih => exact ih (h.apply e)

theorem Good.foldl_create (f : St) {es : List Ev} {e : Ev} (he : e ∈ es) (h : isCreate e) : Good (es.foldl St.apply f) := by
  induction es generalizing f with
  | nil => cases he
  | cons x es ih =>
    rcases List.mem_cons.1 he with rfl | he
    · exact (Good.create f h).foldl es
    · exact ih _ he

structure SpecInv (T : String → String) (sp : Spec) : Prop where
  cur : ∀ room f, sp.cur room = some f → Good f
  before : ∀ id f, sp.before id = some (some f) → Good f
  known : ∀ id ∈ sp.known, sp.cur (T id) ≠ none

theorem specLoop_good (es : List Ev) : ∀ (f : St) (b : String → Option (Option St)), Good f → (∀ id g, b id = some (some g) → Good g) →
    (∃ g, (specLoop (some f, b) es).1 = some g ∧ Good g) ∧ ∀ id g, (specLoop (some f, b) es).2 id = some (some g) → Good g := by
  induction es with
  | nil => intro f b hf hb; exact ⟨⟨f, rfl, hf⟩, hb⟩
  | cons e es ih =>
    intro f b hf hb
    have hb' : ∀ id g, setBefore b e.id (some f) id = some (some g) → Good g := by
      intro id g h
      unfold setBefore at h
      split at h
      · cases h; exact hf
      · exact hb id g h
    unfold specLoop
    by_cases hk : e.hasKey = true
    · have : after (some f) e = some (f.apply e) := by simp [after, hk]
      simp only [this]
      exact ih _ _ (hf.apply e) hb'
    · have : after (some f) e = some f := by simp [after, hk]
      simp only [this]
      exact ih _ _ hf hb'

theorem specStep_inv {T : String → String} {sp : Spec} (h : SpecInv T sp) (o : Op) (hh : HonestOp T o) : SpecInv T (specStep sp o) := by
  cases o with
  | init room k block =>
    rw [specStep_init sp room k block rfl]
    split
    · rename_i hc
      have good : Good (((block.filterMap id).filter fun e => decide (e.id ∉ sp.known)).foldl St.apply ((sp.cur room).getD .none)) := by
        cases hcur : sp.cur room with
        | some f => exact (h.cur room f hcur).foldl _
        | none =>
          rcases hc.2 with hx | ⟨e, he, hce⟩
          · exact absurd hcur hx
          · refine Good.foldl_create _ (e := e) (List.mem_filter.2 ⟨he, ?_⟩) hce
            have : e.id ∉ sp.known := fun hkn => h.known e.id hkn (by
              have := (hh e he).1
              rw [this]; exact hcur)
            simpa using this
      refine ⟨fun r f hf => ?_, h.before, fun id hid => ?_⟩
      · simp only at hf
        split at hf
        · cases hf; exact good
        · exact h.cur r f hf
      · show (if T id = room then some _ else sp.cur (T id)) ≠ none
        by_cases hr : T id = room
        · rw [if_pos hr]; simp
        · rw [if_neg hr]
          rcases List.mem_append.1 hid with hid | hid
          · exact h.known id hid
          · obtain ⟨e, he, rfl⟩ := List.mem_map.1 hid
            exact absurd (hh e (List.mem_filter.1 he).1).1 hr
    · exact h
  | acc room k l timeline =>
    have hsub : ∀ e ∈ newSuffix sp.known (firsts (timeline.filterMap id)), e ∈ timeline.filterMap id := fun e he =>
      firsts_subset _ e ((newSuffix_suffix _ _).subset he)
    rw [specStep_acc sp room k l timeline rfl]
    generalize newSuffix sp.known (firsts (timeline.filterMap id)) = new at *
    split
    · rename_i hc
      have good : (∃ g, (specLoop (sp.cur room, sp.before) new).1 = some g ∧ Good g) ∧
          ∀ id g, (specLoop (sp.cur room, sp.before) new).2 id = some (some g) → Good g := by
        cases hcur : sp.cur room with
        | some f => exact specLoop_good new f sp.before (h.cur room f hcur) h.before
        | none =>
          rcases hc.2 with hx | ⟨e, he, hce⟩
          · exact absurd hcur hx
          · cases new with
            | nil => cases he
            | cons x xs =>
              have : e = x := by simpa using he
              subst this
              have hk := (hh e (hsub e (by simp))).2 hce
              have ha : after none e = some (St.none.apply e) := by simp [after, hk]
              unfold specLoop
              simp only [ha]
              refine specLoop_good xs _ _ (Good.create _ hce) fun id g hg => ?_
              unfold setBefore at hg
              split at hg
              · cases hg
              · exact h.before id g hg
      refine ⟨fun r f hf => ?_, good.2, fun id hid => ?_⟩
      · simp only at hf
        split at hf
        · obtain ⟨g, hg, hgg⟩ := good.1
          rw [hg] at hf; cases hf; exact hgg
        · exact h.cur r f hf
      · show (if T id = room then _ else sp.cur (T id)) ≠ none
        by_cases hr : T id = room
        · rw [if_pos hr]
          obtain ⟨g, hg, _⟩ := good.1
          rw [hg]; simp
        · rw [if_neg hr]
          rcases List.mem_append.1 hid with hid | hid
          · exact h.known id hid
          · obtain ⟨e, he, rfl⟩ := List.mem_map.1 hid
            exact absurd (hh e (hsub e he)).1 hr
    · exact h

theorem specRun_inv {T : String → String} (ops : List Op) (hh : ∀ o ∈ ops, HonestOp T o) : SpecInv T (specRun ops) := by
  induction ops using Verif.Util.snocRec with
  | nil => exact ⟨fun _ _ h => (by cases h), fun _ _ h => (by cases h), fun _ h => (by cases h)⟩
  | append_singleton l a ih =>
    simp only [specRun, List.foldl_append, List.foldl_cons, List.foldl_nil]
    exact specStep_inv (ih fun o ho => hh o (by simp [ho])) a (hh a (by simp))

/-! ## The rooms of the rows -/

theorem insertLoop_room (room : String) (st : Bool) (evs : List (Ev × Bool)) : ∀ (rows : List Row) (n : Nat),
    ∀ r ∈ (insertLoop room st rows n evs).1, r ∈ rows ∨ r.room = room ∧ r.ev ∈ evs.map (·.1) := by
  induction evs with
  | nil => intro rows n r h; exact Or.inl h
  | cons e es ih =>
    intro rows n r h
    unfold insertLoop at h
    split at h
    · rcases ih _ _ r h with h | ⟨h1, h2⟩
      · exact Or.inl h
      · exact Or.inr ⟨h1, by simp only [List.map_cons, List.mem_cons]; exact Or.inr h2⟩
    · rcases ih _ _ r h with h | ⟨h1, h2⟩
      · rcases List.mem_append.1 h with h | h
        · exact Or.inl h
        · rw [List.mem_singleton.1 h]; exact Or.inr ⟨rfl, by simp⟩
      · exact Or.inr ⟨h1, by simp only [List.map_cons, List.mem_cons]; exact Or.inr h2⟩

theorem step_room {T : String → String} {db : DB} (h : ∀ r ∈ db.rows, T r.ev.id = r.room) (o : Op) (hh : HonestOp T o) :
    ∀ r ∈ (step db o).rows, T r.ev.id = r.room := by
  have ins : ∀ (st : Bool) (skip : Nat) (evs : List (Ev × Bool)), (∀ e ∈ evs.map (·.1), e ∈ o.events) →
      ∀ r ∈ (insert db o.roomOf st skip evs).1.rows, T r.ev.id = r.room := by
    intro st skip evs he r hr
    rcases insertLoop_room o.roomOf st evs _ _ r hr with hr | ⟨h1, h2⟩
    · exact h r hr
    · rw [h1]; exact (hh _ (he _ h2)).1
  cases o with
  | init room skip block =>
    rcases init_rows db room skip block with e | ⟨e, _⟩
    · rw [e]; exact h
    · rw [e]
      refine ins true skip _ ?_
      intro x hx
      simpa [List.map_map, Function.comp_def, Op.events] using hx
  | acc room skip limited timeline =>
    cases ha : accumulate db room skip limited timeline with
    | none => simp only [step, ha]; exact h
    | some p =>
      obtain ⟨db', post⟩ := p
      have hs : step db (.acc room skip limited timeline) = db' := by simp [step, ha]
      rw [hs]
      rcases acc_rows ha with ⟨e, _⟩ | ⟨tagged, ht, hc, _⟩
      · rw [e]; exact h
      · intro r hr
        have : r.core ∈ (insert db room false skip tagged).1.rows.map Row.core := hc ▸ List.mem_map_of_mem hr
        obtain ⟨q, hq, hqc⟩ := List.mem_map.1 this
        obtain ⟨_, c2, c3, _⟩ := core_eq hqc
        rw [← c2, ← c3]
        refine ins false skip tagged ?_ q hq
        intro x hx
        rw [ht] at hx
        exact (dedup_sublist timeline []).subset ((filterNew_sublist db _).subset hx)

theorem run_room {T : String → String} (ops : List Op) (hh : ∀ o ∈ ops, HonestOp T o) : ∀ r ∈ (run ops).rows, T r.ev.id = r.room := by
  induction ops using Verif.Util.snocRec with
  | nil => intro r h; cases h
  | append_singleton l a ih =>
    simp only [run, List.foldl_append, List.foldl_cons, List.foldl_nil]
    exact step_room (ih fun o ho => hh o (by simp [ho])) a (hh a (by simp))

/-! ## C145 -/

/-- The snapshot has a create event of its room. -/
def HasCreate (db : DB) (s : Snap) : Prop := ∃ r ∈ db.rows, r.nid ∈ s.nids ∧ isCreate r.ev ∧ r.room = s.room

theorem Cur.create {db : DB} (hI : Inv db) {room : String} {sid : Nat} {f : Option St} (hc : Cur db room sid f) (h0 : sid ≠ 0)
    (hg : ∀ g, f = some g → Good g) : ∃ s ∈ db.snaps, s.id = sid ∧ s.room = room ∧ HasCreate db s := by
  cases f with
  | none => exact absurd hc h0
  | some g =>
    obtain ⟨⟨s, hs, hid, hroom⟩, hat⟩ := hc
    obtain ⟨id, hgk⟩ := hg g rfl
    obtain ⟨n, t, ht, hti, r, hr, hn, hk, _, _⟩ := (hat createKey id).2 hgk
    have : t = s := hI.snap_unique ht hs (hti.trans hid.symm)
    subst this
    obtain ⟨q, hq, hqn, hqr⟩ := hI.exist t ht _ hn
    rw [row_unique hI.asc hq hr hqn] at hqr
    exact ⟨t, ht, hid, hroom, r, hr, hn, (isCreate_iff _).2 hk, hqr⟩

/-- **C145.** Whatever is sent, in whatever order, a room that has a current state has its create event in it; -/
theorem C145_current_partial (T : String → String) (ops : List Op) (hok : ∀ o ∈ ops, OkOp o) (hh : ∀ o ∈ ops, HonestOp T o) (room : String)
    (h0 : (run ops).cur room ≠ 0) : ∃ s ∈ (run ops).snaps, s.id = (run ops).cur room ∧ s.room = room ∧ HasCreate (run ops) s :=
  have h := run_spec ops hok
  (h.cur room).create h.inv h0 fun g hg => (specRun_inv ops hh).cur room g hg

/-- so has the state before every event; -/
theorem C145_before_partial (T : String → String) (ops : List Op) (hok : ∀ o ∈ ops, OkOp o) (hh : ∀ o ∈ ops, HonestOp T o) (r : Row)
    (hr : r ∈ (run ops).rows) (h0 : r.before ≠ 0) :
    ∃ s ∈ (run ops).snaps, s.id = r.before ∧ s.room = r.room ∧ HasCreate (run ops) s := by
  have h := run_spec ops hok
  have hst : r.isState = false := by
    cases hs : r.isState with
    | false => rfl
    | true => exact absurd (h.inits r hr hs).1 h0
  obtain ⟨o, ho, hc, _⟩ := h.befs r hr hst
  exact hc.create h.inv h0 fun g hg => (specRun_inv ops hh).before r.ev.id g (by rw [ho, hg])

/-- and no event of a room is stored unless the room has a current state. -/
theorem C145_events_partial (T : String → String) (ops : List Op) (hok : ∀ o ∈ ops, OkOp o) (hh : ∀ o ∈ ops, HonestOp T o) (r : Row)
    (hr : r ∈ (run ops).rows) : (run ops).cur r.room ≠ 0 ∧ ∃ c ∈ (run ops).rows, c.room = r.room ∧ isCreate c.ev := by
  have h := run_spec ops hok
  have hk : (specRun ops).cur r.room ≠ none := by
    have := (specRun_inv ops hh).known r.ev.id ((h.known r.ev.id).2 ⟨r, hr, rfl⟩)
    rw [run_room ops hh r hr] at this
    exact this
  have h0 : (run ops).cur r.room ≠ 0 := fun e => hk (((h.cur r.room).zero h.inv).1 e)
  obtain ⟨s, _, _, hs, c, hc, _, hcc, hcr⟩ := C145_current_partial T ops hok hh r.room h0
  exact ⟨h0, c, hc, hcr.trans hs, hcc⟩

theorem latestEvent_mem {db : DB} {room : String} {pos : Nat} {r : Row} {snap : Nat} (h : latestEvent db room pos = some (some (r, snap))) :
    r ∈ db.rows ∧ snap = if r.before = 0 then db.cur r.room else r.before := by
  unfold latestEvent at h
  split at h
  · cases h
  · dsimp only at h
    split at h
    · split at h <;> cases h
    · rename_i q hq
      simp only [Option.some.injEq, Prod.mk.injEq] at h
      obtain ⟨rfl, rfl⟩ := h
      refine ⟨?_, rfl⟩
      split at hq
      · exact (List.mem_filter.1 (List.mem_of_getLast? hq)).1
      · exact List.mem_of_find?_eq_some hq

/-- The state that is served for a room, at any position, has the create event, if there is a state at all. -/
theorem C145_served_partial (T : String → String) (ops : List Op) (hok : ∀ o ∈ ops, OkOp o) (hh : ∀ o ∈ ops, HonestOp T o) (room : String)
    (pos : Nat) (l : List Row) (h : stateAfter (run ops) room pos = some l) : l = [] ∨ ∃ r ∈ l, isCreate r.ev := by
  have hrel := run_spec ops hok
  have hI := hrel.inv
  unfold stateAfter at h
  split at h
  · cases h
  · cases h; exact Or.inl rfl
  · rename_i ev snap hle
    obtain ⟨hev, hsnap⟩ := latestEvent_mem hle
    split at h
    · cases h
    · rename_i s hsel
      right
      have hs0 : snap ≠ 0 ∧ s ∈ (run ops).snaps ∧ s.id = snap := by
        unfold selectSnap at hsel
        split at hsel
        · cases hsel
        · rename_i h0
          exact ⟨h0, List.mem_of_find?_eq_some hsel, by simpa using List.find?_some hsel⟩
      obtain ⟨h0, hs, hid⟩ := hs0
      have hcre : HasCreate (run ops) s := by
        by_cases hb : ev.before = 0
        · rw [if_pos hb] at hsnap
          obtain ⟨t, ht, hti, _, hc⟩ := C145_current_partial T ops hok hh ev.room (hsnap ▸ h0)
          rw [hI.snap_unique hs ht (by rw [hid, hti, hsnap])]
          exact hc
        · rw [if_neg hb] at hsnap
          obtain ⟨t, ht, hti, _, hc⟩ := C145_before_partial T ops hok hh ev hev hb
          rw [hI.snap_unique hs ht (by rw [hid, hti, hsnap])]
          exact hc
      obtain ⟨c, hc, hcn, hcc, _⟩ := hcre
      have sel : ∀ (nids : List Nat), selectByNIDs (run ops) nids = some l → ∀ x ∈ (run ops).rows, x.nid ∈ nids → x ∈ l := by
        intro nids hl x hx hn
        unfold selectByNIDs at hl
        dsimp only at hl
        split at hl
        · cases hl
        · cases hl; exact List.mem_filter.2 ⟨hx, by simpa using hn⟩
      by_cases hk : ev.ev.hasKey = true
      · simp only [hk, if_true] at h
        by_cases hrep : ev.replaces ≠ 0
        · rw [if_pos hrep] at h
          have hst : ev.isState = false := by
            cases hs : ev.isState with
            | false => rfl
            | true => exact absurd (hrel.inits ev hev hs).2 hrep
          by_cases hcr : c.nid = ev.replaces
          · -- the create event is replaced by another
            obtain ⟨o, _, _, hro⟩ := hrel.befs ev hev hst
            rw [RepOk, if_pos hk] at hro
            rcases hro with ⟨hz, _⟩ | ⟨id, t, ht, hti, q, hq, hqn, hqk, _, hqr⟩
            · exact absurd hz hrep
            · have : q = c := row_unique hI.asc hq hc (hqr.trans hcr.symm)
              subst this
              refine ⟨ev, sel _ h ev hev (List.mem_map.2 ⟨q.nid, hcn, by rw [if_pos hcr]⟩), ?_⟩
              rw [isCreate_iff, ← hqk]
              exact (isCreate_iff _).1 hcc
          · exact ⟨c, sel _ h c hc (List.mem_map.2 ⟨c.nid, hcn, by rw [if_neg hcr]⟩), hcc⟩
        · rw [if_neg hrep] at h
          split at h
          · exact ⟨c, sel _ h c hc hcn, hcc⟩
          · exact ⟨c, sel _ h c hc (by simp [hcn]), hcc⟩
      · simp only [hk, Bool.false_eq_true, if_false] at h
        exact ⟨c, sel _ h c hc hcn, hcc⟩

/-! ## Examples and violations -/

def exName2 : Ev := { id := "$n", type := "m.room.name", hasKey := true }

/-- A stray event of a rejected invite, the room, and a message. -/
def exRoom : List Op :=
  [.acc "!a" 0 false [some { id := "$stray", type := "m.room.member", stateKey := "@u", hasKey := true }],
   .init "!a" 0 [some exCreate, some exName2],
   .acc "!a" 0 true [some (exMsg "$m")]]

example : (∀ o ∈ exRoom, HonestOp (fun _ => "!a") o) ∧ (run exRoom).cur "!a" ≠ 0 ∧ (run exRoom).rows.map (·.ev.id) = ["$c", "$n", "$m"] ∧
    (stateAfter (run exRoom) "!a" 9).map (·.map (·.ev.id)) = some ["$c", "$n"] := by
  refine ⟨?_, by decide +kernel⟩
  intro o ho e he
  have : o = exRoom[0] ∨ o = exRoom[1] ∨ o = exRoom[2] := by simpa [exRoom] using ho
  rcases this with rfl | rfl | rfl <;> simp [exRoom, Op.events, Op.roomOf, exCreate, exName2, exMsg] at he ⊢
  · subst he; simp [isCreate]
  · rcases he with rfl | rfl <;> simp
  · subst he; simp [isCreate]

example : ∀ o ∈ exRoom, OkOp o := by
  intro o ho
  have : o = exRoom[0] ∨ o = exRoom[1] ∨ o = exRoom[2] := by simpa [exRoom] using ho
  rcases this with rfl | rfl | rfl <;> simp [exRoom, OkOp, exCreate, exName2, exMsg, Clean] <;> decide

/-- A homeserver that says of a create event it is of two rooms: the second room is stored, and served, without a create event, as the check is
on the state block, but the state is made of the new events only. -/
theorem C145_violated_foreign :
    let db := run [.init "!a" 0 [some exCreate], .init "!b" 0 [some exCreate, some exName2]]
    db.cur "!b" ≠ 0 ∧ (stateAfter db "!b" 9).map (·.map (·.ev)) = some [exName2] ∧ ¬ isCreate exName2 := by
  decide +kernel

/-- A create event without state key at the start of a timeline: the room has events but no state, and when the state comes with that event
and no other it is ignored ("no idea how this should be handled"). -/
theorem C145_violated_keyless :
    let c : Ev := { id := "$c", type := "m.room.create" }
    let db := run [.acc "!a" 0 false [some c, some (exMsg "$m")], .init "!a" 0 [some c]]
    db.rows.map (·.ev.id) = ["$c", "$m"] ∧ db.cur "!a" = 0 ∧ db.latest "!a" = 2 := by
  decide +kernel

end Verif.Store
