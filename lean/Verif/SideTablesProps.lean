import Verif.SideTables
/-!
# C73: the space relations agree with the current state of the rooms
-/
namespace Verif.SideTables

open Verif Verif.Store

/-! ## Specification -/

/-- The state event a relation comes from: its room, type and state key. -/
def place (tr : Spaces.Triple) : Option (String × Key) :=
  if tr.2.2 = 2 then some (tr.1, ("m.space.child", tr.2.1))
  else if tr.2.2 = 1 then some (tr.2.1, ("m.space.parent", tr.1))
  else none

/-- The event of this type and state key in the current state of the room, by what the database returns. -/
def Current (db : DB) (room : String) (k : Key) (id : String) : Prop :=
  ∃ rows, stripped db (db.cur room) = some rows ∧ ∃ r ∈ rows, r.ev.key = k ∧ r.ev.id = id

/-- The relation is stored if and only if the current state of the room has an event for it with a via list. -/
def Agree (c : String → Content) (s : State) : Prop :=
  ∀ tr room k, place tr = some (room, k) →
    ((∃ v, Assoc.get s.spaces tr = some v) ↔ ∃ id, Current s.db room k id ∧ (c id).via = true)

def spaceType (t : String) : Prop := t = "m.space.child" ∨ t = "m.space.parent"
instance (t : String) : Decidable (spaceType t) := inferInstanceAs (Decidable (_ ∨ _))

/-- A state block is harmless if its space events have state keys, and each of them is unknown, or is the one in the
current state and the only one of the block with its type and state key. -/
def Harmless (sp : Spec) : Op → Prop
  | .init room _ block => ∀ e ∈ block.filterMap id, spaceType e.type → e.hasKey = true ∧
      (e.id ∉ sp.known ∨ ((sp.cur room).getD St.none e.key = some e.id ∧ ∀ x ∈ block.filterMap id, x.key = e.key → x = e))
  | .acc _ _ _ _ => True

/-- All state blocks of a history are harmless. -/
def AllHarmless (ops : List Op) : Prop := ∀ a op b, ops = a ++ op :: b → Harmless (specRun a) op

/-! ## Lemmas -/

def lastKey (k : Key) (l : List Ev) : Option Ev := l.reverse.find? fun e => e.hasKey && decide (e.key = k)

theorem lastKey_snoc (k : Key) (l : List Ev) (e : Ev) :
    lastKey k (l ++ [e]) = if e.hasKey = true ∧ e.key = k then some e else lastKey k l := by
  simp only [lastKey, List.reverse_append, List.reverse_cons, List.reverse_nil, List.nil_append, List.singleton_append, List.find?_cons]
  by_cases h1 : e.hasKey = true <;> by_cases h2 : e.key = k <;> simp [h1, h2]

theorem specLoop_append (p : Option St × (String → Option (Option St))) (a b : List Ev) :
    specLoop p (a ++ b) = specLoop (specLoop p a) b := by
  induction a generalizing p with
  | nil => rfl
  | cons e a ih => simp only [List.cons_append, specLoop]; exact ih _

theorem specLoop_last (f : Option St) (b : String → Option (Option St)) (l : List Ev) (k : Key) :
    (specLoop (f, b) l).1.getD St.none k = match lastKey k l with
      | some e => some e.id
      | none => f.getD St.none k := by
  induction l using Verif.Util.snocRec with
  | nil => rfl
  | append_singleton l e ih =>
    rw [specLoop_append, lastKey_snoc]
    simp only [specLoop, after]
    by_cases h1 : e.hasKey = true
    · by_cases h2 : e.key = k
      · simp [h1, h2, St.apply]
      · have : ¬ k = e.key := fun h => h2 h.symm
        simp only [h1, if_true, Option.getD_some, St.apply, this, if_false, h2, and_false]
        exact ih
    · simp only [h1, Bool.false_eq_true, if_false, false_and]
      exact ih

theorem about_toEv (c : String → Content) (room : String) (e : Ev) (tr : Spaces.Triple) :
    Spaces.About (toEv c room e) tr ↔ e.hasKey = true ∧ place tr = some (room, e.key) := by
  obtain ⟨p, ch, n⟩ := tr
  simp only [Spaces.About, toEv, place, Ev.key]
  by_cases hk : e.hasKey = true
  · simp only [hk, if_true, Option.some.injEq, true_and]
    constructor
    · rintro (⟨h1, h2, h3, h4⟩ | ⟨h1, h2, h3, h4⟩)
      · simp [h1, h2, h3, h4]
      · simp [h1, h2, h3, h4]
    · intro h
      by_cases h2 : n = 2
      · simp only [h2, if_true, Option.some.injEq, Prod.mk.injEq] at h
        exact Or.inl ⟨h.2.1.symm, h.1.symm, h.2.2.symm, h2⟩
      · by_cases h1 : n = 1
        · simp only [h1, if_true, if_neg (show ¬ (1 : Nat) = 2 by decide), Option.some.injEq, Prod.mk.injEq] at h
          exact Or.inr ⟨h.2.1.symm, h.2.2.symm, h.1.symm, h1⟩
        · simp [h1, h2] at h
  · simp [hk]

theorem lastAbout_toEv (c : String → Content) (room : String) (l : List Ev) {tr : Spaces.Triple} {k : Key} (hp : place tr = some (room, k)) :
    Spaces.lastAbout tr (l.map (toEv c room)) = (lastKey k l).map (toEv c room) := by
  induction l using Verif.Util.snocRec with
  | nil => rfl
  | append_singleton l e ih =>
    rw [List.map_append, List.map_singleton, Spaces.lastAbout_snoc, lastKey_snoc, ih]
    have := about_toEv c room e tr
    rw [hp] at this
    by_cases h : Spaces.About (toEv c room e) tr
    · obtain ⟨h1, h2⟩ := this.1 h
      simp only [Option.some.injEq, Prod.mk.injEq, true_and] at h2
      rw [if_pos h, if_pos ⟨h1, h2.symm⟩]; rfl
    · rw [if_neg h, if_neg]
      rintro ⟨h1, h2⟩
      exact h (this.2 ⟨h1, by rw [h2]⟩)

theorem lastAbout_other (c : String → Content) (room : String) (l : List Ev) {tr : Spaces.Triple} (hp : ∀ k, place tr ≠ some (room, k)) :
    Spaces.lastAbout tr (l.map (toEv c room)) = none := by
  induction l using Verif.Util.snocRec with
  | nil => rfl
  | append_singleton l e ih =>
    rw [List.map_append, List.map_singleton, Spaces.lastAbout_snoc, if_neg, ih]
    intro h
    exact hp _ ((about_toEv c room e tr).1 h).2

/-- What the spaces table should have under a key given the current states. -/
def wantAt (c : String → Content) (tr : Spaces.Triple) (o : Option String) : Option (String × Bool) :=
  match o with
  | none => none
  | some id => if (c id).via then some (if tr.2.2 = 2 then ((c id).ordering, (c id).suggested) else ("", false)) else none

def want (c : String → Content) (cur : String → Option St) (tr : Spaces.Triple) : Option (String × Bool) :=
  match place tr with
  | none => none
  | some (room, k) => wantAt c tr ((cur room).getD St.none k)

theorem stored_toEv {c : String → Content} {room : String} {e : Ev} {tr : Spaces.Triple} (h1 : e.hasKey = true)
    (h : place tr = some (room, e.key)) :
    (if (toEv c room e).via = true then some (Spaces.stored (toEv c room e)) else none) = wantAt c tr (some e.id) := by
  simp only [wantAt, toEv, Spaces.stored]
  obtain ⟨p, ch, n⟩ := tr
  simp only [place, Ev.key] at h ⊢
  by_cases h2 : n = 2
  · simp only [h2, if_true, Option.some.injEq, Prod.mk.injEq] at h
    simp [h2, ← h.2.1]
  · by_cases hn : n = 1
    · simp only [hn, if_true, if_neg (show ¬ (1 : Nat) = 2 by decide), Option.some.injEq, Prod.mk.injEq] at h
      simp [hn, ← h.2.1]
    · simp [hn, h2] at h

theorem lastKey_some {k : Key} {l : List Ev} {e : Ev} (h : lastKey k l = some e) : e ∈ l ∧ e.hasKey = true ∧ e.key = k := by
  have h1 := List.find?_some h
  have h2 := List.mem_of_find?_eq_some h
  simp only [Bool.and_eq_true, decide_eq_true_eq] at h1
  exact ⟨List.mem_reverse.1 h2, h1⟩

/-- One call of `HandleSpaceUpdates` in terms of the states before and after. -/
theorem handle_want {c : String → Content} {t : Spaces.Table} {room : String} {evs : List Ev} {res : Option Spaces.Table}
    {cur cur' : String → Option St} (h : Spaces.Handle t (evs.map (toEv c room)) res)
    (ht : ∀ tr, Assoc.get t tr = want c cur tr)
    (hother : ∀ r, r ≠ room → cur' r = cur r)
    (hroom : ∀ k, spaceType k.1 → (cur' room).getD St.none k = match lastKey k evs with
      | some e => some e.id
      | none => (cur room).getD St.none k) :
    ∃ t', res = some t' ∧ ∀ tr, Assoc.get t' tr = want c cur' tr := by
  obtain ⟨t', rfl, hg⟩ := Spaces.handle_spec (room := room) (by
    intro e he
    obtain ⟨x, _, rfl⟩ := List.mem_map.1 he
    rfl) h
  refine ⟨t', rfl, fun tr => ?_⟩
  rw [hg tr]
  cases hp : place tr with
  | none =>
    rw [lastAbout_other c room evs (fun k hk => by rw [hp] at hk; cases hk)]
    simp only [ht, want, hp]
  | some p =>
    obtain ⟨r, k⟩ := p
    by_cases hr : r = room
    · subst hr
      have hst : spaceType k.1 := by
        unfold place at hp
        split at hp
        · cases hp; exact Or.inl rfl
        · split at hp
          · cases hp; exact Or.inr rfl
          · cases hp
      rw [lastAbout_toEv c r evs hp]
      simp only [want, hp, hroom k hst]
      cases hl : lastKey k evs with
      | none => simp only [Option.map_none, ht, want, hp]
      | some e =>
        obtain ⟨_, h1, h2⟩ := lastKey_some hl
        simp only [Option.map_some]
        exact stored_toEv h1 (by rw [h2]; exact hp)
    · rw [lastAbout_other c room evs (fun k' hk => by rw [hp] at hk; cases hk; exact hr rfl)]
      simp only [ht, want, hp, hother r hr]

open Classical in
theorem init_cond {db : DB} {sp : Spec} (h : Store.Rel db sp) (room : String) (k : Nat) (block : List (Option Ev)) (hok : OkOp (.init room k block)) :
    let N := (block.filterMap id).filter fun e => decide (e.id ∉ sp.known)
    ((step db (.init room k block)).rows.length = db.rows.length ∧ specStep sp (.init room k block) = sp) ∨
    ((step db (.init room k block)).rows.length ≠ db.rows.length ∧ specStep sp (.init room k block) =
      { sp with
        known := sp.known ++ N.map (·.id)
        cur := fun r => if r = room then some (N.foldl St.apply ((sp.cur room).getD St.none)) else sp.cur r }) := by
  intro N
  obtain ⟨hrel, _, new, hrows, hnew, hcase, _⟩ := initialise_spec h room k block hok
  have hlen : (step db (.init room k block)).rows.length = db.rows.length + new.length := by
    have := congrArg List.length hrows
    simpa using this
  have hs := specStep_init sp room k block (new := N) rfl
  have hids := hrel.inv.ids
  by_cases hc : N ≠ [] ∧ canStart (sp.cur room) (block.filterMap id)
  · right
    rw [if_pos hc] at hs
    refine ⟨?_, hs⟩
    intro hl
    have hn0 : new = [] := List.length_eq_zero_iff.1 (by omega)
    obtain ⟨e, N', hN'⟩ := List.exists_cons_of_ne_nil hc.1
    have heN : e ∈ N := hN' ▸ by simp
    have hk : e.id ∈ (specStep sp (.init room k block)).known := by
      rw [hs]; exact List.mem_append_right _ (List.mem_map_of_mem heN)
    obtain ⟨r, hr, hre⟩ := (hrel.known e.id).1 hk
    rw [hn0, List.map_nil, List.append_nil] at hrows
    have hm : r.core ∈ db.rows.map Row.core := hrows ▸ List.mem_map_of_mem hr
    obtain ⟨q, hq, hqc⟩ := List.mem_map.1 hm
    have : e.id ∈ sp.known := (h.known _).2 ⟨q, hq, by rw [(core_eq hqc).2.2.1]; exact hre⟩
    have hnk := (List.mem_filter.1 heN).2
    simp only [decide_eq_true_eq] at hnk
    exact hnk this
  · left
    rw [if_neg hc] at hs
    refine ⟨?_, hs⟩
    cases hnn : new with
    | nil => rw [hlen, hnn]; simp
    | cons r rs =>
      exfalso
      have hr : r.core ∈ (step db (.init room k block)).rows.map Row.core := by
        rw [hrows, hnn]; simp
      obtain ⟨q, hq, hqc⟩ := List.mem_map.1 hr
      have hk : q.ev.id ∈ (specStep sp (.init room k block)).known := (hrel.known _).2 ⟨q, hq, rfl⟩
      rw [hs] at hk
      obtain ⟨p, hp, hpe⟩ := (h.known _).1 hk
      have hcore : (step db (.init room k block)).rows.map (·.ev.id) = db.rows.map (·.ev.id) ++ new.map (·.ev.id) := by
        have hc' : ∀ l : List Row, l.map (·.ev.id) = (l.map Row.core).map (fun c => c.2.2.1.id) := by
          intro l; simp [List.map_map, Function.comp_def, Row.core]
        rw [hc', hc' db.rows, hc' new, ← List.map_append, hrows]
      rw [hcore] at hids
      refine (List.nodup_append.1 hids).2.2 _ (List.mem_map_of_mem (f := fun r : Row => r.ev.id) hp) _
        (List.mem_map_of_mem (f := fun r : Row => r.ev.id) (show r ∈ new by rw [hnn]; simp)) ?_
      rw [hpe, (core_eq hqc).2.2.1]

theorem foldl_apply_last (l : List Ev) (F : St) (k : Key) (hk : ∀ e ∈ l, e.key = k → e.hasKey = true) :
    l.foldl St.apply F k = match lastKey k l with
      | some e => some e.id
      | none => F k := by
  induction l using Verif.Util.snocRec with
  | nil => rfl
  | append_singleton l e ih =>
    rw [List.foldl_append, lastKey_snoc]
    simp only [List.foldl_cons, List.foldl_nil, St.apply]
    by_cases h : e.key = k
    · rw [if_pos h.symm, if_pos ⟨hk e (by simp) h, h⟩]
    · rw [if_neg (fun hh => h hh.symm), if_neg (fun hh => h hh.2)]
      exact ih fun x hx => hk x (by simp [hx])

theorem lastKey_filter {k : Key} {l : List Ev} {p : Ev → Bool} {e : Ev} (h : lastKey k l = some e) (hp : p e = true) :
    lastKey k (l.filter p) = some e := by
  induction l using Verif.Util.snocRec with
  | nil => simp [lastKey] at h
  | append_singleton l x ih =>
    rw [lastKey_snoc] at h
    rw [List.filter_append]
    by_cases hx : x.hasKey = true ∧ x.key = k
    · rw [if_pos hx] at h
      cases h
      rw [List.filter_cons, if_pos hp, List.filter_nil, lastKey_snoc, if_pos hx]
    · rw [if_neg hx] at h
      rw [List.filter_cons, List.filter_nil]
      split
      · rw [lastKey_snoc, if_neg hx]; exact ih h
      · rw [List.append_nil]; exact ih h

theorem lastKey_none {k : Key} {l : List Ev} : lastKey k l = none ↔ ∀ e ∈ l, e.hasKey = true → e.key ≠ k := by
  simp [lastKey, List.find?_eq_none]

/-- The invariant: the tables are those of the store alone, and the relations are as wanted. -/
structure Good (c : String → Content) (ops : List Op) (s : State) : Prop where
  db : s.db = Store.run ops
  want : ∀ tr, Assoc.get s.spaces tr = want c (specRun ops).cur tr

theorem specRun_snoc (ops : List Op) (op : Op) : specRun (ops ++ [op]) = specStep (specRun ops) op := by
  unfold specRun; rw [List.foldl_append]; rfl

theorem run_snoc (ops : List Op) (op : Op) : Store.run (ops ++ [op]) = step (Store.run ops) op := by
  unfold Store.run; rw [List.foldl_append]; rfl

theorem next_good {c : String → Content} {ops : List Op} {s s' : State} {op : Op} (hrel : Store.Rel (Store.run ops) (specRun ops))
    (hg : Good c ops s) (hok : OkOp op) (hh : Harmless (specRun ops) op) (hn : Next c s op s') : Good c (ops ++ [op]) s' := by
  obtain ⟨db, t⟩ := s
  obtain ⟨hdb, hw⟩ := hg
  simp only at hdb hw
  subst hdb
  generalize hsp : specRun ops = sp at *
  generalize hD : Store.run ops = db at *
  constructor
  · rw [run_snoc, hD]
    cases op with
    | acc room k l timeline =>
      simp only [Next] at hn
      simp only [step]
      cases ha : accumulate db room k l timeline with
      | none => rw [ha] at hn; simp only at hn; rw [hn]; rfl
      | some p =>
        obtain ⟨db', post⟩ := p
        rw [ha] at hn
        simp only at hn
        obtain ⟨res, hres, rfl⟩ := hn
        have := Spaces.C58_no_error t room _ (by
          intro e he
          obtain ⟨x, _, rfl⟩ := List.mem_map.1 he
          rfl) res hres
        cases res with
        | none => exact absurd rfl this
        | some t' => rfl
    | init room k block =>
      simp only [Next] at hn
      simp only [step]
      cases ha : initialise db room k block with
      | none => rw [ha] at hn; simp only at hn; rw [hn]; rfl
      | some db' =>
        rw [ha] at hn
        simp only at hn
        split at hn
        · rw [hn]; rfl
        · obtain ⟨res, hres, rfl⟩ := hn
          have := Spaces.C58_no_error t room _ (by
            intro e he
            obtain ⟨x, _, rfl⟩ := List.mem_map.1 he
            rfl) res hres
          cases res with
          | none => exact absurd rfl this
          | some t' => rfl
  · rw [specRun_snoc, hsp]
    cases op with
    | acc room k l timeline =>
      simp only [Next] at hn
      obtain ⟨db', post, ha, _, _, _, _, hcase⟩ := accumulate_spec hrel room k l timeline hok
      rw [ha] at hn
      simp only at hn
      obtain ⟨res, hres, rfl⟩ := hn
      rw [show (post.map fun r => toEv c room r.ev) = (post.map (·.ev)).map (toEv c room) by simp [List.map_map, Function.comp_def]] at hres
      rcases hcase with ⟨rfl, hs⟩ | ⟨hpost, hne, hcs⟩
      · obtain ⟨t', rfl, hg⟩ := handle_want (cur' := sp.cur) hres hw (fun _ _ => rfl) (fun _ _ => rfl)
        rw [hs]; exact hg
      · have hs := specStep_acc sp room k l timeline hpost.symm
        rw [if_pos ⟨by simpa using hne, hcs⟩] at hs
        obtain ⟨t', rfl, hg⟩ := handle_want (cur' := (specStep sp (.acc room k l timeline)).cur) hres hw
          (fun r hr => by rw [hs]; simp [hr])
          (fun k' _ => by rw [hs]; simp only [if_true]; exact specLoop_last _ _ _ _)
        exact hg
    | init room k block =>
      simp only [Next] at hn
      have hcond := init_cond hrel room k block hok
      simp only at hcond
      have hstep : step db (.init room k block) = (initialise db room k block).getD db := rfl
      rcases hcond with ⟨hlen, hs⟩ | ⟨hlen, hs⟩
      · rw [hs]
        cases ha : initialise db room k block with
        | none => rw [ha] at hn; simp only at hn; rw [hn]; exact hw
        | some db' =>
          rw [ha] at hn
          simp only at hn
          rw [hstep, ha, Option.getD_some] at hlen
          rw [if_pos hlen] at hn
          rw [hn]; exact hw
      · cases ha : initialise db room k block with
        | none => rw [hstep, ha] at hlen; exact absurd rfl hlen
        | some db' =>
          rw [ha] at hn
          simp only at hn
          rw [hstep, ha, Option.getD_some] at hlen
          rw [if_neg hlen] at hn
          obtain ⟨res, hres, rfl⟩ := hn
          obtain ⟨t', rfl, hg⟩ := handle_want (cur' := (specStep sp (.init room k block)).cur) hres hw
            (fun r hr => by rw [hs]; simp [hr])
            (fun k' hst => by
              rw [hs]; simp only [if_true, Option.getD_some]
              have hkey : ∀ e ∈ block.filterMap id, e.key = k' → spaceType e.type := by
                intro e _ he; rw [← he] at hst; exact hst
              rw [foldl_apply_last _ _ _ (fun e he hek => (hh e ((List.mem_filter.1 he).1) (hkey e ((List.mem_filter.1 he).1) hek)).1)]
              cases hl : lastKey k' (block.filterMap id) with
              | none =>
                have : lastKey k' ((block.filterMap id).filter fun e => decide (e.id ∉ sp.known)) = none :=
                  lastKey_none.2 fun e he => lastKey_none.1 hl e ((List.mem_filter.1 he).1)
                rw [this]
              | some e =>
                obtain ⟨hm, h1, h2⟩ := lastKey_some hl
                obtain ⟨_, hu | ⟨hc, honly⟩⟩ := hh e hm (hkey e hm h2)
                · rw [lastKey_filter (p := fun e => decide (e.id ∉ sp.known)) hl (by simpa using hu)]
                · by_cases hu : e.id ∈ sp.known
                  · have : lastKey k' ((block.filterMap id).filter fun e => decide (e.id ∉ sp.known)) = none := by
                      refine lastKey_none.2 fun x hx _ hxk => ?_
                      obtain ⟨hxm, hxu⟩ := List.mem_filter.1 hx
                      have := honly x hxm (hxk.trans h2.symm)
                      subst this
                      simp at hxu; exact hxu hu
                    rw [this, ← h2]; exact hc
                  · rw [lastKey_filter (p := fun e => decide (e.id ∉ sp.known)) hl (by simpa using hu)])
          exact hg

theorem run_good {c : String → Content} {ops : List Op} {s : State} (h : Run c ops s) (hok : ∀ o ∈ ops, OkOp o) (hh : AllHarmless ops) :
    Good c ops s := by
  induction h with
  | nil =>
    refine ⟨rfl, fun tr => ?_⟩
    simp only [want, specRun, List.foldl_nil, Assoc.get_nil]
    cases place tr with
    | none => rfl
    | some p => obtain ⟨r, k⟩ := p; rfl
  | @step ops s op s' _ hn ih =>
    refine next_good (run_spec ops fun o ho => hok o (by simp [ho])) (ih (fun o ho => hok o (by simp [ho])) fun a o b he => hh a o (b ++ [op]) (by simp [he]))
      (hok op (by simp)) (hh ops op [] (by simp)) hn

theorem current_iff {db : DB} {sp : Spec} (h : Store.Rel db sp) (room : String) (k : Key) (id : String) :
    Current db room k id ↔ (sp.cur room).getD St.none k = some id := by
  obtain ⟨old, ho, _, _, _, _, hof⟩ := (h.cur room).rows h.inv
  by_cases h0 : db.cur room = 0
  · have hn := ((h.cur room).zero h.inv).1 h0
    rw [hn]
    simp only [Option.getD_none, St.none, reduceCtorEq, iff_false]
    rintro ⟨rows, hr, _⟩
    rw [h0] at hr
    simp [stripped, selectSnap] at hr
  · rw [if_pos h0] at ho
    rw [← hof k id]
    constructor
    · rintro ⟨rows, hr, x⟩; rw [ho] at hr; cases hr; exact x
    · intro x; exact ⟨old, ho, x⟩

/-- **C73, partial.** After any history whose state blocks are harmless (re-sent space events are current ones), and for
any order of the map entries, the stored relations are exactly those of the current states of the rooms.  Missing: state
blocks with out-of-date space events, for which `C73_violated` shows that the claim is false. -/
theorem C73_partial {c : String → Content} {ops : List Op} {s : State} (h : Run c ops s) (hok : ∀ o ∈ ops, OkOp o)
    (hh : AllHarmless ops) : Agree c s := by
  obtain ⟨hdb, hw⟩ := run_good h hok hh
  have hrel := run_spec ops hok
  intro tr room k hp
  rw [hw tr, hdb]
  simp only [want, hp, current_iff hrel]
  cases hid : (((specRun ops).cur room).getD St.none k) with
  | none => simp [wantAt]
  | some id =>
    simp only [wantAt, Option.some.injEq]
    by_cases hv : (c id).via = true
    · simp [hv]
    · simp [hv]

/-! ## Concrete cases -/

def create : Ev := ⟨"$create", "m.room.create", "", true⟩
def add1 : Ev := ⟨"$add", "m.space.child", "!c", true⟩
def rem1 : Ev := ⟨"$rem", "m.space.child", "!c", true⟩
def name1 : Ev := ⟨"$name", "m.room.name", "", true⟩
def con (id : String) : Content := if id = "$add" then ⟨true, "", false⟩ else {}

/-- A child is added, removed, and a slow poller sends the old state block with one unknown event. -/
def bad : List Op :=
  [.init "!s" 0 [some create, some add1], .acc "!s" 0 false [some rem1], .init "!s" 0 [some create, some add1, some name1]]

/-- **C73 is false**: the removed child is in the table again, although the state still has the event removing it. -/
theorem C73_violated : ∃ (c : String → Content) (ops : List Op) (s : State), Run c ops s ∧ (∀ o ∈ ops, OkOp o) ∧ ¬ Agree c s := by
  refine ⟨con, bad, run1 con bad, run1_ok con bad, ?_, ?_⟩
  · intro o ho
    simp only [bad, List.mem_cons, List.not_mem_nil, or_false] at ho
    rcases ho with rfl | rfl | rfl <;> simp [OkOp, Clean, create, add1, rem1, name1]
  · intro h
    obtain ⟨id, ⟨rows, hr, r, hm, hk, hid⟩, hv⟩ := (h ("!s", "!c", 2) "!s" ("m.space.child", "!c") rfl).1
      ⟨("", false), by decide +kernel⟩
    have h1 : (stripped (run1 con bad).db ((run1 con bad).db.cur "!s")).map (fun l => l.map fun r => (r.ev.key, r.ev.id)) =
      some [(("m.room.create", ""), "$create"), (("m.space.child", "!c"), "$rem"), (("m.room.name", ""), "$name")] := by decide +kernel
    rw [hr] at h1
    simp only [Option.map_some, Option.some.injEq] at h1
    have h2 : (r.ev.key, r.ev.id) ∈ rows.map fun r => (r.ev.key, r.ev.id) := List.mem_map_of_mem hm
    rw [h1, hk, hid] at h2
    simp only [List.mem_cons, Prod.mk.injEq, List.not_mem_nil, or_false] at h2
    rcases h2 with h2 | h2 | h2
    · simp at h2
    · rw [h2.2] at hv; revert hv; decide
    · simp at h2

/-- A history with a re-sent state block that meets the hypotheses, and adds a relation. -/
def fine : List Op := [.init "!s" 0 [some create, some add1], .init "!s" 0 [some create, some add1, some name1]]

open Classical in
theorem spec1 : specRun [.init "!s" 0 [some create, some add1]] =
    { known := ["$create", "$add"], cur := fun r => if r = "!s" then some ([create, add1].foldl St.apply St.none) else none } := by
  show specStep {} (.init "!s" 0 [some create, some add1]) = _
  rw [specStep_init {} "!s" 0 [some create, some add1] (new := [create, add1]) (by simp), if_pos]
  · rfl
  · exact ⟨by simp, Or.inr ⟨create, by simp, rfl, rfl⟩⟩

example : (∀ o ∈ fine, OkOp o) ∧ AllHarmless fine ∧ Assoc.get (run1 con fine).spaces ("!s", "!c", 2) = some ("", false) := by
  refine ⟨?_, ?_, by decide +kernel⟩
  · intro o ho
    simp only [fine, List.mem_cons, List.not_mem_nil, or_false] at ho
    rcases ho with rfl | rfl <;> simp [OkOp, Clean, create, add1, name1]
  · intro a op b h
    match a, h with
    | [], h =>
      cases h
      intro e he hs
      simp only [List.filterMap_cons, List.filterMap_nil, id, List.mem_cons, List.not_mem_nil, or_false] at he
      rcases he with rfl | rfl
      · exact absurd hs (by decide)
      · exact ⟨rfl, Or.inl (by simp [specRun])⟩
    | [x], h =>
      cases h
      rw [spec1]
      intro e he hs
      simp only [List.filterMap_cons, List.filterMap_nil, id, List.mem_cons, List.not_mem_nil, or_false] at he
      rcases he with rfl | rfl | rfl
      · exact absurd hs (by decide)
      · refine ⟨rfl, Or.inr ⟨by decide, ?_⟩⟩
        decide
      · exact absurd hs (by decide)
    | x :: y :: a', h =>
      have := congrArg List.length h
      simp [fine] at this

end Verif.SideTables
