import Verif.LostUpdates
/-!
# What a user's cache learns about a room is not lost (C143)

Specification: updates are done one after the other. Each has its effect on the contents of a room at once.
-/
namespace Verif.LostUpdates

/-! ### The specification -/

/-- What is known about a room. -/
structure Content where
  dm : Bool := false
  isInvite : Bool := false
  left : Bool := false
  highlights : Int := 0
  notifs : Int := 0
  invite : Nat := 0
  tags : Nat := 0
  join : Nat := 0
  /-- is it in this space? -/
  within : String → Bool := fun _ => false

/-- The effect of a load and a store on the contents. -/
def effect : Op → Content → Content
  | .counts (some h) (some n), c => { c with highlights := h, notifs := n }
  | .counts (some h) none, c => { c with highlights := h }
  | .counts none (some n), c => { c with notifs := n }
  | .counts none none, c => c
  | .event (some false), c => if c.isInvite then { c with isInvite := false, highlights := 0 } else c
  | .event _, c => c
  | .space p del, c => { c with within := fun q => if q = p then !del else c.within q }
  | .invite i dm, c => { c with isInvite := true, left := false, highlights := 1, dm := dm, invite := i }
  | .left, c => { c with isInvite := false, left := true, invite := 0, highlights := 0 }

abbrev Contents := String → Content

def Contents.at (q : Contents) (r : String) (f : Content → Content) : Contents := fun r' => if r' = r then f (q r) else q r'

/-- The effect of a whole call, at once. -/
def serial (q : Contents) : Call → Contents
  | .counts r h n => q.at r (effect (.counts h n))
  | .event r m none => q.at r (effect (.event m))
  | .event r m (some (c, del)) => (q.at c (effect (.space r del))).at r (effect (.event m))
  | .invite r i dm => q.at r (effect (.invite i dm))
  | .left r => q.at r (effect .left)
  | .tags r t => q.at r fun c => { c with tags := t }
  | .direct rooms => fun r => { q r with dm := rooms.contains r }
  | .registered r children t => (children.foldl (fun q c => q.at c (effect (.space r false))) q).at r fun c => { c with join := t }

/-- A run of steps, with every load and store replaced by one effect when it stores. -/
structure Spec where
  content : Contents := fun _ => {}
  /-- loads that have not stored: goroutine, room and operation -/
  pending : List (Nat × String × Op) := []

def specStep (q : Spec) : Step → Spec
  | .load who r op => { q with pending := (who, r, op) :: q.pending }
  | .store who =>
    match q.pending.find? (·.1 == who) with
    | none => q
    | some (_, r, op) => ⟨q.content.at r (effect op), q.pending.eraseP (·.1 == who)⟩
  | .tags r t => { q with content := q.content.at r fun c => { c with tags := t } }
  | .join r t => { q with content := q.content.at r fun c => { c with join := t } }
  | .direct rooms => { q with content := fun r => { q.content r with dm := rooms.contains r } }

/-- No other goroutine is between loading and storing the same room. -/
def clear (pending : List (Nat × String × Op)) : Step → Prop
  | .load _ r _ | .tags r _ | .join r _ => ∀ f ∈ pending, f.2.1 ≠ r
  | .store _ => True
  | .direct _ => pending = []

def Orderly (q : Spec) : List Step → Prop
  | [] => True
  | a :: as => clear q.pending a ∧ Orderly (specStep q a) as

/-- What the cache says about a room. -/
def viewData (heap : Nat → List String) (d : Data) : Content :=
  ⟨d.dm, d.isInvite, d.left, d.highlights, d.notifs, d.invite, d.tags, d.join, fun p => (heap d.spaces).contains p⟩

def view (s : State) (r : String) : Content :=
  match s.data r with
  | some d => viewData s.heap d
  | none => {}

/-! ### The simulation -/

def Owns (s : State) (r : String) (a : Nat) : Prop :=
  (∃ d, s.data r = some d ∧ d.spaces = a) ∨ ∃ f ∈ s.frames, f.room = r ∧ f.copy.spaces = a

structure Sane (s : State) : Prop where
  below : ∀ r a, Owns s r a → a < s.next
  one : ∀ r r' a, Owns s r a → Owns s r' a → r = r'

def tag (z : Frame × Op) : Nat × String × Op := (z.1.who, z.1.room, z.2)

structure Sim (s : State) (q : Spec) (zs : List (Frame × Op)) : Prop where
  frames : s.frames = zs.map Prod.fst
  pending : q.pending = zs.map tag
  nodup : (zs.map (·.1.room)).Nodup
  copies : ∀ z ∈ zs, viewData s.heap z.1.copy = effect z.2 (q.content z.1.room)
  rest : ∀ r, (∀ z ∈ zs, z.1.room ≠ r) → view s r = q.content r

theorem change_spaces (op : Op) (d : Data) : (change op d).spaces = d.spaces := by
  cases op with
  | event m => cases m with
    | none => rfl
    | some b => unfold change; simp only; split <;> rfl
  | _ => rfl

theorem viewData_congr {h h' : Nat → List String} {d : Data} (e : h d.spaces = h' d.spaces) : viewData h d = viewData h' d := by
  unfold viewData
  rw [e]

theorem change_view (op : Op) (h : Nat → List String) (d : Data) :
    viewData (fun a => if a = d.spaces then changeSpaces op (h a) else h a) (change op d) = effect op (viewData h d) := by
  have key : (fun p => ((fun a => if a = d.spaces then changeSpaces op (h a) else h a) (change op d).spaces).contains p) =
      fun p => (changeSpaces op (h d.spaces)).contains p := by
    rw [change_spaces]; simp
  unfold viewData at *
  rw [key]
  cases op with
  | counts a b => cases a <;> cases b <;> rfl
  | event m =>
    match m with
    | none => rfl
    | some true => cases hi : d.isInvite <;> simp [change, effect, changeSpaces, hi]
    | some false => cases hi : d.isInvite <;> simp [change, effect, changeSpaces, hi]
  | space p del =>
    simp only [change, effect, changeSpaces]
    congr 1
    funext q
    cases del
    · by_cases e : q = p <;> simp [e]
    · by_cases e : q = p <;> simp [e]
  | invite i b => rfl
  | left => rfl

/-- Fetching a room. -/
theorem fetch_spec {s : State} (ok : Sane s) (r : String) :
    (∀ r' a, r' ≠ r → Owns s r' a → a ≠ (fetch s r).1.spaces) ∧ (fetch s r).1.spaces < (fetch s r).2.2 ∧ s.next ≤ (fetch s r).2.2 ∧
    (∀ a, a < s.next → (fetch s r).2.1 a = s.heap a) ∧
    viewData (fetch s r).2.1 (fetch s r).1 = view s r := by
  unfold fetch view
  cases h : s.data r with
  | none =>
    refine ⟨fun r' a _ o e => ?_, by simp, by simp, fun a l => ?_, by simp [viewData]⟩
    · have := ok.below r' a o
      simp only at e
      omega
    · simp only
      rw [if_neg (by omega)]
  | some d =>
    refine ⟨fun r' a ne o e => ?_, ok.below r _ (.inl ⟨d, h, rfl⟩), Nat.le_refl _, fun a _ => rfl, rfl⟩
    exact ne (ok.one r' r a o (.inl ⟨d, h, e.symm⟩))

theorem sane_of {s s' : State} {r : String} {a₀ : Nat} (ok : Sane s) (le : s.next ≤ s'.next) (lt : a₀ < s'.next)
    (other : ∀ r' a, r' ≠ r → Owns s r' a → a ≠ a₀) (o : ∀ r' a, Owns s' r' a → Owns s r' a ∨ (r' = r ∧ a = a₀)) : Sane s' := by
  constructor
  · intro r' a h
    rcases o r' a h with h | ⟨-, rfl⟩
    · exact Nat.lt_of_lt_of_le (ok.below _ _ h) le
    · exact lt
  · intro x y a hx hy
    rcases o x a hx with hx | ⟨rfl, rfl⟩ <;> rcases o y a hy with hy | ⟨e, e'⟩
    · exact ok.one x y a hx hy
    · subst e; subst e'
      exact Classical.byContradiction fun ne => other x _ ne hx rfl
    · exact Classical.byContradiction fun ne => other y _ (fun e => ne e.symm) hy rfl
    · exact e.symm

theorem find_split {α} {p : α → Bool} {l : List α} {x : α} (h : l.find? p = some x) : ∃ as bs, l = as ++ x :: bs ∧ l.eraseP p = as ++ bs := by
  induction l with
  | nil => cases h
  | cons y l ih =>
    by_cases e : p y = true
    · rw [List.find?_cons_of_pos e] at h
      cases h
      exact ⟨[], l, rfl, by simp [List.eraseP_cons_of_pos, e]⟩
    · rw [List.find?_cons_of_neg e] at h
      obtain ⟨as, bs, e₁, e₂⟩ := ih h
      exact ⟨y :: as, bs, by rw [e₁]; rfl, by rw [List.eraseP_cons_of_neg e, e₂]; rfl⟩

theorem put_owns {s s' : State} {r : String} {d : Data} (hd : s'.data = put s.data r d) (hf : ∀ f ∈ s'.frames, f ∈ s.frames) :
    ∀ r' a, Owns s' r' a → Owns s r' a ∨ (r' = r ∧ a = d.spaces) := by
  rintro r' a (⟨d', h, e⟩ | ⟨f, m, e⟩)
  · rw [hd] at h
    unfold put at h
    by_cases er : r' = r
    · rw [if_pos er] at h
      cases h
      exact .inr ⟨er, e.symm⟩
    · rw [if_neg er] at h
      exact .inl (.inl ⟨d', h, e⟩)
  · exact .inl (.inr ⟨f, hf f m, e⟩)

theorem sane_step {s : State} (ok : Sane s) (a : Step) : Sane (step s a) := by
  cases a with
  | load who r op =>
    obtain ⟨h₁, h₂, h₃, -, -⟩ := fetch_spec ok r
    refine sane_of (r := r) (a₀ := (fetch s r).1.spaces) ok h₃ h₂ h₁ ?_
    rintro r' a (⟨d, h, e⟩ | ⟨f, m, e⟩)
    · exact .inl (.inl ⟨d, h, e⟩)
    · rcases List.mem_cons.1 m with rfl | m
      · refine .inr ⟨e.1.symm, ?_⟩
        rw [← e.2]
        exact change_spaces op _
      · exact .inl (.inr ⟨f, m, e⟩)
  | store who =>
    unfold step
    simp only
    split
    · exact ok
    · rename_i f hf
      have mf := List.mem_of_find?_eq_some hf
      refine sane_of (r := f.room) (a₀ := f.copy.spaces) ok (Nat.le_refl _) (ok.below f.room _ (.inr ⟨f, mf, rfl, rfl⟩)) ?_ ?_
      · intro r' a ne o e
        exact ne (ok.one r' f.room a o (.inr ⟨f, mf, rfl, e.symm⟩))
      · exact put_owns (d := f.copy) rfl fun g m => List.mem_of_mem_eraseP m
  | tags r t =>
    obtain ⟨h₁, h₂, h₃, -, -⟩ := fetch_spec ok r
    exact sane_of (r := r) (a₀ := (fetch s r).1.spaces) ok h₃ h₂ h₁ (put_owns (d := { (fetch s r).1 with tags := t }) rfl fun g m => m)
  | join r t =>
    obtain ⟨h₁, h₂, h₃, -, -⟩ := fetch_spec ok r
    exact sane_of (r := r) (a₀ := (fetch s r).1.spaces) ok h₃ h₂ h₁ (put_owns (d := { (fetch s r).1 with join := t }) rfl fun g m => m)
  | direct rooms =>
    have o : ∀ r a, Owns (step s (.direct rooms)) r a → Owns s r a ∨ (r ∈ rooms ∧ a = s.next + rooms.idxOf r) := by
      rintro r a (⟨d, h, e⟩ | ⟨f, m, e⟩)
      · simp only [step] at h
        cases hd : s.data r with
        | some d' =>
          rw [hd] at h
          cases h
          exact .inl (.inl ⟨d', hd, e⟩)
        | none =>
          rw [hd] at h
          simp only at h
          by_cases c : rooms.contains r = true
          · rw [if_pos c] at h
            cases h
            exact .inr ⟨by simpa using c, e.symm⟩
          · rw [if_neg c] at h; cases h
      · exact .inl (.inr ⟨f, m, e⟩)
    constructor
    · intro r a h
      show a < s.next + rooms.length
      rcases o r a h with h | ⟨m, rfl⟩
      · exact Nat.lt_of_lt_of_le (ok.below _ _ h) (Nat.le_add_right _ _)
      · have := List.idxOf_lt_length_of_mem m
        omega
    · intro x y a hx hy
      rcases o x a hx with hx | ⟨mx, ex⟩ <;> rcases o y a hy with hy | ⟨my, ey⟩
      · exact ok.one x y a hx hy
      · have := ok.below x a hx; omega
      · have := ok.below y a hy; omega
      · have e : rooms.idxOf x = rooms.idxOf y := by omega
        have gx := List.getElem_idxOf (List.idxOf_lt_length_of_mem mx)
        have gy := List.getElem_idxOf (List.idxOf_lt_length_of_mem my)
        rw [← gx, ← gy]
        congr 1

theorem sane_init : Sane init := by
  constructor
  · rintro r a (⟨d, h, -⟩ | ⟨f, h, -⟩) <;> cases h
  · rintro r r' a (⟨d, h, -⟩ | ⟨f, h, -⟩) <;> cases h

theorem sane_run (as : List Step) : ∀ {s}, Sane s → Sane (run s as) := by
  induction as with
  | nil => intro s h; exact h
  | cons a as ih => intro s h; exact ih (sane_step h a)

theorem view_put {s s' : State} {r r' : String} {d : Data} (hd : s'.data = put s.data r d) :
    view s' r' = if r' = r then viewData s'.heap d else (match s.data r' with | some d => viewData s'.heap d | none => {}) := by
  unfold view
  rw [hd]
  unfold put
  by_cases e : r' = r <;> simp [e]

/-- Other rooms are as before, when the heap is the same where they look. -/
theorem view_same {s s' : State} {r : String} (hd : s'.data r = s.data r) (h : ∀ a, Owns s r a → s'.heap a = s.heap a) : view s' r = view s r := by
  unfold view
  rw [hd]
  cases e : s.data r with
  | none => rfl
  | some d => exact viewData_congr (h _ (.inl ⟨d, e, rfl⟩))

theorem at_self (q : Contents) (r : String) (f : Content → Content) : q.at r f r = f (q r) := by simp [Contents.at]
theorem at_ne {q : Contents} {r r' : String} {f : Content → Content} (ne : r' ≠ r) : q.at r f r' = q r' := by simp [Contents.at, ne]

/-- A change of one field of one room in one step. -/
theorem sim_put {s : State} {q : Spec} {zs} (ok : Sane s) (sim : Sim s q zs) {r : String} {d' : Data} {g : Content → Content}
    (cl : ∀ z ∈ zs, z.1.room ≠ r) (hs : d'.spaces = (fetch s r).1.spaces)
    (hv : ∀ h, viewData h d' = g (viewData h (fetch s r).1)) :
    Sim { s with data := put s.data r d', heap := (fetch s r).2.1, next := (fetch s r).2.2 } { q with content := q.content.at r g } zs := by
  obtain ⟨h₁, h₂, h₃, h₄, h₅⟩ := fetch_spec ok r
  refine ⟨sim.frames, sim.pending, sim.nodup, ?_, ?_⟩
  · intro z m
    have := sim.copies z m
    show _ = effect z.2 (q.content.at r g z.1.room)
    rw [at_ne (cl z m), ← this]
    refine viewData_congr (h₄ _ (ok.below z.1.room _ (.inr ⟨z.1, ?_, rfl, rfl⟩)))
    rw [sim.frames]
    exact List.mem_map_of_mem m
  · intro r' nz
    by_cases e : r' = r
    · subst e
      show view _ _ = q.content.at r' g r'
      rw [view_put (s := s) rfl, if_pos rfl, hv, at_self]
      simp only
      rw [h₅, sim.rest r' nz]
    · show view _ _ = q.content.at r g r'
      rw [at_ne e, ← sim.rest r' nz]
      refine view_same ?_ fun a o => h₄ a (ok.below r' a o)
      simp [put, e]

theorem sim_step {s : State} {q : Spec} {zs} (ok : Sane s) (sim : Sim s q zs) {a : Step} (cl : clear q.pending a) :
    ∃ zs', Sim (step s a) (specStep q a) zs' := by
  have clz : ∀ r, (∀ f ∈ q.pending, f.2.1 ≠ r) → ∀ z ∈ zs, z.1.room ≠ r := by
    intro r h z m
    exact h (tag z) (by rw [sim.pending]; exact List.mem_map_of_mem m)
  have own : ∀ z ∈ zs, Owns s z.1.room z.1.copy.spaces := by
    intro z m
    exact .inr ⟨z.1, by rw [sim.frames]; exact List.mem_map_of_mem m, rfl, rfl⟩
  cases a with
  | load who r op =>
    obtain ⟨h₁, h₂, h₃, h₄, h₅⟩ := fetch_spec ok r
    have cz := clz r cl
    have same : ∀ r' a, r' ≠ r → Owns s r' a → (step s (.load who r op)).heap a = s.heap a := by
      intro r' a ne o
      simp only [step]
      rw [if_neg (h₁ r' a ne o), h₄ a (ok.below r' a o)]
    refine ⟨(⟨who, r, change op (fetch s r).1⟩, op) :: zs, ?_, ?_, ?_, ?_, ?_⟩
    · simp [step, sim.frames]
    · simp [specStep, sim.pending, tag]
    · simp only [List.map_cons, List.nodup_cons]
      refine ⟨?_, sim.nodup⟩
      intro m
      obtain ⟨z, m, e⟩ := List.mem_map.1 m
      exact cz z m e
    · intro z m
      rcases List.mem_cons.1 m with rfl | m
      · show viewData (fun a => if a = (fetch s r).1.spaces then changeSpaces op ((fetch s r).2.1 a) else (fetch s r).2.1 a) _ =
          effect op (q.content r)
        rw [change_view, h₅, sim.rest r cz]
      · show _ = effect z.2 (q.content z.1.room)
        rw [← sim.copies z m]
        exact viewData_congr (same z.1.room _ (cz z m) (own z m))
    · intro r' nz
      have ne : r' ≠ r := fun e => nz _ (List.mem_cons_self) e.symm
      show _ = q.content r'
      rw [← sim.rest r' fun z m => nz z (List.mem_cons_of_mem _ m)]
      exact view_same rfl fun a o => same r' a ne o
  | store who =>
    cases hz : zs.find? (fun z => z.1.who == who) with
    | none =>
      have e₁ : s.frames.find? (·.who == who) = none := by
        rw [sim.frames, List.find?_map]
        exact (congrArg (Option.map Prod.fst) hz)
      have e₂ : q.pending.find? (·.1 == who) = none := by
        rw [sim.pending, List.find?_map]
        exact (congrArg (Option.map tag) hz)
      refine ⟨zs, ?_⟩
      simp only [step, specStep, e₁, e₂]
      exact sim
    | some z =>
      have e₁ : s.frames.find? (·.who == who) = some z.1 := by
        rw [sim.frames, List.find?_map]
        exact (congrArg (Option.map Prod.fst) hz)
      have e₂ : q.pending.find? (·.1 == who) = some (tag z) := by
        rw [sim.pending, List.find?_map]
        exact (congrArg (Option.map tag) hz)
      obtain ⟨as, bs, hl, he⟩ := find_split hz
      have mz : z ∈ zs := List.mem_of_find?_eq_some hz
      have nd := sim.nodup
      rw [hl] at nd
      simp only [List.map_append, List.map_cons] at nd
      have fresh : ∀ y ∈ as ++ bs, y.1.room ≠ z.1.room := by
        intro y m e
        have nd' := (List.perm_middle.nodup_iff.1 nd)
        refine (List.nodup_cons.1 nd').1 ?_
        rw [← e, ← List.map_append]
        exact List.mem_map_of_mem m
      have sub : ∀ y ∈ as ++ bs, y ∈ zs := by
        intro y m
        rw [hl]
        rcases List.mem_append.1 m with m | m
        · exact List.mem_append_left _ m
        · exact List.mem_append_right _ (List.mem_cons_of_mem _ m)
      refine ⟨as ++ bs, ?_, ?_, ?_, ?_, ?_⟩
      · simp only [step, e₁]
        rw [sim.frames, List.eraseP_map]
        exact congrArg (List.map Prod.fst) he
      · simp only [specStep, e₂, tag]
        rw [sim.pending, List.eraseP_map]
        exact congrArg (List.map tag) he
      · rw [List.map_append]
        exact (List.nodup_cons.1 (List.perm_middle.nodup_iff.1 nd)).2
      · intro y m
        simp only [step, specStep, e₁, e₂, tag]
        rw [at_ne (fresh y m)]
        exact sim.copies y (sub y m)
      · intro r nz
        simp only [step, specStep, e₁, e₂, tag]
        by_cases e : r = z.1.room
        · subst e
          rw [view_put (s := s) rfl, if_pos rfl, at_self]
          exact sim.copies z mz
        · rw [at_ne e, ← sim.rest r ?_]
          · refine view_same ?_ fun a o => rfl
            simp [put, e]
          · intro y m
            rw [hl] at m
            rcases List.mem_append.1 m with m | m
            · exact nz y (List.mem_append_left _ m)
            · rcases List.mem_cons.1 m with rfl | m
              · exact fun e' => e e'.symm
              · exact nz y (List.mem_append_right _ m)
  | tags r t =>
    exact ⟨zs, sim_put ok sim (d' := { (fetch s r).1 with tags := t }) (clz r cl) rfl fun _ => rfl⟩
  | join r t =>
    exact ⟨zs, sim_put ok sim (d' := { (fetch s r).1 with join := t }) (clz r cl) rfl fun _ => rfl⟩
  | direct rooms =>
    have z0 : zs = [] := by
      have := sim.pending
      rw [show q.pending = [] from cl] at this
      exact List.map_eq_nil_iff.1 this.symm
    subst z0
    refine ⟨[], sim.frames, sim.pending, sim.nodup, (fun z m => by cases m), ?_⟩
    intro r _
    have old := sim.rest r (fun z m => by cases m)
    unfold view at *
    simp only [step, specStep]
    rw [← old]
    cases hd : s.data r with
    | some d =>
      have := ok.below r _ (.inl ⟨d, hd, rfl⟩)
      simp only [viewData]
      rw [if_neg (by omega)]
    | none =>
      by_cases c : r ∈ rooms
      · simp [c, viewData]
      · simp [c]

def specRun (q : Spec) (as : List Step) : Spec := as.foldl specStep q

theorem sim_run (as : List Step) : ∀ {s q zs}, Sane s → Sim s q zs → Orderly q as → ∃ zs', Sim (run s as) (specRun q as) zs' := by
  induction as with
  | nil => intro s q zs _ sim _; exact ⟨zs, sim⟩
  | cons a as ih =>
    intro s q zs ok sim o
    obtain ⟨zs', sim'⟩ := sim_step ok sim o.1
    exact ih (sane_step ok a) sim' o.2

theorem sim_init : Sim init {} [] :=
  ⟨rfl, rfl, List.nodup_nil, (fun z m => by cases m), fun r _ => rfl⟩

/-- **C143.** Whatever goroutines do in whatever order, as long as none of them loads a room that another one has loaded and not stored yet
(or changes it in one step), the cache says what one gets when each update has its effect at once. -/
theorem C143_orderly_partial (as : List Step) (o : Orderly {} as) (r : String) (h : ∀ f ∈ (specRun {} as).pending, f.2.1 ≠ r) :
    view (run init as) r = (specRun {} as).content r := by
  obtain ⟨zs, sim⟩ := sim_run as sane_init sim_init o
  refine sim.rest r fun z m => h (tag z) ?_
  rw [sim.pending]
  exact List.mem_map_of_mem m

theorem orderly_append (as bs : List Step) : ∀ q, Orderly q (as ++ bs) ↔ Orderly q as ∧ Orderly (specRun q as) bs := by
  induction as with
  | nil => intro q; simp [Orderly, specRun]
  | cons a as ih => intro q; simp only [List.cons_append, Orderly, ih, specRun, List.foldl_cons, and_assoc]

theorem specRun_append (q : Spec) (as bs : List Step) : specRun q (as ++ bs) = specRun (specRun q as) bs := List.foldl_append

theorem one_op (who : Nat) (r : String) (op : Op) (c : Contents) :
    Orderly ⟨c, []⟩ [.load who r op, .store who] ∧ specRun ⟨c, []⟩ [.load who r op, .store who] = ⟨c.at r (effect op), []⟩ := by
  constructor
  · exact ⟨(fun f m => by cases m), trivial, trivial⟩
  · simp [specRun, specStep]

theorem children_ops (who : Nat) (r : String) (children : List String) : ∀ c : Contents,
    Orderly ⟨c, []⟩ (children.flatMap fun x => [.load who x (.space r false), .store who]) ∧
    specRun ⟨c, []⟩ (children.flatMap fun x => [.load who x (.space r false), .store who]) =
      ⟨children.foldl (fun q c => q.at c (effect (.space r false))) c, []⟩ := by
  induction children with
  | nil => intro c; exact ⟨trivial, rfl⟩
  | cons x xs ih =>
    intro c
    obtain ⟨o, e⟩ := one_op who x (.space r false) c
    obtain ⟨o', e'⟩ := ih (c.at x (effect (.space r false)))
    rw [List.flatMap_cons, orderly_append, specRun_append, e]
    exact ⟨⟨o, o'⟩, e'⟩

/-- A space is not its own child. -/
def Proper : Call → Prop
  | .event r _ (some (c, _)) => c ≠ r
  | _ => True

theorem call_ops (who : Nat) (k : Call) (p : Proper k) (c : Contents) :
    Orderly ⟨c, []⟩ (steps who k) ∧ specRun ⟨c, []⟩ (steps who k) = ⟨serial c k, []⟩ := by
  cases k with
  | counts r h n => exact one_op who r _ c
  | invite r i dm => exact one_op who r _ c
  | left r => exact one_op who r _ c
  | event r m ch =>
    match ch with
    | none => exact one_op who r _ c
    | some (x, del) =>
      have p : x ≠ r := p
      constructor
      · refine ⟨(fun f m => by cases m), ?_, trivial, trivial, trivial⟩
        intro f m
        simp only [specStep, List.mem_cons, List.not_mem_nil, or_false] at m
        subst m
        exact fun e => p e.symm
      · simp [specRun, specStep, steps, serial]
  | tags r t => exact ⟨⟨(fun f m => by cases m), trivial⟩, rfl⟩
  | direct rooms => exact ⟨⟨rfl, trivial⟩, rfl⟩
  | registered r children t =>
    obtain ⟨o, e⟩ := children_ops who r children c
    simp only [steps]
    rw [orderly_append, specRun_append, e]
    exact ⟨⟨o, (fun f m => by cases m), trivial⟩, rfl⟩

theorem calls_ops (ks : List (Nat × Call)) : (∀ k ∈ ks, Proper k.2) → ∀ c : Contents,
    Orderly ⟨c, []⟩ (ks.flatMap fun k => steps k.1 k.2) ∧
    specRun ⟨c, []⟩ (ks.flatMap fun k => steps k.1 k.2) = ⟨(ks.map (·.2)).foldl serial c, []⟩ := by
  induction ks with
  | nil => intro _ c; exact ⟨trivial, rfl⟩
  | cons k ks ih =>
    intro p c
    obtain ⟨o, e⟩ := call_ops k.1 k.2 (p k List.mem_cons_self) c
    obtain ⟨o', e'⟩ := ih (fun k' m => p k' (List.mem_cons_of_mem _ m)) (serial c k.2)
    rw [List.flatMap_cons, orderly_append, specRun_append, e]
    exact ⟨⟨o, o'⟩, e'⟩

/-- **C143.** When the calls do not overlap, as when the listener is the only one that makes any, the cache says what one gets by doing them one
after the other. (For a space in itself see C98.) -/
theorem C143_calls_partial (ks : List (Nat × Call)) (p : ∀ k ∈ ks, Proper k.2) (r : String) :
    view (run init (ks.flatMap fun k => steps k.1 k.2)) r = (ks.map (·.2)).foldl serial (fun _ => {}) r := by
  obtain ⟨o, e⟩ := calls_ops ks p fun _ => {}
  have := C143_orderly_partial _ o r
  rw [e] at this
  exact this fun f m => by cases m

/-! ### Spaces of rooms that are known -/

/-- What the updates of spaces among the steps say about one room and one space, the latest first. -/
def said (r p : String) : List Step → Option Bool
  | [] => none
  | a :: as =>
    match said r p as, a with
    | some b, _ => some b
    | none, .load _ r' (.space p' del) => if r' = r ∧ p' = p then some (!del) else none
    | none, _ => none

structure Known (s : State) (r : String) (a : Nat) : Prop where
  entry : ∃ d, s.data r = some d ∧ d.spaces = a
  frames : ∀ f ∈ s.frames, f.room = r → f.copy.spaces = a

theorem known_step {s : State} {r : String} {a : Nat} (ok : Sane s) (k : Known s r a) (st : Step) :
    Known (step s st) r a ∧ ∀ p, ((step s st).heap a).contains p = (said r p [st]).getD ((s.heap a).contains p) := by
  obtain ⟨⟨d, hd, ha⟩, fr⟩ := k
  have lt : a < s.next := ok.below r a (.inl ⟨d, hd, ha⟩)
  have put_known : ∀ (x : String) (d' : Data), (x = r → d'.spaces = a) → ∃ d'', put s.data x d' r = some d'' ∧ d''.spaces = a := by
    intro x d' h
    unfold put
    by_cases e : r = x
    · rw [if_pos e]; exact ⟨d', rfl, h e.symm⟩
    · rw [if_neg e]; exact ⟨d, hd, ha⟩
  have fetch_r : (fetch s r).1.spaces = a := by simp [fetch, hd, ha]
  cases st with
  | load who x op =>
    obtain ⟨h₁, h₂, h₃, h₄, h₅⟩ := fetch_spec ok x
    refine ⟨⟨⟨d, hd, ha⟩, ?_⟩, ?_⟩
    · intro f m e
      rcases List.mem_cons.1 m with rfl | m
      · show (change op (fetch s x).1).spaces = a
        rw [change_spaces, show x = r from e, fetch_r]
      · exact fr f m e
    · intro p
      simp only [step]
      by_cases e : x = r
      · subst e
        rw [if_pos fetch_r.symm, h₄ a lt]
        cases op with
        | space p' del =>
          by_cases ep : p' = p
          · subst ep; cases del <;> simp [said, changeSpaces]
          · have ep' : ¬ p = p' := fun e => ep e.symm
            cases del <;> simp [said, changeSpaces, ep, ep']
        | _ => simp [said, changeSpaces]
      · rw [if_neg (h₁ r a (fun e' => e e'.symm) (.inl ⟨d, hd, ha⟩)), h₄ a lt]
        cases op <;> simp [said, e]
  | store who =>
    simp only [step]
    cases hf : s.frames.find? (·.who == who) with
    | none => exact ⟨⟨⟨d, hd, ha⟩, fr⟩, fun p => rfl⟩
    | some f =>
      have mf := List.mem_of_find?_eq_some hf
      exact ⟨⟨put_known f.room f.copy fun e => fr f mf e, fun g m e => fr g (List.mem_of_mem_eraseP m) e⟩, fun p => rfl⟩
  | tags x t =>
    obtain ⟨h₁, h₂, h₃, h₄, h₅⟩ := fetch_spec ok x
    refine ⟨⟨put_known x _ fun e => by rw [e]; exact fetch_r, fr⟩, fun p => ?_⟩
    show ((fetch s x).2.1 a).contains p = _
    rw [h₄ a lt]; rfl
  | join x t =>
    obtain ⟨h₁, h₂, h₃, h₄, h₅⟩ := fetch_spec ok x
    refine ⟨⟨put_known x _ fun e => by rw [e]; exact fetch_r, fr⟩, fun p => ?_⟩
    show ((fetch s x).2.1 a).contains p = _
    rw [h₄ a lt]; rfl
  | direct rooms =>
    refine ⟨⟨⟨{ d with dm := rooms.contains r }, by simp [step, hd], ha⟩, fr⟩, fun p => ?_⟩
    simp only [step]
    rw [if_neg (by omega)]; rfl

theorem said_cons (r p : String) (a : Step) (as : List Step) : said r p (a :: as) = (said r p as).or (said r p [a]) := by
  simp only [said]
  cases said r p as <;> rfl

theorem known_run (as : List Step) : ∀ {s : State} {r : String} {a : Nat}, Sane s → Known s r a →
    Known (run s as) r a ∧ ∀ p, ((run s as).heap a).contains p = (said r p as).getD ((s.heap a).contains p) := by
  induction as with
  | nil => intro s r a _ k; exact ⟨k, fun p => rfl⟩
  | cons st as ih =>
    intro s r a ok k
    obtain ⟨k', h'⟩ := known_step ok k st
    obtain ⟨k'', h''⟩ := ih (sane_step ok st) k'
    refine ⟨k'', fun p => ?_⟩
    show ((run (step s st) as).heap a).contains p = _
    rw [h'' p, h' p, said_cons r p st as]
    cases said r p as <;> rfl

/-- **C143.** In any interleaving, the spaces of a room that the cache has an entry for, while nobody has loaded it, are from then on what the
latest update of them says: they are never lost, not even when calls overlap. -/
theorem C143_spaces (before after : List Step) (r p : String) (h : (run init before).data r ≠ none)
    (hf : ∀ f ∈ (run init before).frames, f.room ≠ r) :
    (view (run init (before ++ after)) r).within p = (said r p after).getD ((view (run init before) r).within p) := by
  obtain ⟨d, hd⟩ := Option.ne_none_iff_exists'.1 h
  have ok := sane_run before sane_init
  obtain ⟨⟨⟨d', hd', ha⟩, -⟩, hp⟩ := known_run after ok (r := r) (a := d.spaces) ⟨⟨d, hd, rfl⟩, fun f m e => absurd e (hf f m)⟩
  have e : run init (before ++ after) = run (run init before) after := List.foldl_append
  unfold view
  rw [e, hd', hd]
  simp only [viewData]
  rw [ha, hp p]

/-! ### What is lost -/

/-- One goroutine does `as`, another one `bs`, at the same time. -/
inductive Shuffle : List Step → List Step → List Step → Prop
  | nil : Shuffle [] [] []
  | left : Shuffle as bs cs → Shuffle (a :: as) bs (a :: cs)
  | right : Shuffle as bs cs → Shuffle as (b :: bs) (b :: cs)

/-- The request that registers the cache has loaded a room, to note that it is in a space, when the listener gets the unread counts of the room:
the counts are overwritten with what was loaded, though they are there in either order of the two calls. Nothing sends them again until
they change. -/
theorem C143_violated_counts : ∃ cs, Shuffle (steps 0 (.registered "!s" ["!r"] 1)) (steps 1 (.counts "!r" (some 2) (some 5))) cs ∧
    (view (run init cs) "!r").notifs = 0 ∧
    ∀ ks, ks = [Call.registered "!s" ["!r"] 1, .counts "!r" (some 2) (some 5)] ∨
      ks = [Call.counts "!r" (some 2) (some 5), .registered "!s" ["!r"] 1] → (ks.foldl serial (fun _ => {}) "!r").notifs = 5 := by
  refine ⟨[.load 0 "!r" (.space "!s" false), .load 1 "!r" (.counts (some 2) (some 5)), .store 1, .store 0, .join "!s" 1],
    .left (.right (.right (.left (.left .nil)))), by decide +kernel, ?_⟩
  rintro ks (rfl | rfl) <;> decide +kernel

/-- The other way round, for a room that the cache does not know: the counts are stored with an empty set of spaces, and the room is in no
space for this cache, as long as it lives. -/
theorem C143_violated_space : ∃ cs, Shuffle (steps 0 (.registered "!s" ["!r"] 1)) (steps 1 (.counts "!r" (some 2) (some 5))) cs ∧
    (view (run init cs) "!r").within "!s" = false ∧
    ∀ ks, ks = [Call.registered "!s" ["!r"] 1, .counts "!r" (some 2) (some 5)] ∨
      ks = [Call.counts "!r" (some 2) (some 5), .registered "!s" ["!r"] 1] → (ks.foldl serial (fun _ => {}) "!r").within "!s" = true := by
  refine ⟨[.load 0 "!r" (.space "!s" false), .load 1 "!r" (.counts (some 2) (some 5)), .store 0, .store 1, .join "!s" 1],
    .left (.right (.left (.right (.left .nil)))), by decide +kernel, ?_⟩
  rintro ks (rfl | rfl) <;> decide +kernel

/-- When the user joined a room is lost in the same way: the listener has loaded the room when `OnRegistered` notes it. -/
theorem C143_violated_join : ∃ cs, Shuffle (steps 0 (.registered "!r" [] 7)) (steps 1 (.counts "!r" (some 2) (some 5))) cs ∧
    (view (run init cs) "!r").join = 0 ∧
    ∀ ks, ks = [Call.registered "!r" [] 7, .counts "!r" (some 2) (some 5)] ∨
      ks = [Call.counts "!r" (some 2) (some 5), .registered "!r" [] 7] → (ks.foldl serial (fun _ => {}) "!r").join = 7 := by
  refine ⟨[.load 1 "!r" (.counts (some 2) (some 5)), .join "!r" 7, .store 1], .right (.left (.right .nil)), by decide +kernel, ?_⟩
  rintro ks (rfl | rfl) <;> decide +kernel

/-- Tags are changed in one critical section, and lost all the same. -/
theorem C143_violated_tags : ∃ cs, Shuffle (steps 0 (.registered "!s" ["!r"] 1)) (steps 1 (.tags "!r" 3)) cs ∧
    (view (run init cs) "!r").tags = 0 ∧
    ∀ ks, ks = [Call.registered "!s" ["!r"] 1, .tags "!r" 3] ∨
      ks = [Call.tags "!r" 3, .registered "!s" ["!r"] 1] → (ks.foldl serial (fun _ => {}) "!r").tags = 3 := by
  refine ⟨[.load 0 "!r" (.space "!s" false), .tags "!r" 3, .store 0, .join "!s" 1],
    .left (.right (.left (.left .nil))), by decide +kernel, ?_⟩
  rintro ks (rfl | rfl) <;> decide +kernel

/-! ### The hypotheses are met -/

/-- Two goroutines that work on different rooms at the same time are orderly. -/
example : Orderly {} [.load 0 "!r" (.space "!s" false), .load 1 "!q" (.counts (some 2) none), .store 0, .join "!s" 4, .store 1,
    .direct ["!q"]] := by
  refine ⟨(fun f m => by cases m), ?_, trivial, ?_, trivial, rfl, trivial⟩ <;> intro f m <;>
    simp [specStep] at m <;> subst m <;> decide

/-- Calls that do not overlap. -/
example : ∀ k ∈ [(0, Call.registered "!s" ["!r"] 1), (1, .counts "!r" (some 2) (some 5)), (1, .event "!s" none (some ("!q", false)))],
    Proper k.2 := by
  simp [Proper]

/-- A room that is known, and an overlap afterwards in which the counts are lost but the space is not. -/
example : (run init [.join "!r" 1]).data "!r" ≠ none ∧ (∀ f ∈ (run init [.join "!r" 1]).frames, f.room ≠ "!r") ∧
    said "!r" "!s" [.load 0 "!r" (.space "!s" false), .load 1 "!r" (.counts none (some 5)), .store 1, .store 0] = some true := by
  refine ⟨by decide +kernel, (fun f m => by cases m), by decide +kernel⟩

end Verif.LostUpdates
