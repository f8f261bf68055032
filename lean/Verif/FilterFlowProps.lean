import Verif.FilterFlow
import Verif.ListsProps
import Verif.FiltersProps
/-!
# C137: the lists of a connection that has caught up are filtered by what rooms are now
-/
namespace Verif.FilterFlow
open Verif

/-! ## Specification -/

/-- The step makes an update with the present data of the room. -/
def Tells (r : String) : Op → Prop
  | .state r' n _ _ told => r' = r ∧ 0 < n ∧ told = true
  | .message r' n _ _ told => r' = r ∧ 0 < n ∧ told = true
  | .space _ c n _ told => c = r ∧ 0 < n ∧ told = true
  | .tag r' _ => r' = r
  | .other r' => r' = r
  | _ => False

/-- No update of the room is held back, unless the one of this step is held back behind it. -/
def InOrder (s : St) (r : String) : Op → Prop
  | .state r' _ _ _ _ => ∀ e ∈ s.held, e.room = r → e.ev.map (·.wait) = some r'
  | .message r' _ _ _ _ => ∀ e ∈ s.held, e.room = r → e.ev.map (·.wait) = some r'
  | .space p _ _ _ _ => ∀ e ∈ s.held, e.room = r → e.ev.map (·.wait) = some p
  | _ => ∀ e ∈ s.held, e.room ≠ r

/-- The connection has not been sent the room past the event of the step, and does not ignore its sender. -/
def Kept (s : St) (r : String) : Op → Prop
  | .state _ n _ _ _ => s.lp r ≤ n
  | .message _ n u _ _ => s.lp r ≤ n ∧ u ∉ s.ignored
  | .space _ _ n _ _ => s.lp r ≤ n
  | _ => True

/-- The user is neither invited to the room, nor told on the way of invites that they left it. -/
def Plain (r : String) : Op → Prop
  | .invite r' _ _ => r' ≠ r
  | .left r' _ => r' ≠ r
  | _ => True

/-- Lists are made with supported sort orders. -/
def GoodOp : Op → Prop
  | .list o => Lists.Good o
  | _ => True

/-- No update of the room is on its way. -/
def CaughtUp (s : St) (r : String) : Prop := s.loaded = true ∧ ∀ e ∈ s.queue ++ s.held, e.room ≠ r

/-- What the caches say of a room. -/
def now (s : St) (r : String) : Filters.Room where
  upgraded := (s.glob r).upgraded
  encrypted := (s.glob r).encrypted
  name := (s.glob r).name
  roomType := (s.glob r).roomType
  isDM := (s.usr r).isDM
  isInvite := (s.usr r).isInvite
  hasLeft := (s.usr r).hasLeft
  tags := (s.usr r).tags
  spaces := (s.usr r).spaces

/-- From the state `s`, through `b`, the data of the room are `f`. -/
def Steady (S : Lists.Strs) (s : St) (b : List Op) (r : String) (f : Filters.Room) : Prop :=
  ∀ b1 b2 s', b = b1 ++ b2 → run S s b1 = some s' → now s' r = f

/-! ## The lists -/

variable (S : Lists.Strs)

theorem cur_now (s : St) (r : String) : cur s r = now s r := rfl

theorem superseded_none (finder : String → Option Filters.Room) (f : Filters.Room) (h : f.upgraded = none) :
    Filters.superseded finder f = false := by
  simp [Filters.superseded, h]

theorem incl_finder (lower : String → String) (fi fi' : String → Option Filters.Room) (flt : Filters.Filter) (f : Filters.Room)
    (h : f.upgraded = none) : Filters.incl lower fi flt f = Filters.incl lower fi' flt f := by
  unfold Filters.incl
  rw [superseded_none fi f h, superseded_none fi' f h]

/-- A room which is neither left nor upgraded is in exactly the lists whose filters its copy matches. -/
structure LInv (l : Lists.State) : Prop where
  inv : Lists.GInv l
  right : ∀ r rm, l.all r = some rm → rm.f.upgraded = none → rm.f.hasLeft = false → ∀ k fl, Lists.getList l k = some fl →
    (r ∈ fl.sr.ids ↔ Filters.incl S.lower (Lists.findF l.all) fl.filter rm.f = true)

theorem merge_f (l : Lists.State) (r : Lists.Room) : (Lists.mergeRoom l r).f = r.f := by
  unfold Lists.mergeRoom; split <;> rfl

theorem update_inv {l l' : Lists.State} (h : LInv S l) {req : String → Lists.Req} {r : Lists.Room}
    (hu : Lists.update S l req r = some l') :
    LInv S l' ∧ ∀ i, (l'.all i).map (·.f) = if i = r.id then some r.f else (l.all i).map (·.f) := by
  obtain ⟨hg, hall, hnone, hsome⟩ := Lists.update_spec S h.inv hu
  have hall : ∀ i, l'.all i = if i = r.id then some (Lists.mergeRoom l r) else l.all i := fun i => congrFun hall i
  refine ⟨⟨hg, ?_⟩, ?_⟩
  · intro i rm hi hup hleft k fl hk
    cases hk0 : Lists.getList l k with
    | none => rw [hnone k hk0] at hk; cases hk
    | some fl0 =>
      obtain ⟨fl', h1, h2, h3⟩ := hsome k fl0 hk0
      rw [h1] at hk
      cases hk
      rw [h3 i, h2]
      by_cases e : i = r.id
      · rw [if_pos e]
        rw [hall, if_pos e] at hi
        have hrm : rm.f = r.f := by rw [← Option.some.inj hi]; exact merge_f l r
        rw [← hrm, hleft]
        unfold Lists.incl
        rw [merge_f, ← hrm]
        simp
      · rw [if_neg e]
        rw [hall, if_neg e] at hi
        rw [h.right i rm hi hup hleft k fl0 hk0]
        rw [incl_finder S.lower _ (Lists.findF l'.all) _ _ hup]
  · intro i
    rw [hall]
    by_cases e : i = r.id
    · rw [if_pos e, if_pos e]; exact congrArg some (merge_f l r)
    · rw [if_neg e, if_neg e]

theorem list_inv {l l' : Lists.State} (h : LInv S l) {o : Lists.Op} (ho : Lists.Good o) (hn : ∀ req r, o ≠ .update req r)
    (hu : Lists.step S l o = some l') : LInv S l' ∧ ∀ i, (l'.all i).map (·.f) = (l.all i).map (·.f) := by
  cases o with
  | update req r => exact absurd rfl (hn req r)
  | assign key f so ow perm =>
    obtain ⟨hg, hall, hk, hor⟩ := Lists.assign_spec S h.inv ho hu
    refine ⟨⟨hg, ?_⟩, fun i => by rw [hall]⟩
    intro i rm hi hup hleft k fl hget
    rw [hall] at hi
    rw [hall]
    by_cases e : k = key
    · subst e
      rcases hor with ⟨_, _, h5⟩ | ⟨_, fl', h5, h6, h7⟩
      · rw [h5] at hget; exact h.right i rm hi hup hleft k fl hget
      · rw [h5] at hget
        cases hget
        rw [h7 i, h6]
        constructor
        · rintro ⟨rm', h8, h9⟩
          rw [hi] at h8
          cases h8
          exact h9
        · intro h8; exact ⟨rm, hi, h8⟩
    · rw [hk k e] at hget; exact h.right i rm hi hup hleft k fl hget
  | sort key by_ =>
    obtain ⟨hg, hall, hnone, hsome⟩ := Lists.sort_mem S h.inv hu
    refine ⟨⟨hg, ?_⟩, fun i => by rw [hall]⟩
    intro i rm hi hup hleft k fl hget
    rw [hall] at hi
    rw [hall]
    cases hk0 : Lists.getList l k with
    | none => rw [hnone k hk0] at hget; cases hget
    | some fl0 =>
      obtain ⟨fl', h1, h2, h3⟩ := hsome k fl0 hk0
      rw [h1] at hget
      cases hget
      rw [h3.mem_iff, h2]
      exact h.right i rm hi hup hleft k fl0 hk0
  | delete key =>
    simp only [Lists.step, Option.some.injEq] at hu
    subst hu
    have hf : ∀ i, ((Lists.delete l key).all i).map (·.f) = (l.all i).map (·.f) := by
      intro i
      simp only [Lists.delete]
      cases l.all i <;> rfl
    refine ⟨⟨Lists.delete_inv h.inv key, ?_⟩, hf⟩
    intro i rm hi hup hleft k fl hget
    have h1 := hf i
    rw [hi] at h1
    cases h0 : l.all i with
    | none => rw [h0] at h1; cases h1
    | some rm0 =>
      rw [h0] at h1
      have h2 : rm.f = rm0.f := Option.some.inj h1
      by_cases e : k = key
      · subst e
        exfalso
        have : Lists.getList (Lists.delete l k) k = none := by
          show (List.filter _ _).lookup k = none
          rw [Lists.lookup_filter_ne, if_pos rfl]
        rw [this] at hget
        cases hget
      · rw [Lists.delete_get l key k e] at hget
        rw [h2] at hup hleft ⊢
        rw [h.right i rm0 h0 hup hleft k fl hget, incl_finder S.lower _ (Lists.findF (Lists.delete l key).all) _ _ hup]
  | touch key id =>
    simp only [Lists.step, Option.some.injEq] at hu
    subst hu
    have hf : ∀ i, ((Lists.touch l key id).all i).map (·.f) = (l.all i).map (·.f) := by
      intro i
      rw [Lists.touch_all]
      cases l.all i with
      | none => rfl
      | some x => simp only [Option.map_some]; split <;> rfl
    refine ⟨⟨Lists.touch_inv h.inv key id, ?_⟩, hf⟩
    intro i rm hi hup hleft k fl hget
    have h1 := hf i
    rw [hi] at h1
    cases h0 : l.all i with
    | none => rw [h0] at h1; cases h1
    | some rm0 =>
      rw [h0] at h1
      have h2 : rm.f = rm0.f := Option.some.inj h1
      rw [h2] at hup hleft ⊢
      have hget : Lists.getList l k = some fl := hget
      rw [h.right i rm0 h0 hup hleft k fl hget, incl_finder S.lower _ (Lists.findF (Lists.touch l key id).all) _ _ hup]

theorem setAll_inv {l l' : Lists.State} (h : LInv S l) {req : String → Lists.Req} {rs : List Lists.Room}
    (hu : setAll S req l rs = some l') :
    LInv S l' ∧ ∀ i f, ((l.all i).map (·.f) = some f ∨ ∃ x ∈ rs, x.id = i) → (∀ x ∈ rs, x.id = i → x.f = f) →
      (l'.all i).map (·.f) = some f := by
  induction rs generalizing l with
  | nil =>
    simp only [setAll, Option.some.injEq] at hu
    subst hu
    refine ⟨h, fun i f ho _ => ?_⟩
    rcases ho with ho | ⟨x, hx, _⟩
    · exact ho
    · cases hx
  | cons r rs ih =>
    simp only [setAll, Option.bind_eq_some_iff] at hu
    obtain ⟨l1, h1, h2⟩ := hu
    obtain ⟨a, b⟩ := update_inv S h h1
    obtain ⟨c, d⟩ := ih a h2
    refine ⟨c, fun i f ho hf => ?_⟩
    apply d i f ?_ (fun x hx => hf x (List.mem_cons_of_mem _ hx))
    rw [b i]
    by_cases e : i = r.id
    · rw [if_pos e]
      exact Or.inl (congrArg some (hf r (List.mem_cons_self ..) e.symm))
    · rw [if_neg e]
      rcases ho with ho | ⟨x, hx, hxi⟩
      · exact Or.inl ho
      · rcases List.mem_cons.1 hx with rfl | hx
        · exact absurd hxi.symm e
        · exact Or.inr ⟨x, hx, hxi⟩

/-! ## The updates of one room -/

/-- The connection's copy of the room is `f`, and no update on its way says anything else. -/
def Right (r : String) (f : Filters.Room) (s : St) : Prop :=
  s.loaded = true ∧ (s.lists.all r).map (·.f) = some f ∧ ∀ e ∈ s.queue ++ s.held, e.room = r → e.f = f

/-- An update `E` is on its way, and what comes after it says the same. -/
def Coming (r : String) (E : Entry) (s : St) : Prop :=
  (∃ q1 q2, s.queue = q1 ++ E :: q2 ∧ ∀ e ∈ q2 ++ s.held, e.room = r → e.f = E.f) ∨
  ∃ w h1 h2, s.held = h1 ++ E :: h2 ∧ waits w E = true ∧ (∀ e ∈ h1, e.room = r → e.f = E.f ∨ waits w e = true) ∧
    ∀ e ∈ h2, e.room = r → e.f = E.f

theorem emit_right {r : String} {f : Filters.Room} {s : St} (h : Right r f s) {e : Entry} (he : e.room = r → e.f = f) :
    Right r f (emit s e) := by
  obtain ⟨h1, h2, h3⟩ := h
  have hq : ∀ x ∈ (s.queue ++ [e]) ++ s.held, x.room = r → x.f = f := by
    intro x hx
    simp only [List.mem_append, List.mem_singleton] at hx
    rcases hx with (hx | rfl) | hx
    · exact h3 x (by simp [hx])
    · exact he
    · exact h3 x (by simp [hx])
  have hh : ∀ x ∈ s.queue ++ (s.held ++ [e]), x.room = r → x.f = f := by
    intro x hx
    simp only [List.mem_append, List.mem_singleton] at hx
    rcases hx with hx | hx | rfl
    · exact h3 x (by simp [hx])
    · exact h3 x (by simp [hx])
    · exact he
  unfold emit
  split
  · exact ⟨h1, h2, h3⟩
  · split
    · exact ⟨h1, h2, hq⟩
    · split
      · exact ⟨h1, h2, h3⟩
      · split
        · exact ⟨h1, h2, hh⟩
        · exact ⟨h1, h2, hq⟩

theorem coming_queue {r : String} {E : Entry} {s : St} (h : Coming r E s) {e : Entry} (he : e.room = r → e.f = E.f) :
    Coming r E { s with queue := s.queue ++ [e] } := by
  rcases h with ⟨q1, q2, h1, h2⟩ | h
  · refine Or.inl ⟨q1, q2 ++ [e], by simp [h1], ?_⟩
    intro x hx
    simp only [List.mem_append, List.mem_singleton] at hx
    rcases hx with (hx | rfl) | hx
    · exact h2 x (by simp [hx])
    · exact he
    · exact h2 x (by simp [hx])
  · exact Or.inr h

theorem coming_held {r : String} {E : Entry} {s : St} (h : Coming r E s) {e : Entry} (he : e.room = r → e.f = E.f) :
    Coming r E { s with held := s.held ++ [e] } := by
  rcases h with ⟨q1, q2, h1, h2⟩ | ⟨w, a, b, h1, h2, h3, h4⟩
  · refine Or.inl ⟨q1, q2, h1, ?_⟩
    intro x hx
    simp only [List.mem_append, List.mem_singleton] at hx
    rcases hx with hx | hx | rfl
    · exact h2 x (by simp [hx])
    · exact h2 x (by simp [hx])
    · exact he
  · refine Or.inr ⟨w, a, b ++ [e], by simp [h1], h2, h3, ?_⟩
    intro x hx
    simp only [List.mem_append, List.mem_singleton] at hx
    rcases hx with hx | rfl
    · exact h4 x hx
    · exact he

theorem emit_coming {r : String} {E : Entry} {s : St} (h : Coming r E s) {e : Entry} (he : e.room = r → e.f = E.f) :
    Coming r E (emit s e) := by
  unfold emit
  split
  · exact h
  · split
    · exact coming_queue h he
    · split
      · exact h
      · split
        · exact coming_held h he
        · exact coming_queue h he

/-- What an update does that is emitted. -/
theorem emit_new {r : String} {s : St} (hs : s.subscribed = true) {e : Entry}
    (hev : ∀ v, e.ev = some v → v.always = true ∨ 0 < v.nid)
    (hold : ∀ x ∈ s.held, x.room = r → ∃ v, e.ev = some v ∧ waits v.wait x = true) : Coming r e (emit s e) := by
  unfold emit
  rw [hs]
  simp only [Bool.not_true, Bool.false_eq_true, if_false]
  cases hv : e.ev with
  | none =>
    refine Or.inl ⟨s.queue, [], rfl, ?_⟩
    intro x hx hxr
    obtain ⟨v, h1, _⟩ := hold x (by simpa using hx) hxr
    rw [hv] at h1
    cases h1
  | some v =>
    dsimp only
    have h0 : ¬ ((!v.always && decide (v.nid = 0)) = true) := by
      rcases hev v hv with h | h
      · simp [h]
      · have : v.nid ≠ 0 := by omega
        simp [this]
    rw [if_neg h0]
    split
    · refine Or.inr ⟨v.wait, s.held, [], rfl, by simp [waits, hv], ?_, by simp⟩
      intro x hx hxr
      obtain ⟨v', h1, h2⟩ := hold x hx hxr
      rw [hv] at h1
      cases h1
      exact Or.inr h2
    · rename_i hc
      refine Or.inl ⟨s.queue, [], rfl, ?_⟩
      intro x hx hxr
      have hx : x ∈ s.held := by simpa using hx
      obtain ⟨v', h1, h2⟩ := hold x hx hxr
      rw [hv] at h1
      cases h1
      exfalso
      apply hc
      simp only [Bool.or_eq_true, List.any_eq_true]
      exact Or.inr ⟨x, hx, h2⟩

/-- `emit` changes only the queues. -/
theorem emit_cur (s : St) (e : Entry) (r : String) : cur (emit s e) r = cur s r := by
  unfold emit cur
  split
  · rfl
  · split
    · rfl
    · split
      · rfl
      · split <;> rfl

theorem emit_lists (s : St) (e : Entry) : (emit s e).lists = s.lists := by
  unfold emit
  split
  · rfl
  · split
    · rfl
    · split
      · rfl
      · split <;> rfl

theorem setUsr_self (s : St) (r : String) (u : U) : (setUsr s r u).usr r = u := by simp [setUsr]

/-- The step of a told room. -/
theorem tell {s s1 : St} {r : String} {o : Op} (hs : s.subscribed = true) (ht : Tells r o) (hord : InOrder s r o)
    (h : step S s o = some s1) :
    ∃ E : Entry, E.room = r ∧ E.f = cur s1 r ∧ Coming r E s1 ∧ ∀ s', Kept s' r o → skipped s' E = false := by
  cases o with
  | state r' n g mine told =>
    obtain ⟨rfl, hn, rfl⟩ := ht
    simp only [step, Option.some.injEq, if_true] at h
    subst h
    refine ⟨_, rfl, (emit_cur _ _ _).symm, emit_new (r := r') (by exact hs) ?_ ?_, ?_⟩
    · intro v hv; cases hv; exact Or.inr hn
    · intro x hx hxr
      exact ⟨_, rfl, by simp only [waits, decide_eq_true_eq]; exact hord x hx hxr⟩
    · intro s' hk
      have hk : s'.lp r' ≤ n := hk
      have : ¬ n < s'.lp r' := by omega
      simp [skipped, this]
  | message r' n u noTxn told =>
    obtain ⟨rfl, hn, rfl⟩ := ht
    simp only [step, Option.some.injEq, if_true] at h
    subst h
    refine ⟨_, rfl, (emit_cur _ _ _).symm, emit_new (r := r') (by exact hs) ?_ ?_, ?_⟩
    · intro v hv; cases hv; exact Or.inr hn
    · intro x hx hxr
      exact ⟨_, rfl, by simp only [waits, decide_eq_true_eq]; exact hord x hx hxr⟩
    · intro s' hk
      have hk : s'.lp r' ≤ n ∧ u ∉ s'.ignored := hk
      have : ¬ n < s'.lp r' := by omega
      simp [skipped, this, hk.2]
  | space p c n deleted told =>
    obtain ⟨rfl, hn, rfl⟩ := ht
    simp only [step, Option.some.injEq, if_true] at h
    subst h
    refine ⟨_, rfl, (emit_cur _ _ _).symm, emit_new (r := c) (by exact hs) ?_ ?_, ?_⟩
    · intro v hv; cases hv; exact Or.inr hn
    · intro x hx hxr
      exact ⟨_, rfl, by simp only [waits, decide_eq_true_eq]; exact hord x hx hxr⟩
    · intro s' hk
      have hk : s'.lp c ≤ n := hk
      have : ¬ n < s'.lp c := by omega
      simp [skipped, this]
  | tag r' ts =>
    have ht : r' = r := ht
    subst ht
    simp only [step, Option.some.injEq] at h
    subst h
    refine ⟨_, rfl, (emit_cur _ _ _).symm, emit_new (r := r') (by exact hs) ?_ ?_, fun _ _ => rfl⟩
    · intro v hv; cases hv
    · intro x hx hxr
      exact absurd hxr (hord x hx)
  | other r' =>
    have ht : r' = r := ht
    subst ht
    simp only [step, Option.some.injEq] at h
    subst h
    refine ⟨_, rfl, (emit_cur _ _ _).symm, emit_new (r := r') (by exact hs) ?_ ?_, fun _ _ => rfl⟩
    · intro v hv; cases hv
    · intro x hx hxr
      exact absurd hxr (hord x hx)
  | connect => exact ht.elim
  | load _ _ _ => exact ht.elim
  | direct _ => exact ht.elim
  | ignore _ => exact ht.elim
  | invite _ _ _ => exact ht.elim
  | left _ _ => exact ht.elim
  | release _ => exact ht.elim
  | process _ _ _ => exact ht.elim
  | build _ _ => exact ht.elim
  | list _ => exact ht.elim

/-- `Right` and `Coming` depend only on these parts of the state. -/
theorem right_of {r : String} {f : Filters.Room} {s s' : St} (h : Right r f s) (h1 : s'.loaded = s.loaded) (h2 : s'.lists = s.lists)
    (h3 : s'.queue = s.queue) (h4 : s'.held = s.held) : Right r f s' := by
  unfold Right
  rw [h1, h2, h3, h4]
  exact h

theorem coming_of {r : String} {E : Entry} {s s' : St} (h : Coming r E s) (h3 : s'.queue = s.queue) (h4 : s'.held = s.held) :
    Coming r E s' := by
  unfold Coming
  rw [h3, h4]
  exact h

theorem mem_eraseP {p : Entry → Bool} {l : List Entry} {x : Entry} (h : x ∈ l.eraseP p) : x ∈ l := List.mem_of_mem_eraseP h

theorem release_coming {r : String} {E : Entry} {s : St} (h : Coming r E s) (hE : E.room = r) (w : String) {e : Entry}
    (he : s.held.find? (waits w) = some e) :
    Coming r E { s with held := s.held.eraseP (waits w), queue := s.queue ++ [e] } := by
  have hmem := List.mem_of_find?_eq_some he
  rcases h with ⟨q1, q2, h1, h2⟩ | ⟨v, a, b, h1, h2, h3, h4⟩
  · refine Or.inl ⟨q1, q2 ++ [e], by simp [h1], ?_⟩
    intro x hx
    simp only [List.mem_append, List.mem_singleton] at hx
    rcases hx with (hx | rfl) | hx
    · exact h2 x (by simp [hx])
    · exact h2 x (by simp [hmem])
    · exact h2 x (by simp [mem_eraseP hx])
  · by_cases ha : ∃ x ∈ a, waits w x = true
    · -- one of those before `E`
      obtain ⟨x, hxa, hxw⟩ := ha
      refine Or.inr ⟨v, a.eraseP (waits w), b, ?_, h2, fun y hy => h3 y (mem_eraseP hy), h4⟩
      show s.held.eraseP (waits w) = _
      rw [h1, List.eraseP_append_left hxw _ hxa]
    · have ha' : ∀ x ∈ a, ¬ waits w x = true := fun x hx hw => ha ⟨x, hx, hw⟩
      by_cases hEw : waits w E = true
      · -- `E` itself
        have hfind : e = E := by
          rw [h1, List.find?_append, List.find?_eq_none.2 ha', Option.none_or, List.find?_cons_of_pos hEw] at he
          exact (Option.some.inj he).symm
        subst hfind
        have hwv : v = w := by
          simp only [waits, decide_eq_true_eq] at hEw h2
          rw [hEw] at h2
          exact (Option.some.inj h2).symm
        subst hwv
        refine Or.inl ⟨s.queue, [], rfl, ?_⟩
        intro x hx hxr
        have hx : x ∈ s.held.eraseP (waits v) := by simpa using hx
        rw [h1, List.eraseP_append_right _ ha', List.eraseP_cons_of_pos hEw] at hx
        rcases List.mem_append.1 hx with hx | hx
        · rcases h3 x hx hxr with h | h
          · exact h
          · exact absurd h (ha' x hx)
        · exact h4 x hx hxr
      · -- one of those after `E`
        refine Or.inr ⟨v, a, b.eraseP (waits w), ?_, h2, h3, fun y hy => h4 y (mem_eraseP hy)⟩
        show s.held.eraseP (waits w) = _
        rw [h1, List.eraseP_append_right _ ha', List.eraseP_cons_of_neg hEw]

theorem release_right {r : String} {f : Filters.Room} {s : St} (h : Right r f s) (w : String) {e : Entry}
    (he : s.held.find? (waits w) = some e) : Right r f { s with held := s.held.eraseP (waits w), queue := s.queue ++ [e] } := by
  obtain ⟨h1, h2, h3⟩ := h
  refine ⟨h1, h2, ?_⟩
  have hmem := List.mem_of_find?_eq_some he
  intro x hx
  simp only [List.mem_append, List.mem_singleton] at hx
  rcases hx with (hx | rfl) | hx
  · exact h3 x (by simp [hx])
  · exact h3 x (by simp [hmem])
  · exact h3 x (by simp [mem_eraseP hx])

theorem step_linv {s s' : St} (h : LInv S s.lists) {o : Op} (ho : GoodOp o) (hst : step S s o = some s') : LInv S s'.lists := by
  cases o with
  | connect => simp only [step, Option.some.injEq] at hst; subst hst; exact h
  | load rooms invites pos =>
    simp only [step] at hst
    split at hst
    · simp only [Option.some.injEq] at hst; subst hst; exact h
    · simp only [Option.map_eq_some_iff] at hst
      obtain ⟨l, hl, rfl⟩ := hst
      exact (setAll_inv S h hl).1
  | state r n g mine told =>
    simp only [step, Option.some.injEq] at hst
    subst hst
    split
    · rw [emit_lists]; exact h
    · exact h
  | message r n u t told =>
    simp only [step, Option.some.injEq] at hst
    subst hst
    split
    · rw [emit_lists]; exact h
    · exact h
  | space p c n d told =>
    simp only [step, Option.some.injEq] at hst
    subst hst
    split
    · rw [emit_lists]; exact h
    · exact h
  | tag r ts => simp only [step, Option.some.injEq] at hst; subst hst; rw [emit_lists]; exact h
  | direct rs => simp only [step, Option.some.injEq] at hst; subst hst; exact h
  | ignore us => simp only [step, Option.some.injEq] at hst; subst hst; exact h
  | other r => simp only [step, Option.some.injEq] at hst; subst hst; rw [emit_lists]; exact h
  | invite r g dm => simp only [step, Option.some.injEq] at hst; subst hst; rw [emit_lists]; exact h
  | left r a => simp only [step, Option.some.injEq] at hst; subst hst; rw [emit_lists]; exact h
  | release w =>
    simp only [step] at hst
    split at hst <;> (simp only [Option.some.injEq] at hst; subst hst; exact h)
  | process req x vis =>
    simp only [step] at hst
    split at hst
    · unfold process at hst
      split at hst
      · simp only [Option.some.injEq] at hst; subst hst; exact h
      · split at hst
        · simp only [Option.some.injEq] at hst; subst hst; exact h
        · simp only [Option.map_eq_some_iff] at hst
          obtain ⟨l, hl, rfl⟩ := hst
          exact (update_inv S h hl).1
    · simp only [Option.some.injEq] at hst; subst hst; exact h
  | build r p => simp only [step, Option.some.injEq] at hst; subst hst; exact h
  | list o =>
    cases o with
    | update req r => simp only [step, Option.some.injEq] at hst; subst hst; exact h
    | assign key f so ow perm =>
      simp only [step, Option.map_eq_some_iff] at hst
      obtain ⟨l, hl, rfl⟩ := hst
      exact (list_inv S h (o := .assign key f so ow perm) ho (fun _ _ h => by cases h) hl).1
    | sort key by_ =>
      simp only [step, Option.map_eq_some_iff] at hst
      obtain ⟨l, hl, rfl⟩ := hst
      exact (list_inv S h (o := .sort key by_) ho (fun _ _ h => by cases h) hl).1
    | delete key =>
      simp only [step, Option.map_eq_some_iff] at hst
      obtain ⟨l, hl, rfl⟩ := hst
      exact (list_inv S h (o := .delete key) ho (fun _ _ h => by cases h) hl).1
    | touch key id =>
      simp only [step, Option.map_eq_some_iff] at hst
      obtain ⟨l, hl, rfl⟩ := hst
      exact (list_inv S h (o := .touch key id) ho (fun _ _ h => by cases h) hl).1

theorem step_list {s s' : St} (h : LInv S s.lists) {o : Lists.Op} (ho : Lists.Good o) (hst : step S s (.list o) = some s') :
    s'.loaded = s.loaded ∧ s'.queue = s.queue ∧ s'.held = s.held ∧ ∀ i, (s'.lists.all i).map (·.f) = (s.lists.all i).map (·.f) := by
  cases o with
  | update req r => simp only [step, Option.some.injEq] at hst; subst hst; exact ⟨rfl, rfl, rfl, fun _ => rfl⟩
  | assign key f so ow perm =>
    simp only [step, Option.map_eq_some_iff] at hst
    obtain ⟨l, hl, rfl⟩ := hst
    exact ⟨rfl, rfl, rfl, (list_inv S h (o := .assign key f so ow perm) ho (fun _ _ h => by cases h) hl).2⟩
  | sort key by_ =>
    simp only [step, Option.map_eq_some_iff] at hst
    obtain ⟨l, hl, rfl⟩ := hst
    exact ⟨rfl, rfl, rfl, (list_inv S h (o := .sort key by_) ho (fun _ _ h => by cases h) hl).2⟩
  | delete key =>
    simp only [step, Option.map_eq_some_iff] at hst
    obtain ⟨l, hl, rfl⟩ := hst
    exact ⟨rfl, rfl, rfl, (list_inv S h (o := .delete key) ho (fun _ _ h => by cases h) hl).2⟩
  | touch key id =>
    simp only [step, Option.map_eq_some_iff] at hst
    obtain ⟨l, hl, rfl⟩ := hst
    exact ⟨rfl, rfl, rfl, (list_inv S h (o := .touch key id) ho (fun _ _ h => by cases h) hl).2⟩

/-- A step that only makes an update of a room: what it may put on its way. -/
inductive Emits (s : St) (r : String) (f : Filters.Room) (s' : St) : Prop
  | quiet (h1 : s'.loaded = s.loaded) (h2 : s'.lists = s.lists) (h3 : s'.queue = s.queue) (h4 : s'.held = s.held)
  | one (t : St) (e : Entry) (h0 : s' = emit t e) (h1 : t.loaded = s.loaded) (h2 : t.lists = s.lists) (h3 : t.queue = s.queue)
      (h4 : t.held = s.held) (he : e.room = r → e.f = f)

def IsEmit : Op → Prop
  | .load _ _ _ => False
  | .release _ => False
  | .process _ _ _ => False
  | .list _ => False
  | _ => True

theorem emits {s s' : St} {r : String} {f : Filters.Room} {o : Op} (hp : Plain r o) (hi : IsEmit o) (hc : cur s' r = f)
    (hst : step S s o = some s') : Emits s r f s' := by
  cases o with
  | connect => simp only [step, Option.some.injEq] at hst; subst hst; exact .quiet rfl rfl rfl rfl
  | load _ _ _ => exact hi.elim
  | state r' n g mine told =>
    simp only [step, Option.some.injEq] at hst
    subst hst
    cases told with
    | false => exact .quiet rfl rfl rfl rfl
    | true =>
      rw [if_pos rfl, emit_cur] at hc
      refine .one _ _ (if_pos rfl) rfl rfl rfl rfl ?_
      intro hr
      have hr : r' = r := hr
      subst hr
      exact hc
  | message r' n u t told =>
    simp only [step, Option.some.injEq] at hst
    subst hst
    cases told with
    | false => exact .quiet rfl rfl rfl rfl
    | true =>
      rw [if_pos rfl, emit_cur] at hc
      refine .one _ _ (if_pos rfl) rfl rfl rfl rfl ?_
      intro hr
      have hr : r' = r := hr
      subst hr
      exact hc
  | space p c n d told =>
    simp only [step, Option.some.injEq] at hst
    subst hst
    cases told with
    | false => exact .quiet rfl rfl rfl rfl
    | true =>
      rw [if_pos rfl, emit_cur] at hc
      refine .one _ _ (if_pos rfl) rfl rfl rfl rfl ?_
      intro hr
      have hr : c = r := hr
      subst hr
      exact hc
  | tag r' ts =>
    simp only [step, Option.some.injEq] at hst
    subst hst
    rw [emit_cur] at hc
    refine .one _ _ rfl rfl rfl rfl rfl ?_
    intro hr
    have hr : r' = r := hr
    subst hr
    exact hc
  | direct rs => simp only [step, Option.some.injEq] at hst; subst hst; exact .quiet rfl rfl rfl rfl
  | ignore us => simp only [step, Option.some.injEq] at hst; subst hst; exact .quiet rfl rfl rfl rfl
  | other r' =>
    simp only [step, Option.some.injEq] at hst
    subst hst
    rw [emit_cur] at hc
    refine .one _ _ rfl rfl rfl rfl rfl ?_
    intro hr
    have hr : r' = r := hr
    subst hr
    exact hc
  | invite r' g dm =>
    simp only [step, Option.some.injEq] at hst
    subst hst
    exact .one _ _ rfl rfl rfl rfl rfl fun hr => absurd hr hp
  | left r' a =>
    simp only [step, Option.some.injEq] at hst
    subst hst
    exact .one _ _ rfl rfl rfl rfl rfl fun hr => absurd hr hp
  | release _ => exact hi.elim
  | process _ _ _ => exact hi.elim
  | build r' p => simp only [step, Option.some.injEq] at hst; subst hst; exact .quiet rfl rfl rfl rfl
  | list _ => exact hi.elim

theorem emits_right {s s' : St} {r : String} {f : Filters.Room} (h : Right r f s) (he : Emits s r f s') : Right r f s' := by
  cases he with
  | quiet h1 h2 h3 h4 => exact right_of h h1 h2 h3 h4
  | one t e h0 h1 h2 h3 h4 he => rw [h0]; exact emit_right (right_of h h1 h2 h3 h4) he

theorem emits_coming {s s' : St} {r : String} {E : Entry} (h : Coming r E s) (he : Emits s r E.f s') : Coming r E s' := by
  cases he with
  | quiet h1 h2 h3 h4 => exact coming_of h h3 h4
  | one t e h0 h1 h2 h3 h4 he => rw [h0]; exact emit_coming (coming_of h h3 h4) he

theorem step_right {s s' : St} {r : String} {f : Filters.Room} {o : Op} (hl : LInv S s.lists) (h : Right r f s) (ho : GoodOp o)
    (hp : Plain r o) (hc : cur s' r = f) (hst : step S s o = some s') : Right r f s' := by
  by_cases hi : IsEmit o
  · exact emits_right h (emits S hp hi hc hst)
  · cases o with
    | load rooms invites pos =>
      simp only [step, h.1, if_true, Option.some.injEq] at hst
      subst hst
      exact h
    | release w =>
      simp only [step] at hst
      split at hst
      · simp only [Option.some.injEq] at hst; subst hst; exact h
      · rename_i e he
        simp only [Option.some.injEq] at hst
        subst hst
        exact release_right h w he
    | process req x vis =>
      simp only [step, h.1, if_true] at hst
      unfold process at hst
      obtain ⟨h1, h2, h3⟩ := h
      split at hst
      · simp only [Option.some.injEq] at hst; subst hst; exact ⟨h1, h2, h3⟩
      · rename_i e q hq
        have h3' : ∀ y ∈ q ++ s.held, y.room = r → y.f = f := fun y hy => h3 y (by rw [hq, List.cons_append]; exact List.mem_cons_of_mem _ hy)
        split at hst
        · simp only [Option.some.injEq] at hst
          subst hst
          exact ⟨h1, h2, h3'⟩
        · simp only [Option.map_eq_some_iff] at hst
          obtain ⟨l, hu, rfl⟩ := hst
          refine ⟨h1, ?_, h3'⟩
          show (l.all r).map (·.f) = some f
          rw [(update_inv S hl hu).2 r]
          show (if r = e.room then some e.f else _) = _
          by_cases hr : r = e.room
          · rw [if_pos hr, h3 e (by rw [hq]; simp) hr.symm]
          · rw [if_neg hr]; exact h2
    | list o =>
      obtain ⟨a, b, c, d⟩ := step_list S hl ho hst
      obtain ⟨h1, h2, h3⟩ := h
      refine ⟨a.trans h1, (d r).trans h2, ?_⟩
      rw [b, c]
      exact h3
    | _ => exact absurd trivial hi

theorem step_coming {s s' : St} {r : String} {E : Entry} {o : Op} (hl : LInv S s.lists) (h : Coming r E s) (hE : E.room = r)
    (hk : skipped s E = false) (hp : Plain r o) (hc : cur s' r = E.f) (hst : step S s o = some s') :
    Coming r E s' ∨ Right r E.f s' := by
  by_cases hi : IsEmit o
  · exact Or.inl (emits_coming h (emits S hp hi hc hst))
  · cases o with
    | load rooms invites pos =>
      simp only [step] at hst
      split at hst
      · simp only [Option.some.injEq] at hst; subst hst; exact Or.inl h
      · simp only [Option.map_eq_some_iff] at hst
        obtain ⟨l, _, rfl⟩ := hst
        exact Or.inl (coming_of h rfl rfl)
    | release w =>
      simp only [step] at hst
      split at hst
      · simp only [Option.some.injEq] at hst; subst hst; exact Or.inl h
      · rename_i e he
        simp only [Option.some.injEq] at hst
        subst hst
        exact Or.inl (release_coming h hE w he)
    | process req x vis =>
      simp only [step] at hst
      split at hst
      · rename_i hld
        unfold process at hst
        split at hst
        · simp only [Option.some.injEq] at hst; subst hst; exact Or.inl h
        · rename_i e q hq
          rcases h with ⟨q1, q2, h1, h2⟩ | h
          · cases q1 with
            | nil =>
              rw [hq] at h1
              cases h1
              rw [if_neg (by simp [hk])] at hst
              simp only [Option.map_eq_some_iff] at hst
              obtain ⟨l, hu, rfl⟩ := hst
              refine Or.inr ⟨hld, ?_, h2⟩
              show (l.all r).map (·.f) = _
              rw [(update_inv S hl hu).2 r]
              exact if_pos hE.symm
            | cons e0 q1 =>
              rw [hq] at h1
              cases h1
              left
              split at hst
              · simp only [Option.some.injEq] at hst
                subst hst
                exact Or.inl ⟨q1, q2, rfl, h2⟩
              · simp only [Option.map_eq_some_iff] at hst
                obtain ⟨l, _, rfl⟩ := hst
                exact Or.inl ⟨q1, q2, rfl, h2⟩
          · left
            split at hst
            · simp only [Option.some.injEq] at hst
              subst hst
              exact Or.inr h
            · simp only [Option.map_eq_some_iff] at hst
              obtain ⟨l, _, rfl⟩ := hst
              exact Or.inr h
      · simp only [Option.some.injEq] at hst; subst hst; exact Or.inl h
    | list o =>
      left
      cases o with
      | update req r => simp only [step, Option.some.injEq] at hst; subst hst; exact h
      | assign key f so ow perm =>
        simp only [step, Option.map_eq_some_iff] at hst
        obtain ⟨l, _, rfl⟩ := hst
        exact coming_of h rfl rfl
      | sort key by_ =>
        simp only [step, Option.map_eq_some_iff] at hst
        obtain ⟨l, _, rfl⟩ := hst
        exact coming_of h rfl rfl
      | delete key =>
        simp only [step, Option.map_eq_some_iff] at hst
        obtain ⟨l, _, rfl⟩ := hst
        exact coming_of h rfl rfl
      | touch key id =>
        simp only [step, Option.map_eq_some_iff] at hst
        obtain ⟨l, _, rfl⟩ := hst
        exact coming_of h rfl rfl
    | _ => exact absurd trivial hi

theorem run_append {s s' : St} {a : List Op} (h : run S s a = some s') (b : List Op) : run S s (a ++ b) = run S s' b := by
  induction a generalizing s with
  | nil => simp only [run, Option.some.injEq] at h; subst h; rfl
  | cons o a ih =>
    simp only [run, Option.bind_eq_some_iff] at h
    obtain ⟨t, h1, h2⟩ := h
    simp only [List.cons_append, run, h1, Option.bind_some]
    exact ih h2

theorem run_linv {s s' : St} (h : LInv S s.lists) {ops : List Op} (ho : ∀ o ∈ ops, GoodOp o) (hr : run S s ops = some s') :
    LInv S s'.lists := by
  induction ops generalizing s with
  | nil => simp only [run, Option.some.injEq] at hr; subst hr; exact h
  | cons o ops ih =>
    simp only [run, Option.bind_eq_some_iff] at hr
    obtain ⟨t, h1, h2⟩ := hr
    exact ih (step_linv S h (ho o (List.mem_cons_self ..)) h1) (fun x hx => ho x (List.mem_cons_of_mem _ hx)) h2

theorem linv_init : LInv S ({} : St).lists := ⟨Lists.init_inv, fun _ _ h => nomatch h⟩

theorem run_right {s s' : St} {r : String} {f : Filters.Room} (hl : LInv S s.lists) (h : Right r f s) {b : List Op}
    (ho : ∀ o ∈ b, GoodOp o) (hp : ∀ o ∈ b, Plain r o) (hc : Steady S s b r f) (hr : run S s b = some s') : Right r f s' := by
  induction b generalizing s with
  | nil => simp only [run, Option.some.injEq] at hr; subst hr; exact h
  | cons o b ih =>
    have hr0 := hr
    simp only [run, Option.bind_eq_some_iff] at hr
    obtain ⟨t, h1, h2⟩ := hr
    have hrun : ∀ b1, run S s (o :: b1) = run S t b1 := fun b1 => by simp [run, h1]
    have hct : cur t r = f := hc [o] b t rfl (by rw [hrun]; rfl)
    refine ih (step_linv S hl (ho o (List.mem_cons_self ..)) h1)
      (step_right S hl h (ho o (List.mem_cons_self ..)) (hp o (List.mem_cons_self ..)) hct h1)
      (fun x hx => ho x (List.mem_cons_of_mem _ hx)) (fun x hx => hp x (List.mem_cons_of_mem _ hx)) ?_ h2
    intro b1 b2 u he hu
    exact hc (o :: b1) b2 u (by rw [he]; rfl) (by rw [hrun]; exact hu)

theorem run_coming {s s' : St} {r : String} {E : Entry} (hl : LInv S s.lists) (h : Coming r E s) (hE : E.room = r) {b : List Op}
    (hk : ∀ b1 b2 u, b = b1 ++ b2 → run S s b1 = some u → skipped u E = false)
    (ho : ∀ o ∈ b, GoodOp o) (hp : ∀ o ∈ b, Plain r o) (hc : Steady S s b r E.f) (hr : run S s b = some s') :
    Coming r E s' ∨ Right r E.f s' := by
  induction b generalizing s with
  | nil => simp only [run, Option.some.injEq] at hr; subst hr; exact Or.inl h
  | cons o b ih =>
    simp only [run, Option.bind_eq_some_iff] at hr
    obtain ⟨t, h1, h2⟩ := hr
    have hrun : ∀ b1, run S s (o :: b1) = run S t b1 := fun b1 => by simp [run, h1]
    have hct : cur t r = E.f := hc [o] b t rfl (by rw [hrun]; rfl)
    have hc' : Steady S t b r E.f := fun b1 b2 u he hu => hc (o :: b1) b2 u (by rw [he]; rfl) (by rw [hrun]; exact hu)
    have hl' := step_linv S hl (ho o (List.mem_cons_self ..)) h1
    rcases step_coming S hl h hE (hk [] (o :: b) s rfl rfl) (hp o (List.mem_cons_self ..)) hct h1 with h | h
    · refine ih hl' h ?_ (fun x hx => ho x (List.mem_cons_of_mem _ hx)) (fun x hx => hp x (List.mem_cons_of_mem _ hx)) hc' h2
      intro b1 b2 u he hu
      exact hk (o :: b1) b2 u (by rw [he]; rfl) (by rw [hrun]; exact hu)
    · exact Or.inr (run_right S hl' h (fun x hx => ho x (List.mem_cons_of_mem _ hx)) (fun x hx => hp x (List.mem_cons_of_mem _ hx)) hc' h2)

/-- What a room with a right copy is listed in. -/
theorem listed {s : St} {r : String} (hl : LInv S s.lists) (h : (s.lists.all r).map (·.f) = some (cur s r))
    (hn : (cur s r).upgraded = none) (hleft : (cur s r).hasLeft = false) {k : String} {fl : Lists.FList}
    (hget : Lists.getList s.lists k = some fl) (hf : fl.filter.roomTypes = [] ∨ fl.filter.spaces = []) :
    r ∈ fl.sr.ids ↔ Filters.Matches S.lower (Lists.findF s.lists.all) fl.filter (cur s r) := by
  simp only [Option.map_eq_some_iff] at h
  obtain ⟨rm, h1, h2⟩ := h
  rw [← h2] at hn hleft ⊢
  rw [hl.right r rm h1 hn hleft k fl hget]
  exact Filters.C10_include_partial _ _ _ _ hf

/-- A room that is loaded when there is no update of it on its way. -/
theorem load_right {s s1 : St} {rooms : List (String × X)} {invites : List (String × G × X)} {pos : String → Option Nat} {r : String}
    {f : Filters.Room} (hl : LInv S s.lists) (hnl : s.loaded = false) (hr : ∃ x, (r, x) ∈ rooms) (hni : (s.usr r).isInvite = false)
    (hq : ∀ e ∈ s.queue ++ s.held, e.room ≠ r) (h1 : step S s (.load rooms invites pos) = some s1) (hf : cur s1 r = f) :
    Right r f s1 := by
  simp only [step, hnl, Bool.false_eq_true, if_false, Option.map_eq_some_iff] at h1
  obtain ⟨l, hset, rfl⟩ := h1
  refine ⟨rfl, ?_, fun e he her => absurd her (hq e he)⟩
  refine (setAll_inv S hl hset).2 r _ (Or.inr ?_) ?_
  · obtain ⟨x, hx⟩ := hr
    exact ⟨room r (cur s r) x, List.mem_append_left _ (List.mem_map.2 ⟨(r, x), hx, rfl⟩), rfl⟩
  · intro y hy hyr
    rcases List.mem_append.1 hy with hy | hy
    · obtain ⟨p, _, rfl⟩ := List.mem_map.1 hy
      have hyr : p.1 = r := hyr
      show cur s p.1 = _
      rw [hyr]
      exact hf
    · obtain ⟨p, hp, rfl⟩ := List.mem_map.1 hy
      have hyr : p.1 = r := hyr
      have := (List.mem_filter.1 hp).2
      rw [hyr, hni] at this
      cases this

/-! ## C137 -/

/-- If a step `o` tells the connection of a room, and nothing about the room changes after it, then once the updates are processed the
connection's copy of the room is what the caches say.  Missing: direct chats, of which nothing is told (`C137_violated_direct`); updates
that overtake held ones (`C137_violated_held`: excluded by `InOrder`); rooms sent past the event while it is queued, if the later events
are ignored (`C137_violated_ignored`: excluded by `Kept`). -/
theorem C137_copy_partial (a b : List Op) (o : Op) (r : String) (s s1 s2 : St) (hgood : ∀ x ∈ a ++ o :: b, GoodOp x)
    (h0 : run S {} a = some s) (hs : s.subscribed = true) (ht : Tells r o) (hord : InOrder s r o) (h1 : step S s o = some s1)
    (h2 : run S s1 b = some s2) (hkept : ∀ b1 b2 s', b = b1 ++ b2 → run S s1 b1 = some s' → Kept s' r o)
    (hplain : ∀ x ∈ b, Plain r x) (hsteady : Steady S s1 b r (now s2 r)) (hup : CaughtUp s2 r) :
    (s2.lists.all r).map (·.f) = some (now s2 r) := by
  have hl0 := run_linv S (linv_init S) (fun x hx => hgood x (by simp [hx])) h0
  have hl1 := step_linv S hl0 (hgood o (by simp)) h1
  obtain ⟨E, hE, hf, hco, hk⟩ := tell S hs ht hord h1
  have hfe : E.f = now s2 r := hf.trans (hsteady [] b s1 rfl rfl)
  have := run_coming S hl1 hco hE (fun b1 b2 u he hu => hk u (hkept b1 b2 u he hu)) (fun x hx => hgood x (by simp [hx])) hplain
    (by rw [hfe]; exact hsteady) h2
  rcases this with h | h
  · exfalso
    rcases h with ⟨q1, q2, hq, _⟩ | ⟨w, x, y, hq, _⟩
    · exact hup.2 E (by rw [hq]; simp) hE
    · exact hup.2 E (by rw [hq]; simp) hE
  · rw [← hfe]; exact h.2.1

/-- Then the room, unless it is upgraded or left, is in exactly the lists whose filters it matches now.  Missing: as above, and upgraded
rooms, which are not taken out of lists when the new room is joined (`C137_violated_upgrade`). -/
theorem C137_listed_partial (a b : List Op) (o : Op) (r : String) (s s1 s2 : St) (hgood : ∀ x ∈ a ++ o :: b, GoodOp x)
    (h0 : run S {} a = some s) (hs : s.subscribed = true) (ht : Tells r o) (hord : InOrder s r o) (h1 : step S s o = some s1)
    (h2 : run S s1 b = some s2) (hkept : ∀ b1 b2 s', b = b1 ++ b2 → run S s1 b1 = some s' → Kept s' r o)
    (hplain : ∀ x ∈ b, Plain r x) (hsteady : Steady S s1 b r (now s2 r)) (hup : CaughtUp s2 r)
    (hn : (now s2 r).upgraded = none) (hleft : (now s2 r).hasLeft = false) (k : String) (fl : Lists.FList)
    (hget : Lists.getList s2.lists k = some fl) (hf : fl.filter.roomTypes = [] ∨ fl.filter.spaces = []) :
    r ∈ fl.sr.ids ↔ Filters.Matches S.lower (Lists.findF s2.lists.all) fl.filter (now s2 r) := by
  have hl0 := run_linv S (linv_init S) (fun x hx => hgood x (by simp [hx])) h0
  have hl2 := run_linv S (step_linv S hl0 (hgood o (by simp)) h1) (fun x hx => hgood x (by simp [hx])) h2
  exact listed S hl2 (C137_copy_partial S a b o r s s1 s2 hgood h0 hs ht hord h1 h2 hkept hplain hsteady hup) hn hleft hget hf

/-- The same holds for the rooms that are loaded when there is no update of them on its way. -/
theorem C137_loaded_partial (a b : List Op) (rooms : List (String × X)) (invites : List (String × G × X)) (pos : String → Option Nat)
    (r : String) (s s1 s2 : St) (hgood : ∀ x ∈ a ++ b, GoodOp x) (h0 : run S {} a = some s) (hnl : s.loaded = false)
    (hr : ∃ x, (r, x) ∈ rooms) (hni : (s.usr r).isInvite = false) (hq : ∀ e ∈ s.queue ++ s.held, e.room ≠ r)
    (h1 : step S s (.load rooms invites pos) = some s1) (h2 : run S s1 b = some s2) (hplain : ∀ x ∈ b, Plain r x)
    (hsteady : Steady S s1 b r (now s2 r)) :
    (s2.lists.all r).map (·.f) = some (now s2 r) ∧
    ((now s2 r).upgraded = none → (now s2 r).hasLeft = false → ∀ (k : String) (fl : Lists.FList),
      Lists.getList s2.lists k = some fl → fl.filter.roomTypes = [] ∨ fl.filter.spaces = [] →
      (r ∈ fl.sr.ids ↔ Filters.Matches S.lower (Lists.findF s2.lists.all) fl.filter (now s2 r))) := by
  have hl0 := run_linv S (linv_init S) (fun x hx => hgood x (by simp [hx])) h0
  have hl1 := step_linv S (o := .load rooms invites pos) hl0 trivial h1
  have hb : ∀ x ∈ b, GoodOp x := fun x hx => hgood x (by simp [hx])
  have hf1 : cur s1 r = now s2 r := hsteady [] b s1 rfl rfl
  have hright : Right r (now s2 r) s1 := load_right S hl0 hnl hr hni hq h1 hf1
  have h3 := (run_right S hl1 hright hb hplain hsteady h2).2.1
  exact ⟨h3, fun hn hleft k fl hget hf => listed S (run_linv S hl1 hb h2) h3 hn hleft hget hf⟩

end Verif.FilterFlow
