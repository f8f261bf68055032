import Verif.Ownership
/-!
# C132: what a connection was given does not change under it

The specification compares contents: what an address of something handed over has at the end with what the caches had at the
time.  It knows nothing of kinds of addresses, which are a device of the proof.
-/
namespace Verif.Ownership

open Verif

/-- The addresses of what was handed over that must not change: all but the spaces. -/
def frozen (g : Given) : List Nat := [g.md.heroes, g.md.latest, g.md.children, g.urd.tags]

def objAt (h : List Obj) (a : Nat) : Obj := h[a]?.getD []

/-- What a connection sees of what it was given. -/
def shown (h : List Obj) (g : Given) : List Obj := (frozen g).map (objAt h)

/-- Heroes, latest events and children of a room and the user's tags of it, as the caches have them. -/
def current (s : State) (room : String) : List Obj :=
  (match Assoc.get s.global room with
    | none => [[], [], []]
    | some m => [objAt s.heap m.heroes, objAt s.heap m.latest, objAt s.heap m.children]) ++
  [match Assoc.get s.user room with
    | none => []
    | some u => objAt s.heap u.tags]

/-! ## Kinds of addresses -/

inductive Kind
  | glob
  | spaces (room : String)
  | fixed
  deriving DecidableEq

def addrs (m : Meta) : List Nat := [m.heroes, m.latest, m.children]

structure Typed (k : List Kind) (s : State) : Prop where
  len : k.length = s.heap.length
  glob : ∀ (r : String) (m : Meta), Assoc.get s.global r = some m → ∀ a ∈ addrs m, k[a]? = some .glob
  user : ∀ (r : String) (u : Urd), Assoc.get s.user r = some u → k[u.spaces]? = some (.spaces r) ∧ k[u.tags]? = some .fixed
  given : ∀ g ∈ s.given, (∀ a ∈ frozen g, k[a]? = some .fixed) ∧ k[g.urd.spaces]? = some (.spaces g.room)

theorem grow {k x : List Kind} {a : Nat} {c : Kind} (h : k[a]? = some c) : (k ++ x)[a]? = some c := by
  obtain ⟨hl, -⟩ := List.getElem?_eq_some_iff.1 h
  rw [List.getElem?_append_left hl]; exact h

theorem inBounds {k : List Kind} {a : Nat} {c : Kind} (h : k[a]? = some c) : a < k.length :=
  (List.getElem?_eq_some_iff.1 h).1

theorem new0 (k x : List Kind) (c : Kind) : (k ++ c :: x)[k.length]? = some c := by simp

theorem new1 (k x : List Kind) (b c : Kind) : (k ++ b :: c :: x)[k.length + 1]? = some c := by
  rw [List.getElem?_append_right (by omega)]; simp

theorem new2 (k x : List Kind) (a b c : Kind) : (k ++ a :: b :: c :: x)[k.length + 2]? = some c := by
  rw [List.getElem?_append_right (by omega)]; simp

/-- Only the heap has grown. -/
theorem typed_heap {k x : List Kind} {s : State} (y : List Obj) (h : Typed k s) (hx : x.length = y.length) :
    Typed (k ++ x) { s with heap := s.heap ++ y } :=
  ⟨by simp [h.len, hx], fun r m e a ha => grow (h.glob r m e a ha), fun r u e => ⟨grow (h.user r u e).1, grow (h.user r u e).2⟩,
    fun g hg => ⟨fun a ha => grow ((h.given g hg).1 a ha), grow (h.given g hg).2⟩⟩

/-- Objects were changed in place. -/
theorem typed_write {k : List Kind} {s : State} (h : Typed k s) (hp : List Obj) (hl : hp.length = s.heap.length) :
    Typed k { s with heap := hp } := ⟨h.len.trans hl.symm, h.glob, h.user, h.given⟩

theorem write_length (h : List Obj) (a : Nat) (f : Obj → Obj) : (write h a f).length = h.length := by simp [write]

theorem write_other (h : List Obj) (a b : Nat) (f : Obj → Obj) (hb : b ≠ a) : (write h a f)[b]? = h[b]? := by
  simp only [write, List.getElem?_modify]
  cases h[b]? <;> simp [Ne.symm hb]

theorem typed_user {k : List Kind} {s : State} (h : Typed k s) (room : String) (u : Urd)
    (h1 : k[u.spaces]? = some (.spaces room)) (h2 : k[u.tags]? = some .fixed) :
    Typed k { s with user := Assoc.set s.user room u } := by
  refine ⟨h.len, h.glob, ?_, h.given⟩
  intro r v hv
  rw [Assoc.get_set] at hv
  by_cases hr : r = room
  · subst hr
    rw [if_pos rfl] at hv
    cases hv
    exact ⟨h1, h2⟩
  · rw [if_neg hr] at hv
    exact h.user r v hv

theorem typed_global {k : List Kind} {s : State} (h : Typed k s) (room : String) (m : Meta)
    (h1 : ∀ a ∈ addrs m, k[a]? = some .glob) : Typed k { s with global := Assoc.set s.global room m } := by
  refine ⟨h.len, ?_, h.user, h.given⟩
  intro r v hv
  rw [Assoc.get_set] at hv
  by_cases hr : r = room
  · subst hr
    rw [if_pos rfl] at hv
    cases hv
    exact h1
  · rw [if_neg hr] at hv
    exact h.glob r v hv

theorem loadUrd_typed {k : List Kind} {s : State} (h : Typed k s) (room : String) :
    ∃ x y, Typed (k ++ x) (loadUrd s room).1 ∧ (loadUrd s room).1 = { s with heap := s.heap ++ y } ∧
      (k ++ x)[(loadUrd s room).2.spaces]? = some (.spaces room) ∧ (k ++ x)[(loadUrd s room).2.tags]? = some .fixed := by
  cases hu : Assoc.get s.user room with
  | none =>
    refine ⟨[.spaces room, .fixed], [[], []], ?_, ?_, ?_, ?_⟩
    · simp only [loadUrd, hu, newUrd]; exact typed_heap _ h rfl
    · simp only [loadUrd, hu, newUrd]
    · simp only [loadUrd, hu, newUrd, ← h.len]; exact new0 _ _ _
    · simp only [loadUrd, hu, newUrd, ← h.len]; exact new1 _ _ _ _
  | some u =>
    refine ⟨[], [], ?_, ?_, ?_, ?_⟩
    · simpa only [loadUrd, hu, List.append_nil] using h
    · simp only [loadUrd, hu, List.append_nil]
    · simpa only [loadUrd, hu, List.append_nil] using (h.user _ _ hu).1
    · simpa only [loadUrd, hu, List.append_nil] using (h.user _ _ hu).2

theorem copyRoom_heap (s : State) (room : String) : ∃ a b c, (copyRoom s room).1 = s.heap ++ [a, b, c] ∧
    (copyRoom s room).2 = ⟨s.heap.length, s.heap.length + 1, s.heap.length + 2⟩ := by
  simp only [copyRoom]
  cases Assoc.get s.global room with
  | none => exact ⟨_, _, _, rfl, rfl⟩
  | some m => exact ⟨_, _, _, rfl, rfl⟩

theorem give_typed {k : List Kind} {s : State} (h : Typed k s) (room : String) :
    ∃ x y, Typed (k ++ x) (give s room) ∧ (give s room).heap = s.heap ++ y := by
  obtain ⟨x, y, ht, hs, h1, h2⟩ := loadUrd_typed h room
  obtain ⟨a, b, c, hc1, hc2⟩ := copyRoom_heap (loadUrd s room).1 room
  refine ⟨x ++ [.fixed, .fixed, .fixed], y ++ [a, b, c], ?_, ?_⟩
  · rw [← List.append_assoc]
    have hh := typed_heap (x := [.fixed, .fixed, .fixed]) [a, b, c] ht rfl
    refine ⟨?_, ?_, ?_, ?_⟩
    · have := hh.len
      simp only [give, hc1]; exact this
    · exact hh.glob
    · exact hh.user
    · intro g hg
      rcases List.mem_append.1 hg with hg | hg
      · exact hh.given g hg
      · rw [List.mem_singleton] at hg
        subst hg
        refine ⟨?_, grow h1⟩
        intro e he
        simp only [frozen, hc2, List.mem_cons, List.not_mem_nil, or_false] at he
        rw [← ht.len] at he
        rcases he with rfl | rfl | rfl | rfl
        · exact new0 _ _ _
        · exact new1 _ _ _ _
        · exact new2 _ _ _ _ _
        · exact grow h2
  · show (copyRoom (loadUrd s room).1 room).1 = _
    rw [hc1, hs, List.append_assoc]

/-- What one step does to the kinds and to the heap. -/
structure Good (k : List Kind) (s : State) (o : Op) (t : State) (w : List Nat) : Prop where
  typed : ∃ x, Typed (k ++ x) t ∧ ∀ a ∈ w, (k ++ x)[a]? = some .glob ∨ ∃ p c d j, o = .space p c d j ∧ (k ++ x)[a]? = some (.spaces c)
  kept : ∀ a, a < s.heap.length → a ∉ w → t.heap[a]? = s.heap[a]?

theorem metaOf_typed {k : List Kind} {s : State} (h : Typed k s) (room : String) :
    ∃ x y, Typed (k ++ x) (metaOf s room).1 ∧ (metaOf s room).1.heap = s.heap ++ y ∧
      (∀ a ∈ addrs (metaOf s room).2, (k ++ x)[a]? = some .glob) := by
  cases hm : Assoc.get s.global room with
  | none =>
    have hn : ∀ a ∈ addrs (newMeta s.heap).2, (k ++ [.glob, .glob, .glob])[a]? = some .glob := by
      intro a ha
      simp only [addrs, newMeta, ← h.len, List.mem_cons, List.not_mem_nil, or_false] at ha
      rcases ha with rfl | rfl | rfl
      · exact new0 _ _ _
      · exact new1 _ _ _ _
      · exact new2 _ _ _ _ _
    refine ⟨[.glob, .glob, .glob], [[], [], []], ?_, ?_, ?_⟩
    · simp only [metaOf, hm]
      exact typed_global (typed_heap (x := [.glob, .glob, .glob]) [[], [], []] h rfl) room _ hn
    · simp only [metaOf, hm, newMeta]
    · simp only [metaOf, hm]; exact hn
  | some m =>
    refine ⟨[], [], ?_, ?_, ?_⟩
    · simpa only [metaOf, hm, List.append_nil] using h
    · simp only [metaOf, hm, List.append_nil]
    · simpa only [metaOf, hm, List.append_nil] using h.glob _ _ hm

theorem append_kept (h y : List Obj) (a : Nat) (ha : a < h.length) : (h ++ y)[a]? = h[a]? :=
  List.getElem?_append_left ha

theorem childStep_heap (h : List Obj) (m : Meta) (c : Option (String × Bool)) :
    (childStep h m c).1.length = h.length ∧ (∀ a ∈ (childStep h m c).2, a = m.children) ∧
    ∀ a, a ∉ (childStep h m c).2 → (childStep h m c).1[a]? = h[a]? := by
  rcases c with _ | ⟨k, d⟩
  · exact ⟨rfl, (fun a ha => by cases ha), fun _ _ => rfl⟩
  · refine ⟨write_length _ _ _, fun a ha => by simpa [childStep] using ha, fun a ha => ?_⟩
    exact write_other _ _ _ _ (by simpa [childStep] using ha)

theorem heroStep_typed {k : List Kind} {s : State} (h : Typed k s) (room : String) (m : Meta) (op : HeroOp)
    (hm : ∀ a ∈ addrs m, k[a]? = some .glob) :
    ∃ x, Typed (k ++ x) (heroStep s room m op).1 ∧ (∀ a ∈ (heroStep s room m op).2, a = m.heroes) ∧
      ∀ a, a < s.heap.length → a ∉ (heroStep s room m op).2 → (heroStep s room m op).1.heap[a]? = s.heap[a]? := by
  cases op with
  | none => exact ⟨[], by simpa [heroStep] using h, (fun a ha => by cases ha), fun _ _ _ => rfl⟩
  | remove u =>
    refine ⟨[], ?_, fun a ha => by simpa [heroStep] using ha, fun a _ ha => write_other _ _ _ _ (by simpa [heroStep] using ha)⟩
    rw [List.append_nil]
    exact typed_write h _ (write_length _ _ _)
  | put u v g =>
    cases g with
    | false =>
      refine ⟨[], ?_, fun a ha => by simpa [heroStep] using ha, fun a _ ha => ?_⟩
      · rw [List.append_nil]
        simp only [heroStep, Bool.false_eq_true, if_false]
        exact typed_write h _ (write_length _ _ _)
      · have : a ≠ m.heroes := by simpa [heroStep] using ha
        simp only [heroStep, Bool.false_eq_true, if_false]
        exact write_other _ _ _ _ this
    | true =>
      refine ⟨[.glob], ?_, fun a ha => by simp [heroStep] at ha, fun a ha _ => ?_⟩
      · simp only [heroStep, if_true, alloc]
        refine typed_global (s := { s with heap := s.heap ++ [_] }) (typed_heap (x := [.glob]) [_] h rfl) room _ ?_
        intro a ha
        simp only [addrs, List.mem_cons, List.not_mem_nil, or_false] at ha
        rcases ha with rfl | rfl | rfl
        · rw [← h.len]; exact new0 _ _ _
        · exact grow (hm _ (by simp [addrs]))
        · exact grow (hm _ (by simp [addrs]))
      · simp only [heroStep, if_true, alloc]
        exact append_kept _ _ _ ha

theorem step_good {k : List Kind} {s : State} (h : Typed k s) (o : Op) : Good k s o (step s o).1 (step s o).2 := by
  cases o with
  | startup room a b c =>
    refine ⟨⟨[.glob, .glob, .glob], ?_, fun a ha => nomatch ha⟩, fun a ha _ => append_kept _ _ _ ha⟩
    refine typed_global (s := { s with heap := s.heap ++ [a, b, c] }) (typed_heap (x := [.glob, .glob, .glob]) [a, b, c] h rfl) room _ ?_
    intro e he
    simp only [addrs, ← h.len, List.mem_cons, List.not_mem_nil, or_false] at he
    rcases he with rfl | rfl | rfl
    · exact new0 _ _ _
    · exact new1 _ _ _ _
    · exact new2 _ _ _ _ _
  | event room type v child hero =>
    obtain ⟨x, y, h1, h2, h3⟩ := metaOf_typed h room
    obtain ⟨c1, c2, c3⟩ := childStep_heap (metaOf s room).1.heap (metaOf s room).2 child
    have hw := typed_write h1 (write (childStep (metaOf s room).1.heap (metaOf s room).2 child).1 (metaOf s room).2.latest (setKey type v))
      ((write_length _ _ _).trans c1)
    obtain ⟨z, h4, h5, h6⟩ := heroStep_typed hw room (metaOf s room).2 hero h3
    refine ⟨⟨x ++ z, ?_, ?_⟩, ?_⟩
    · rw [← List.append_assoc]; exact h4
    · intro a ha
      left
      rw [← List.append_assoc]
      refine grow (h3 a ?_)
      simp only [step, List.mem_append, List.mem_singleton] at ha
      rcases ha with (ha | rfl) | ha
      · rw [c2 a ha]; simp [addrs]
      · simp [addrs]
      · rw [h5 a ha]; simp [addrs]
    · intro a ha hn
      simp only [step, List.mem_append, List.mem_singleton, not_or] at hn
      obtain ⟨⟨n1, n2⟩, n3⟩ := hn
      have hb : a < (metaOf s room).1.heap.length := by rw [h2, List.length_append]; omega
      refine (h6 a ?_ n3).trans ?_
      · show a < (write _ _ _).length
        rw [write_length, c1]; exact hb
      · show (write _ _ _)[a]? = _
        rw [write_other _ _ _ _ n2, c3 a n1, h2, append_kept _ _ _ ha]
  | invalidate room heroes =>
    cases hm : Assoc.get s.global room with
    | none =>
      simp only [step, hm]
      exact ⟨⟨[], by simpa using h, fun a ha => nomatch ha⟩, fun _ _ _ => rfl⟩
    | some m =>
      simp only [step, hm]
      refine ⟨⟨[.glob, .glob], ?_, fun a ha => nomatch ha⟩, fun a ha _ => append_kept _ _ _ ha⟩
      refine typed_global (s := { s with heap := s.heap ++ [heroes, []] }) (typed_heap (x := [.glob, .glob]) [heroes, []] h rfl) room _ ?_
      intro e he
      simp only [addrs, ← h.len, List.mem_cons, List.not_mem_nil, or_false] at he
      rcases he with rfl | rfl | rfl
      · exact new0 _ _ _
      · exact grow (h.glob _ _ hm _ (by simp [addrs]))
      · exact new1 _ _ _ _
  | space parent child deleted joined =>
    obtain ⟨x, y, h1, h2, h3, h4⟩ := loadUrd_typed h child
    have hw := typed_write h1 (write (loadUrd s child).1.heap (loadUrd s child).2.spaces (if deleted then delKey parent else setKey parent 0))
      (write_length _ _ _)
    have hu := typed_user hw child (loadUrd s child).2 h3 h4
    have hk : ∀ a, a < s.heap.length → a ∉ [(loadUrd s child).2.spaces] →
        (write (loadUrd s child).1.heap (loadUrd s child).2.spaces (if deleted then delKey parent else setKey parent 0))[a]? = s.heap[a]? := by
      intro a ha hn
      rw [write_other _ _ _ _ (by simpa using hn), h2]
      exact append_kept _ _ _ ha
    cases joined with
    | false =>
      simp only [step, Bool.false_eq_true, if_false]
      refine ⟨⟨x, hu, ?_⟩, hk⟩
      intro a ha
      rw [List.mem_singleton] at ha
      subst ha
      exact .inr ⟨_, _, _, _, rfl, h3⟩
    | true =>
      simp only [step, if_true]
      obtain ⟨x', y', g1, g2⟩ := give_typed hu child
      refine ⟨⟨x ++ x', ?_, ?_⟩, ?_⟩
      · rw [← List.append_assoc]; exact g1
      · intro a ha
        rw [List.mem_singleton] at ha
        subst ha
        rw [← List.append_assoc]
        exact .inr ⟨_, _, _, _, rfl, grow h3⟩
      · intro a ha hn
        rw [g2, append_kept _ _ _ ?_]
        · exact hk a ha hn
        · show a < (write _ _ _).length
          rw [write_length, h2, List.length_append]; omega
  | tags room t =>
    obtain ⟨x, y, h1, h2, h3, h4⟩ := loadUrd_typed h room
    have ha := typed_heap (x := [.fixed]) [t] h1 rfl
    have hu := typed_user ha room { (loadUrd s room).2 with tags := (loadUrd s room).1.heap.length } (grow h3)
      (by rw [← h1.len]; exact new0 _ _ _)
    obtain ⟨x', y', g1, g2⟩ := give_typed hu room
    refine ⟨⟨x ++ [.fixed] ++ x', ?_, fun a ha => nomatch ha⟩, ?_⟩
    · rw [← List.append_assoc, ← List.append_assoc]; exact g1
    · intro a ha _
      refine (congrArg (·[a]?) g2).trans ?_
      show ((_ ++ [t]) ++ y')[a]? = _
      rw [List.append_assoc, h2]
      show ((s.heap ++ y) ++ ([t] ++ y'))[a]? = _
      rw [List.append_assoc]
      exact append_kept _ _ _ ha
  | change room =>
    obtain ⟨x, y, h1, h2, h3, h4⟩ := loadUrd_typed h room
    have hu := typed_user h1 room (loadUrd s room).2 h3 h4
    obtain ⟨x', y', g1, g2⟩ := give_typed hu room
    refine ⟨⟨x ++ x', ?_, fun a ha => nomatch ha⟩, ?_⟩
    · rw [← List.append_assoc]; exact g1
    · intro a ha _
      refine (congrArg (·[a]?) g2).trans ?_
      show (_ ++ y')[a]? = _
      rw [h2]
      show ((s.heap ++ y) ++ y')[a]? = _
      rw [List.append_assoc]
      exact append_kept _ _ _ ha
  | tell room =>
    obtain ⟨x, y, g1, g2⟩ := give_typed h room
    exact ⟨⟨x, g1, fun a ha => nomatch ha⟩, fun a ha _ => (congrArg (·[a]?) g2).trans (append_kept _ _ _ ha)⟩
  | load room =>
    obtain ⟨x, y, g1, g2⟩ := give_typed h room
    exact ⟨⟨x, g1, fun a ha => nomatch ha⟩, fun a ha _ => (congrArg (·[a]?) g2).trans (append_kept _ _ _ ha)⟩

theorem run_snoc (ops : List Op) (o : Op) : run (ops ++ [o]) = (step (run ops) o).1 := by simp [run]

theorem run_typed (ops : List Op) : ∃ k, Typed k (run ops) := by
  induction ops using Util.snocRec with
  | nil => exact ⟨[], rfl, (fun _ _ h => by cases h), (fun _ _ h => by cases h), (fun _ h => by cases h)⟩
  | append_singleton ops o ih =>
    obtain ⟨k, hk⟩ := ih
    obtain ⟨x, hx, -⟩ := (step_good hk o).typed
    exact ⟨k ++ x, run_snoc ops o ▸ hx⟩

/-- An address of a kind that no step writes to keeps its contents. -/
theorem kept_run {ops : List Op} {k : List Kind} (hk : Typed k (run ops)) (ops' : List Op) :
    ∃ x, Typed (k ++ x) (run (ops ++ ops')) ∧ (run ops).heap.length ≤ (run (ops ++ ops')).heap.length ∧
      (∀ a : Nat, k[a]? = some Kind.fixed → (run (ops ++ ops')).heap[a]? = (run ops).heap[a]?) ∧
      ∀ (a : Nat) (r : String), k[a]? = some (Kind.spaces r) → (∀ p d j, Op.space p r d j ∉ ops') → (run (ops ++ ops')).heap[a]? = (run ops).heap[a]? := by
  induction ops' using Util.snocRec with
  | nil => exact ⟨[], by simpa using hk, by simp, fun a _ => by rw [List.append_nil], fun a r _ _ => by rw [List.append_nil]⟩
  | append_singleton ops' o ih =>
    obtain ⟨x, h1, h2, h3, h4⟩ := ih
    have hg := step_good h1 o
    obtain ⟨z, hz, hw⟩ := hg.typed
    rw [← List.append_assoc, run_snoc]
    have hlen : (run (ops ++ ops')).heap.length ≤ (step (run (ops ++ ops')) o).1.heap.length := by
      rw [← h1.len, ← hz.len, List.length_append (as := k ++ x)]; omega
    refine ⟨x ++ z, by rw [← List.append_assoc]; exact hz, Nat.le_trans h2 hlen, ?_, ?_⟩
    · intro a ha
      rw [← h3 a ha]
      refine hg.kept a ?_ ?_
      · have := inBounds ha; rw [hk.len] at this; omega
      · intro hin
        have hf : (k ++ x ++ z)[a]? = some .fixed := grow (grow ha)
        rcases hw a hin with h | ⟨_, _, _, _, _, h⟩ <;> rw [hf] at h <;> cases h
    · intro a r ha hno
      rw [← h4 a r ha (fun p d j hm => hno p d j (List.mem_append_left _ hm))]
      refine hg.kept a ?_ ?_
      · have := inBounds ha; rw [hk.len] at this; omega
      · intro hin
        have hf : (k ++ x ++ z)[a]? = some (.spaces r) := grow (grow ha)
        rcases hw a hin with h | ⟨p, c, d, j, ho, h⟩
        · rw [hf] at h; cases h
        · rw [hf] at h
          cases h
          exact hno p d j (by rw [ho]; simp)

/-- **C132 (writes).** No step of the dispatcher's goroutine writes to heroes, latest events, children or tags that a connection was given. -/
theorem C132_not_written (ops : List Op) (o : Op) (g : Given) (hg : g ∈ (run ops).given) (a : Nat) (ha : a ∈ frozen g) :
    a ∉ (step (run ops) o).2 := by
  obtain ⟨k, hk⟩ := run_typed ops
  obtain ⟨x, -, hw⟩ := (step_good hk o).typed
  intro hin
  have hf : (k ++ x)[a]? = some .fixed := grow ((hk.given g hg).1 a ha)
  rcases hw a hin with h | ⟨_, _, _, _, _, h⟩ <;> rw [hf] at h <;> cases h

theorem objAt_append (h y : List Obj) (a : Nat) (ha : a < h.length) : objAt (h ++ y) a = objAt h a := by
  rw [objAt, append_kept _ _ _ ha]; rfl

theorem give_given (s : State) (room : String) :
    (give s room).given = s.given ++ [⟨room, (copyRoom (loadUrd s room).1 room).2, (loadUrd s room).2⟩] := by
  simp only [give, loadUrd]
  cases Assoc.get s.user room <;> rfl

/-- What is handed over has the contents of the caches. -/
theorem give_current {k : List Kind} {s : State} (h : Typed k s) (room : String) (g : Given)
    (hg : (give s room).given = s.given ++ [g]) : g.room = room ∧ shown (give s room).heap g = current (give s room) room := by
  rw [give_given] at hg
  have hge := List.append_cancel_left hg
  simp only [List.cons.injEq, and_true] at hge
  subst hge
  refine ⟨rfl, ?_⟩
  obtain ⟨x, y, ht, hs, -, -⟩ := loadUrd_typed h room
  have hheap : (give s room).heap = (copyRoom (loadUrd s room).1 room).1 := by simp only [give]
  have hglob : (give s room).global = s.global := by simp only [give, hs]
  have huser : (give s room).user = s.user := by simp only [give, hs]
  have hg' : Assoc.get (loadUrd s room).1.global room = Assoc.get s.global room := by rw [hs]
  have hU : objAt (give s room).heap (loadUrd s room).2.tags =
      match Assoc.get s.user room with
      | none => []
      | some u => objAt (give s room).heap u.tags := by
    cases hu : Assoc.get s.user room with
    | some u => simp only [loadUrd, hu]
    | none =>
      obtain ⟨a, b, c, hc1, -⟩ := copyRoom_heap (loadUrd s room).1 room
      rw [hheap, hc1]
      simp only [loadUrd, hu, newUrd]
      rw [objAt_append _ _ _ (by simp)]
      simp [objAt]
  simp only [current, hglob, huser]
  rw [← hU]
  simp only [shown, frozen, List.map_cons, List.map_nil]
  cases hm : Assoc.get s.global room with
  | none =>
    rw [hheap]
    simp only [copyRoom, hg', hm, newMeta]
    simp [objAt]
  | some m =>
    have hb := h.glob room m hm
    have hl : ∀ a ∈ addrs m, a < (loadUrd s room).1.heap.length := by
      intro a ha
      have := inBounds (hb a ha)
      rw [h.len] at this
      rw [hs]; simp only [List.length_append]; omega
    rw [hheap]
    simp only [copyRoom, hg', hm, deepCopy]
    have e1 := objAt_append (loadUrd s room).1.heap [objAt (loadUrd s room).1.heap m.heroes, objAt (loadUrd s room).1.heap m.latest,
      objAt (loadUrd s room).1.heap m.children] m.heroes (hl _ (by simp [addrs]))
    have e2 := objAt_append (loadUrd s room).1.heap [objAt (loadUrd s room).1.heap m.heroes, objAt (loadUrd s room).1.heap m.latest,
      objAt (loadUrd s room).1.heap m.children] m.latest (hl _ (by simp [addrs]))
    have e3 := objAt_append (loadUrd s room).1.heap [objAt (loadUrd s room).1.heap m.heroes, objAt (loadUrd s room).1.heap m.latest,
      objAt (loadUrd s room).1.heap m.children] m.children (hl _ (by simp [addrs]))
    simp only [objAt] at e1 e2 e3 ⊢
    rw [e1, e2, e3]
    simp

/-- What a step hands over has the contents the caches have after the step. -/
theorem step_current {k : List Kind} {s : State} (h : Typed k s) (o : Op) (l : List Given)
    (hl : (step s o).1.given = s.given ++ l) : ∀ g ∈ l, shown (step s o).1.heap g = current (step s o).1 g.room := by
  intro g hg
  have none : (step s o).1.given = s.given → False := by
    intro he
    rw [he] at hl
    have := List.append_cancel_left (as := s.given) (bs := []) (cs := l) (by simpa using hl)
    subst this; cases hg
  have one : ∀ (t : State) (room : String), (∃ k, Typed k t) → t.given = s.given → (step s o).1 = give t room →
      shown (step s o).1.heap g = current (step s o).1 g.room := by
    rintro t room ⟨k, ht⟩ hgiv he
    rw [he] at hl ⊢
    have h2 := give_given t room
    rw [hgiv] at h2
    rw [h2] at hl
    have := List.append_cancel_left hl
    subst this
    rw [List.mem_singleton] at hg
    obtain ⟨h3, h4⟩ := give_current ht room g (by rw [give_given, hg])
    rw [h3]; exact h4
  cases o with
  | startup => exact (none rfl).elim
  | event room type v child hero =>
    refine (none ?_).elim
    have h1 : (metaOf s room).1.given = s.given := by
      simp only [metaOf]; cases Assoc.get s.global room <;> rfl
    simp only [step]
    cases hero with
    | none => exact h1
    | remove u => exact h1
    | put u v gr => cases gr <;> exact h1
  | invalidate room heroes =>
    refine (none ?_).elim
    simp only [step]; cases Assoc.get s.global room <;> rfl
  | space parent child deleted joined =>
    obtain ⟨x, y, h1, h2, h3, h4⟩ := loadUrd_typed h child
    have hw := typed_write h1 (write (loadUrd s child).1.heap (loadUrd s child).2.spaces (if deleted then delKey parent else setKey parent 0))
      (write_length _ _ _)
    have hu := typed_user hw child (loadUrd s child).2 h3 h4
    have hgv : (loadUrd s child).1.given = s.given := by rw [h2]
    cases joined with
    | false => exact (none (by simpa only [step, Bool.false_eq_true, if_false] using hgv)).elim
    | true => exact one _ child ⟨_, hu⟩ hgv (by simp only [step, if_true])
  | tags room t =>
    obtain ⟨x, y, h1, h2, h3, h4⟩ := loadUrd_typed h room
    have ha := typed_heap (x := [.fixed]) [t] h1 rfl
    have hu := typed_user ha room { (loadUrd s room).2 with tags := (loadUrd s room).1.heap.length } (grow h3)
      (by rw [← h1.len]; exact new0 _ _ _)
    exact one _ room ⟨_, hu⟩ (by show (loadUrd s room).1.given = s.given; rw [h2]) rfl
  | change room =>
    obtain ⟨x, y, h1, h2, h3, h4⟩ := loadUrd_typed h room
    have hu := typed_user h1 room (loadUrd s room).2 h3 h4
    exact one _ room ⟨_, hu⟩ (by show (loadUrd s room).1.given = s.given; rw [h2]) rfl
  | tell room => exact one s room ⟨_, h⟩ rfl rfl
  | load room => exact one s room ⟨_, h⟩ rfl rfl

/-- **C132 (snapshot).** Heroes, latest events, children and tags that a connection was given have, at any later time, the
contents that the caches had when they were handed over. -/
theorem C132_snapshot_partial (ops : List Op) (o : Op) (ops' : List Op) (l : List Given)
    (hl : (run (ops ++ [o])).given = (run ops).given ++ l) (g : Given) (hg : g ∈ l) :
    shown (run (ops ++ [o] ++ ops')).heap g = current (run (ops ++ [o])) g.room := by
  obtain ⟨k, hk⟩ := run_typed ops
  obtain ⟨k', hk'⟩ := run_typed (ops ++ [o])
  have h1 : shown (run (ops ++ [o])).heap g = current (run (ops ++ [o])) g.room := by
    rw [run_snoc] at hl ⊢
    exact step_current hk o l hl g hg
  obtain ⟨x, -, -, h3, -⟩ := kept_run hk' ops'
  rw [← h1]
  have hin : g ∈ (run (ops ++ [o])).given := by rw [hl]; exact List.mem_append_right _ hg
  simp only [shown]
  refine List.map_congr_left fun a ha => ?_
  rw [objAt, h3 a ((hk'.given g hin).1 a ha)]; rfl

/-- **C132 (spaces).** The spaces of a room that a connection was given change only when a space event about that room comes. -/
theorem C132_spaces_partial (ops ops' : List Op) (g : Given) (hg : g ∈ (run ops).given)
    (hno : ∀ p d j, Op.space p g.room d j ∉ ops') :
    (run (ops ++ ops')).heap[g.urd.spaces]? = (run ops).heap[g.urd.spaces]? := by
  obtain ⟨k, hk⟩ := run_typed ops
  obtain ⟨x, -, -, -, h4⟩ := kept_run hk ops'
  exact h4 _ _ (hk.given g hg).2 hno

/-- A connection has loaded a room; then a space the user is in gets the room as a child. -/
def exSpaces : List Op := [.change "!r", .load "!r"]

/-- The spaces of a room are written to by the dispatcher's goroutine while the connections that were given the room may read them
to filter their lists: in Go a fatal error, "concurrent map read and map write". -/
theorem C132_violated_spaces : ∃ (ops : List Op) (o : Op) (g : Given), g ∈ (run ops).given ∧ g.urd.spaces ∈ (step (run ops) o).2 ∧
    objAt (run (ops ++ [o])).heap g.urd.spaces ≠ objAt (run ops).heap g.urd.spaces :=
  ⟨exSpaces, .space "!space" "!r" false true, ⟨"!r", ⟨5, 6, 7⟩, ⟨0, 1⟩⟩, by decide +kernel, by decide +kernel, by decide +kernel⟩

/-- An event, a load, and then another event, a new tag, and a reset: the connection still has what it loaded. -/
def exOps : List Op := [.event "!r" "m.room.message" 1 none (.put "@u" 7 true), .tags "!r" [("m.favourite", 1)]]

def exLater : List Op := [.event "!r" "m.room.message" 2 (some ("!c", false)) (.put "@u" 8 false), .tags "!r" [], .invalidate "!r" []]

example : (run (exOps ++ [.load "!r"])).given.length = 2 ∧ (run exOps).given.length = 1 ∧
    (((run (exOps ++ [.load "!r"])).given.drop 1).map (shown (run (exOps ++ [.load "!r"] ++ exLater)).heap) =
      [[[("@u", 7)], [("m.room.message", 1)], [], [("m.favourite", 1)]]]) ∧
    current (run (exOps ++ [.load "!r"] ++ exLater)) "!r" = [[], [("m.room.message", 2)], [], []] := by
  decide +kernel

end Verif.Ownership
