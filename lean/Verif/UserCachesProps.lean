import Verif.UserCaches
/-!
# C94: a user's cache has the last values, and C95: connections get every event
-/
namespace Verif.UserCaches

/-! ## Pending messages -/

/-- The last pending message for a key. -/
def last (l : List (Key × Val)) (k : Key) : Option Val := (l.filter fun m => decide (m.1 = k)).getLast?.map (·.2)

theorem last_append (l : List (Key × Val)) (k q : Key) (m : Val) : last (l ++ [(k, m)]) q = if k = q then some m else last l q := by
  unfold last
  rw [List.filter_append]
  by_cases h : k = q
  · simp [h]
  · simp [h]

theorem last_cons (l : List (Key × Val)) (k q : Key) (m : Val) :
    last ((k, m) :: l) q = if k = q then some ((last l q).getD m) else last l q := by
  unfold last
  by_cases h : k = q
  · subst h
    simp only [List.filter_cons, decide_true, if_true]
    cases hl : (l.filter fun m => decide (m.1 = k)) with
    | nil => simp
    | cons a b => rw [List.getLast?_cons_cons]; simp [List.getLast?_cons]
  · simp [List.filter_cons, h]

theorem last_none {l : List (Key × Val)} {k : Key} : last l k = none ↔ ∀ m, (k, m) ∉ l := by
  simp only [last, Option.map_eq_none_iff, List.getLast?_eq_none_iff, List.filter_eq_nil_iff, decide_eq_true_eq]
  exact ⟨fun h m hm => h _ hm rfl, fun h a ha e => h a.2 (by rw [← e]; exact ha)⟩

/-- What is known about a key from the last pending message for it. -/
def MsgOk (db : List (Key × Nat)) (k : Key) : Option Val → Prop
  | none => True
  | some (.carried v) => val db k = v
  | some .reread => val db k ≠ 0

theorem val_set (m : List (Key × Nat)) (k q : Key) (v : Nat) : val (Assoc.set m k v) q = if q = k then v else val m q := by
  unfold val
  rw [Assoc.get_set]
  split <;> rfl

/-! ## Invariant for the data -/

structure Inv (s : State) : Prop where
  msgs : ∀ k, MsgOk s.db k (last s.msgs k)
  data : ∀ (i : Nat) (c : Cache) (k : Key), s.caches[i]? = some c → k.1 < c.got → k ∉ c.missed → last s.msgs k = none → val c.data k = val s.db k
  stored : ∀ i, s.stored = some i → ∃ c : Cache, s.caches[i]? = some c ∧ queries ≤ c.got
  reg : ∀ id i, Assoc.get s.reqs id = some (.registering i) → i < s.caches.length

theorem inv_init : Inv {} := ⟨fun k => trivial, fun i c k h => (by simp at h), fun i h => (by cases h), fun _ _ h => (by cases h)⟩

theorem apply_got (db : List (Key × Nat)) (k : Key) (m : Val) (c : Cache) : (apply db k m c).got = c.got := by
  unfold apply
  split
  · rfl
  · split <;> rfl

theorem apply_missed (db : List (Key × Nat)) (k : Key) (m : Val) (c : Cache) : (apply db k m c).missed = c.missed := by
  unfold apply
  split
  · rfl
  · split <;> rfl

theorem apply_other (db : List (Key × Nat)) (k q : Key) (m : Val) (c : Cache) (h : q ≠ k) :
    val (apply db k m c).data q = val c.data q := by
  unfold apply
  split
  · simp only; rw [val_set, if_neg h]
  · split
    · rfl
    · simp only; rw [val_set, if_neg h]

theorem apply_same (db : List (Key × Nat)) (k : Key) (m : Val) (c : Cache) (h : MsgOk db k (some m)) :
    val (apply db k m c).data k = val db k := by
  cases m with
  | carried v =>
    have h : val db k = v := h
    simp only [apply]; rw [val_set, if_pos rfl, h]
  | reread =>
    have h : val db k ≠ 0 := h
    simp only [apply, if_neg h]; rw [val_set, if_pos rfl]

theorem miss_got (k : Key) (c : Cache) : (miss k c).got = c.got := by
  unfold miss; split <;> rfl

theorem miss_data (k : Key) (c : Cache) : (miss k c).data = c.data := by
  unfold miss; split <;> rfl

theorem feed_getElem? {db : List (Key × Nat)} {k : Key} {m : Val} {st : Option Nat} {l : List Cache} {i : Nat} {c : Cache}
    (h : (feed db k m st l)[i]? = some c) : ∃ c', l[i]? = some c' ∧ c = if st = some i then apply db k m c' else miss k c' := by
  unfold feed at h
  rw [List.getElem?_mapIdx] at h
  obtain ⟨c', h1, h2⟩ := Option.map_eq_some_iff.1 h
  exact ⟨c', h1, h2.symm⟩

theorem query_val (db : List (Key × Nat)) (c : Cache) (k : Key) :
    val (query db c).data k = if k.1 = c.got then val db k else val c.data k := by
  unfold val query
  simp only
  rw [Assoc.get_append]
  have h1 := Assoc.get_filter c.data (fun x => decide (x.1 ≠ c.got)) k
  have h2 := Assoc.get_filter db (fun x => decide (x.1 = c.got)) k
  rw [h1, h2]
  by_cases h : k.1 = c.got
  · simp [h]
  · simp [h]

/-- A state with the same data satisfies the same. -/
theorem inv_same {s s' : State} (h : Inv s) (h1 : s'.db = s.db) (h2 : s'.msgs = s.msgs) (h3 : s'.caches = s.caches)
    (h4 : ∀ i, s'.stored = some i → s.stored = some i)
    (h5 : ∀ id i, Assoc.get s'.reqs id = some (.registering i) → i < s.caches.length) : Inv s' := by
  refine ⟨fun k => ?_, fun i c k => ?_, fun i hi => ?_, fun id i hi => ?_⟩
  · rw [h1, h2]; exact h.msgs k
  · rw [h1, h2, h3]; exact h.data i c k
  · rw [h3]; exact h.stored i (h4 i hi)
  · rw [h3]; exact h5 id i hi

theorem inv_step {s : State} (h : Inv s) (o : Op) : Inv (step s o) := by
  have hreg : ∀ (id : Nat) (g : Stage), (∀ i, g = .registering i → i < s.caches.length) → ∀ id' i,
      Assoc.get (Assoc.set s.reqs id g) id' = some (.registering i) → i < s.caches.length := by
    intro id g hg id' i hi
    rw [Assoc.get_set] at hi
    split at hi
    · cases hi; exact hg i rfl
    · exact h.reg id' i hi
  have hdel : ∀ (id : Nat) id' i, Assoc.get (Assoc.del s.reqs id) id' = some (.registering i) → i < s.caches.length := by
    intro id id' i hi
    rw [Assoc.get_del] at hi
    split at hi
    · cases hi
    · exact h.reg id' i hi
  cases o with
  | write k v =>
    refine ⟨fun q => ?_, fun i c q hi hk hm hl => ?_, h.stored, h.reg⟩
    · show MsgOk (Assoc.set s.db k v) q (last (s.msgs ++ [(k, msgFor k v)]) q)
      rw [last_append]
      split
      · rename_i e
        subst e
        unfold msgFor
        split
        · show val (Assoc.set s.db k v) k = v
          rw [val_set, if_pos rfl]
        · rename_i hv
          show val (Assoc.set s.db k v) k ≠ 0
          rw [val_set, if_pos rfl]
          simp only [Bool.or_eq_true, decide_eq_true_eq, not_or] at hv
          exact hv.2
      · rename_i e
        have := h.msgs q
        have hv : val (Assoc.set s.db k v) q = val s.db q := by rw [val_set, if_neg (fun h => e h.symm)]
        revert this
        cases last s.msgs q with
        | none => exact id
        | some m => cases m <;> (simp only [MsgOk, hv]; exact id)
    · have hl : last (s.msgs ++ [(k, msgFor k v)]) q = none := hl
      rw [last_append] at hl
      split at hl
      · cases hl
      · rename_i e
        show val c.data q = val (Assoc.set s.db k v) q
        rw [val_set, if_neg (fun h => e h.symm)]
        exact h.data i c q hi hk hm hl
  | recv =>
    simp only [step]
    split
    · exact h
    · split
      · exact h
      · rename_i k m rest hms
        have hlast : ∀ q, last s.msgs q = if k = q then some ((last rest q).getD m) else last rest q := by
          intro q; rw [hms, last_cons]
        refine ⟨fun q => ?_, fun i c q hi hk hm hl => ?_, fun i hi => ?_, fun id i hi => ?_⟩
        · have := h.msgs q
          rw [hlast] at this
          simp only
          split at this
          · cases hr : last rest q with
            | none => trivial
            | some m' => rw [hr] at this; exact this
          · exact this
        · simp only at hi hl
          obtain ⟨c', h1, h2⟩ := feed_getElem? hi
          by_cases hs : s.stored = some i
          · rw [if_pos hs] at h2
            subst h2
            by_cases hq : q = k
            · subst hq
              refine apply_same _ _ _ _ ?_
              have := h.msgs q
              rw [hlast, if_pos rfl, hl] at this
              exact this
            · rw [apply_other _ _ _ _ _ hq]
              rw [apply_got] at hk
              rw [apply_missed] at hm
              exact h.data i c' q h1 hk hm (by rw [hlast, if_neg (Ne.symm hq)]; exact hl)
          · rw [if_neg hs] at h2
            subst h2
            rw [miss_got] at hk
            rw [miss_data]
            have hq : q ≠ k := by
              rintro rfl
              apply hm
              unfold miss
              rw [if_pos hk]
              simp
            have hm' : q ∉ c'.missed := by
              intro hx
              apply hm
              unfold miss
              split
              · exact List.mem_cons_of_mem _ hx
              · exact hx
            exact h.data i c' q h1 hk hm' (by rw [hlast, if_neg (Ne.symm hq)]; exact hl)
        · obtain ⟨c, h1, h2⟩ := h.stored i hi
          refine ⟨apply s.db k m c, ?_, ?_⟩
          · show (feed s.db k m s.stored s.caches)[i]? = _
            have hi : s.stored = some i := hi
            unfold feed
            rw [List.getElem?_mapIdx, h1]
            simp [hi]
          · rw [apply_got]; exact h2
        · have := h.reg id i hi
          simpa [feed] using this
  | event =>
    simp only [step]
    split
    · exact h
    · exact inv_same h rfl rfl rfl (fun _ hi => hi) h.reg
  | enter id =>
    simp only [step]
    split
    · exact inv_same h rfl rfl rfl (fun _ hi => hi) (hreg id _ (fun i hi => by cases hi))
    · refine ⟨h.msgs, fun i c k hi hk hm hl => ?_, fun i hi => ?_, fun id' i hi => ?_⟩
      · simp only at hi
        rw [List.getElem?_append] at hi
        split at hi
        · exact h.data i c k hi hk hm hl
        · have := List.mem_of_getElem? hi
          rw [List.mem_singleton.1 this] at hk
          exact absurd hk (Nat.not_lt_zero _)
      · obtain ⟨c, h1, h2⟩ := h.stored i hi
        refine ⟨c, ?_, h2⟩
        show (s.caches ++ [({} : Cache)])[i]? = some c
        rw [List.getElem?_append_left (List.getElem?_eq_some_iff.1 h1).1]
        exact h1
      · have := hreg id (.loading s.caches.length) (fun i hi => by cases hi) id' i hi
        simp only [List.length_append, List.length_singleton]
        omega
  | read id =>
    simp only [step]
    split
    · rename_i c0 _
      refine ⟨h.msgs, fun i c k hi hk hm hl => ?_, fun i hi => ?_, fun id' i hi => ?_⟩
      · simp only at hi
        rw [List.getElem?_modify] at hi
        obtain ⟨c', h1, h2⟩ := Option.map_eq_some_iff.1 hi
        split at h2
        · subst h2
          rw [query_val]
          split
          · rfl
          · rename_i hne
            refine h.data i c' k h1 ?_ hm hl
            have hk : k.1 < c'.got + 1 := hk
            omega
        · have h2 : c' = c := h2
          subst h2
          exact h.data i _ k h1 hk hm hl
      · obtain ⟨c, h1, h2⟩ := h.stored i hi
        refine ⟨(if c0 = i then query s.db c else c), ?_, ?_⟩
        · show (s.caches.modify c0 (query s.db))[i]? = _
          rw [List.getElem?_modify, h1]
          by_cases e : c0 = i <;> simp [e]
        · split
          · exact Nat.le_succ_of_le h2
          · exact h2
      · have := h.reg id' i hi
        simpa using this
    · exact h
  | store id =>
    simp only [step]
    split
    · rename_i c0 _
      split
      · exact h
      · rename_i hq
        split
        · exact inv_same h rfl rfl rfl (fun _ hi => hi) (hreg id _ (fun i hi => by cases hi))
        · cases hc : s.caches[c0]? with
          | none => rw [hc] at hq; exact absurd (by decide) hq
          | some c =>
            rw [hc] at hq
            refine ⟨h.msgs, h.data, fun i hi => ?_, hreg id _ (fun i hi => ?_)⟩
            · cases hi; exact ⟨c, hc, Nat.not_lt.1 hq⟩
            · cases hi; exact (List.getElem?_eq_some_iff.1 hc).1
    · exact h
  | register id ok =>
    simp only [step]
    split
    · refine inv_same h rfl rfl rfl (fun _ hi => hi) (hreg id _ (fun i hi => ?_))
      cases ok <;> cases hi
    · exact h
  | unregister id =>
    simp only [step]
    split
    · exact inv_same h rfl rfl rfl (fun _ hi => hi) (hreg id _ (fun i hi => by cases hi))
    · exact h
  | delete id =>
    simp only [step]
    split
    · exact inv_same h rfl rfl rfl (fun _ hi => by cases hi) (hdel id)
    · exact h
  | connect id =>
    simp only [step]
    split
    · exact inv_same h rfl rfl rfl (fun _ hi => hi) (hdel id)
    · exact h
  | invUnregister =>
    simp only [step]
    split
    · exact inv_same h rfl rfl rfl (fun _ hi => hi) h.reg
    · exact h
  | invDelete =>
    simp only [step]
    split
    · exact inv_same h rfl rfl rfl (fun _ hi => by cases hi) h.reg
    · exact h
  | invClose =>
    simp only [step]
    split
    · exact inv_same h rfl rfl rfl (fun _ hi => hi) h.reg
    · exact h

theorem inv_foldl {s : State} (h : Inv s) (ops : List Op) : Inv (ops.foldl step s) := by
  induction ops generalizing s with
  | nil => exact h
  | cons o ops ih => exact ih (inv_step h o)

/-! ## C94 -/

/-- C94 (partial): the cache of a user has the stored value of every key (of the five kinds) without pending message, unless a
message for the key came while the cache was being made and had been read already. Missing: those keys. -/
theorem C94_fresh_partial (ops : List Op) (i : Nat) (c : Cache) (k : Key) (hs : (run ops).stored = some i) (hc : (run ops).caches[i]? = some c)
    (hk : k.1 < queries) (hm : k ∉ c.missed) (hp : ∀ m, (k, m) ∉ (run ops).msgs) : val c.data k = val (run ops).db k := by
  have h := inv_foldl inv_init ops
  obtain ⟨c', h1, h2⟩ := h.stored i hs
  have : c' = c := by
    have h1 : (run ops).caches[i]? = some c' := h1
    rw [hc] at h1; cases h1; rfl
  subst this
  exact h.data i c' k hc (Nat.lt_of_lt_of_le hk h2) hm (last_none.2 hp)

/-- The cache differs from the database in a key, and nothing is on its way. -/
structure Wrong (s : State) (i : Nat) (k : Key) : Prop where
  cache : ∃ c, s.caches[i]? = some c ∧ val c.data k ≠ val s.db k
  msgs : ∀ m, (k, m) ∉ s.msgs
  done : ∀ id, Assoc.get s.reqs id ≠ some (.loading i)

theorem wrong_step {s : State} {i : Nat} {k : Key} (h : Wrong s i k) (o : Op) (ho : ∀ v, o ≠ .write k v) : Wrong (step s o) i k := by
  obtain ⟨⟨c, hc, hne⟩, hms, hdone⟩ := h
  have hset : ∀ (id : Nat) (g : Stage), g ≠ .loading i → ∀ id', Assoc.get (Assoc.set s.reqs id g) id' ≠ some (.loading i) := by
    intro id g hg id' hi
    rw [Assoc.get_set] at hi
    split at hi
    · cases hi; exact hg rfl
    · exact hdone id' hi
  have hdel : ∀ (id : Nat) id', Assoc.get (Assoc.del s.reqs id) id' ≠ some (.loading i) := by
    intro id id' hi
    rw [Assoc.get_del] at hi
    split at hi
    · cases hi
    · exact hdone id' hi
  have same : Wrong s i k := ⟨⟨c, hc, hne⟩, hms, hdone⟩
  cases o with
  | write q v =>
    have hq : k ≠ q := by rintro rfl; exact ho v rfl
    refine ⟨⟨c, hc, ?_⟩, ?_, hdone⟩
    · show val c.data k ≠ val (Assoc.set s.db q v) k
      rw [val_set, if_neg hq]
      exact hne
    · intro m hm
      rcases List.mem_append.1 hm with hm | hm
      · exact hms m hm
      · cases List.mem_singleton.1 hm; exact hq rfl
  | recv =>
    simp only [step]
    split
    · exact same
    · split
      · exact same
      · rename_i q m rest hq
        have hqk : k ≠ q := by rintro rfl; exact hms m (by rw [hq]; simp)
        refine ⟨⟨if s.stored = some i then apply s.db q m c else miss q c, ?_, ?_⟩, fun m' hm => hms m' (by rw [hq]; exact List.mem_cons_of_mem _ hm), hdone⟩
        · show (feed s.db q m s.stored s.caches)[i]? = _
          unfold feed
          rw [List.getElem?_mapIdx, hc]
          rfl
        · split
          · rw [apply_other _ _ _ _ _ hqk]; exact hne
          · rw [miss_data]; exact hne
  | event => simp only [step]; split <;> exact ⟨⟨c, hc, hne⟩, hms, hdone⟩
  | enter id =>
    simp only [step]
    split
    · exact ⟨⟨c, hc, hne⟩, hms, hset id _ (by simp)⟩
    · have hlt := (List.getElem?_eq_some_iff.1 hc).1
      refine ⟨⟨c, ?_, hne⟩, hms, hset id _ (by simp only [ne_eq, Stage.loading.injEq]; omega)⟩
      show (s.caches ++ [({} : Cache)])[i]? = some c
      rw [List.getElem?_append_left hlt]
      exact hc
  | read id =>
    simp only [step]
    split
    · rename_i c0 hr
      refine ⟨⟨c, ?_, hne⟩, hms, hdone⟩
      show (s.caches.modify c0 (query s.db))[i]? = some c
      rw [List.getElem?_modify, hc]
      have hne : c0 ≠ i := by rintro rfl; exact hdone id hr
      simp [hne]
    · exact same
  | store id =>
    simp only [step]
    split
    · split
      · exact same
      · split <;> exact ⟨⟨c, hc, hne⟩, hms, hset id _ (by simp)⟩
    · exact same
  | register id ok =>
    simp only [step]
    split
    · exact ⟨⟨c, hc, hne⟩, hms, hset id _ (by cases ok <;> simp)⟩
    · exact same
  | unregister id =>
    simp only [step]
    split
    · exact ⟨⟨c, hc, hne⟩, hms, hset id _ (by simp)⟩
    · exact same
  | delete id =>
    simp only [step]
    split
    · exact ⟨⟨c, hc, hne⟩, hms, hdel id⟩
    · exact same
  | connect id =>
    simp only [step]
    split
    · exact ⟨⟨c, hc, hne⟩, hms, hdel id⟩
    · exact same
  | invUnregister => simp only [step]; split <;> exact ⟨⟨c, hc, hne⟩, hms, hdone⟩
  | invDelete => simp only [step]; split <;> exact ⟨⟨c, hc, hne⟩, hms, hdone⟩
  | invClose => simp only [step]; split <;> exact ⟨⟨c, hc, hne⟩, hms, hdone⟩

/-- C94: a wrong value stays until the value changes again upstream, whatever else happens. -/
theorem C94_wrong (s : State) (i : Nat) (k : Key) (h : Wrong s i k) (ops : List Op) (ho : ∀ o ∈ ops, ∀ v, o ≠ .write k v) :
    ∃ c, (ops.foldl step s).caches[i]? = some c ∧ val c.data k ≠ val (ops.foldl step s).db k := by
  induction ops generalizing s with
  | nil => exact h.cache
  | cons o ops ih => exact ih (step s o) (wrong_step h o (ho o (by simp))) (fun o' ho' => ho o' (List.mem_cons_of_mem _ ho'))

/-- A request loads the cache of a user; the room is read meanwhile. -/
def lostUpdate : List Op :=
  [.write (0, "!r") 3, .recv, .enter 0, .read 0, .write (0, "!r") 0, .recv, .read 0, .read 0, .read 0, .read 0, .store 0, .register 0 true, .connect 0]

/-- C94 is violated: the message that the room was read finds no cache; the cache, whose counts were read before, is then stored with 3
unread messages, and stays so until the count changes. -/
theorem C94_violated : (run lostUpdate).stored = some 0 ∧ (run lostUpdate).msgs = [] ∧
    ((run lostUpdate).caches[0]?.map fun c => val c.data (0, "!r")) = some 3 ∧ val (run lostUpdate).db (0, "!r") = 0 ∧
    ∀ ops, (∀ o ∈ ops, ∀ v, o ≠ .write (0, "!r") v) → ∃ c, (run (lostUpdate ++ ops)).caches[0]? = some c ∧
      val c.data (0, "!r") ≠ val (run (lostUpdate ++ ops)).db (0, "!r") := by
  refine ⟨by decide +kernel, by decide +kernel, by decide +kernel, by decide +kernel, fun ops ho => ?_⟩
  have hw : Wrong (run lostUpdate) 0 (0, "!r") := by
    refine ⟨⟨((run lostUpdate).caches[0]?).getD {}, by decide +kernel, by decide +kernel⟩, ?_, ?_⟩
    · have : (run lostUpdate).msgs = [] := by decide +kernel
      rw [this]; exact fun m => List.not_mem_nil
    · have : (run lostUpdate).reqs = [] := by decide +kernel
      rw [this]
      intro id h
      cases h
  have := C94_wrong _ 0 _ hw ops ho
  unfold run at this ⊢
  rw [List.foldl_append]
  exact this

/-- The hypotheses of `C94_fresh_partial` are met with a value that was read and one that came later. -/
example : let ops := [.write (0, "!r") 3, .recv, .enter 0, .read 0, .write (4, "!i") 7, .recv, .read 0, .read 0, .read 0, .read 0, .store 0,
      .register 0 true, .write (3, "!r") 2, .recv]
    (run ops).stored = some 0 ∧ (run ops).msgs = [] ∧ ((run ops).caches[0]?.map fun c => (c.missed, val c.data (0, "!r"), val c.data (4, "!i"),
      val c.data (3, "!r"))) = some ([], 3, 7, 2) := by decide +kernel

/-! ## C95 -/

/-- The user's cache is stored and registered, and nobody is about to change that. -/
structure Stable (s : State) (c : Nat) : Prop where
  stored : s.stored = some c
  registered : s.registered = some c
  inval : s.inval = 0
  reqs : ∀ id g, Assoc.get s.reqs id = some g → (∃ i, g = .loading i) ∨ (∃ i, g = .have i)

theorem stable_step {s : State} {c : Nat} (h : Stable s c) (o : Op) (ho : o ≠ .invUnregister) : Stable (step s o) c := by
  obtain ⟨h1, h2, h3, h4⟩ := h
  have same : Stable s c := ⟨h1, h2, h3, h4⟩
  have hset : ∀ (id : Nat) (g : Stage), ((∃ i, g = .loading i) ∨ (∃ i, g = .have i)) → ∀ id' g', Assoc.get (Assoc.set s.reqs id g) id' = some g' →
      (∃ i, g' = .loading i) ∨ (∃ i, g' = .have i) := by
    intro id g hg id' g' hi
    rw [Assoc.get_set] at hi
    split at hi
    · cases hi; exact hg
    · exact h4 id' g' hi
  have bad : ∀ id g, Assoc.get s.reqs id = some g → (∀ i, g ≠ .loading i) → (∀ i, g ≠ .have i) → False := by
    intro id g hg a b
    rcases h4 id g hg with ⟨i, e⟩ | ⟨i, e⟩
    · exact a i e
    · exact b i e
  cases o with
  | write k v => exact ⟨h1, h2, h3, h4⟩
  | recv =>
    simp only [step]
    split
    · exact same
    · split <;> exact ⟨h1, h2, h3, h4⟩
  | event => simp only [step]; split <;> exact ⟨h1, h2, h3, h4⟩
  | enter id =>
    simp only [step, h1]
    exact ⟨rfl, h2, h3, hset id _ (Or.inr ⟨c, rfl⟩)⟩
  | read id => simp only [step]; split <;> exact ⟨h1, h2, h3, h4⟩
  | store id =>
    simp only [step]
    split
    · split
      · exact same
      · simp only [h1]
        exact ⟨rfl, h2, h3, hset id _ (Or.inr ⟨c, rfl⟩)⟩
    · exact same
  | register id ok =>
    simp only [step]
    split
    · rename_i hr; exact (bad _ _ hr (by simp) (by simp)).elim
    · exact same
  | unregister id =>
    simp only [step]
    split
    · rename_i hr; exact (bad _ _ hr (by simp) (by simp)).elim
    · exact same
  | delete id =>
    simp only [step]
    split
    · rename_i hr; exact (bad _ _ hr (by simp) (by simp)).elim
    · exact same
  | connect id =>
    simp only [step]
    split
    · refine ⟨h1, h2, h3, fun id' g hi => ?_⟩
      simp only at hi
      rw [Assoc.get_del] at hi
      split at hi
      · cases hi
      · exact h4 id' g hi
    · exact same
  | invUnregister => exact absurd rfl ho
  | invDelete => simp only [step, h3]; exact same
  | invClose => simp only [step, h3]; exact same

/-- The events with numbers from `a` up to but without `b`. -/
def upTo (a b : Nat) : List Nat := (List.range b).filter fun n => decide (a ≤ n)

theorem upTo_succ {a b : Nat} (h : a ≤ b) : upTo a (b + 1) = upTo a b ++ [b] := by
  unfold upTo
  rw [List.range_succ, List.filter_append]
  simp [h]

theorem upTo_self (a : Nat) : upTo a a = [] := by
  unfold upTo
  rw [List.filter_eq_nil_iff]
  intro n hn
  simp at hn ⊢
  exact hn

/-- Every connection of the registered cache made since has everything. -/
def Full (s : State) (c e0 : Nat) : Prop := e0 ≤ s.events ∧ ∀ x ∈ s.conns, x.cache = c → e0 ≤ x.start → x.start ≤ s.events ∧ x.got = upTo x.start s.events

theorem full_step {s : State} {c e0 : Nat} (h : Stable s c) (hf : Full s c e0) (o : Op) (ho : o ≠ .invUnregister) : Full (step s o) c e0 := by
  cases o with
  | event =>
    simp only [step]
    rw [if_neg (by rw [h.inval]; simp)]
    refine ⟨Nat.le_succ_of_le hf.1, fun x hx hxc hxs => ?_⟩
    simp only at hx
    obtain ⟨y, hy, rfl⟩ := List.mem_map.1 hx
    by_cases hyc : s.registered = some y.cache
    · rw [if_pos hyc] at hxc hxs ⊢
      obtain ⟨k1, k2⟩ := hf.2 y hy hxc hxs
      refine ⟨Nat.le_succ_of_le k1, ?_⟩
      show y.got ++ [s.events] = upTo y.start (s.events + 1)
      rw [upTo_succ k1, k2]
    · rw [if_neg hyc] at hxc
      rw [h.registered, hxc] at hyc
      exact absurd rfl hyc
  | connect id =>
    simp only [step]
    split
    · refine ⟨hf.1, fun x hx hxc hxs => ?_⟩
      simp only at hx
      rcases List.mem_append.1 hx with hx | hx
      · exact hf.2 x hx hxc hxs
      · rw [List.mem_singleton.1 hx]
        exact ⟨Nat.le_refl _, (upTo_self _).symm⟩
    · exact hf
  | write k v => exact hf
  | recv =>
    simp only [step]
    split
    · exact hf
    · split <;> exact hf
  | enter id => simp only [step]; split <;> exact hf
  | read id => simp only [step]; split <;> exact hf
  | store id =>
    simp only [step]
    split
    · split
      · exact hf
      · split <;> exact hf
    · exact hf
  | register id ok => simp only [step]; split <;> exact hf
  | unregister id => simp only [step]; split <;> exact hf
  | delete id => simp only [step]; split <;> exact hf
  | invUnregister => exact absurd rfl ho
  | invDelete => simp only [step, h.inval]; exact hf
  | invClose => simp only [step, h.inval]; exact hf

/-- Connections get only events from their start on. -/
def Sane (s : State) : Prop := ∀ x ∈ s.conns, x.start ≤ s.events ∧ ∀ n ∈ x.got, x.start ≤ n ∧ n < s.events

theorem sane_step {s : State} (h : Sane s) (o : Op) : Sane (step s o) := by
  cases o with
  | event =>
    simp only [step]
    split
    · exact h
    · intro x hx
      simp only at hx
      obtain ⟨y, hy, rfl⟩ := List.mem_map.1 hx
      obtain ⟨k1, k2⟩ := h y hy
      split
      · refine ⟨Nat.le_succ_of_le k1, fun n hn => ?_⟩
        rcases List.mem_append.1 hn with hn | hn
        · exact ⟨(k2 n hn).1, Nat.lt_succ_of_lt (k2 n hn).2⟩
        · rw [List.mem_singleton.1 hn]; exact ⟨k1, Nat.lt_succ_self _⟩
      · exact ⟨Nat.le_succ_of_le k1, fun n hn => ⟨(k2 n hn).1, Nat.lt_succ_of_lt (k2 n hn).2⟩⟩
  | connect id =>
    simp only [step]
    split
    · intro x hx
      simp only at hx
      rcases List.mem_append.1 hx with hx | hx
      · exact h x hx
      · rw [List.mem_singleton.1 hx]
        exact ⟨Nat.le_refl _, fun n hn => (by cases hn)⟩
    · exact h
  | write k v => exact h
  | recv =>
    simp only [step]
    split
    · exact h
    · split <;> exact h
  | enter id => simp only [step]; split <;> exact h
  | read id => simp only [step]; split <;> exact h
  | store id =>
    simp only [step]
    split
    · split
      · exact h
      · split <;> exact h
    · exact h
  | register id ok => simp only [step]; split <;> exact h
  | unregister id => simp only [step]; split <;> exact h
  | delete id => simp only [step]; split <;> exact h
  | invUnregister => simp only [step]; split <;> exact h
  | invDelete => simp only [step]; split <;> exact h
  | invClose =>
    simp only [step]
    split
    · exact fun x hx => (by cases hx)
    · exact h

theorem sane_foldl {s : State} (h : Sane s) (ops : List Op) : Sane (ops.foldl step s) := by
  induction ops generalizing s with
  | nil => exact h
  | cons o ops ih => exact ih (sane_step h o)

/-- C95 (partial): once the cache is registered and no request is about to undo that, then until the next invalidation the cache stays
registered and every connection made on it gets every event from its start on, in order. Missing: connections made on a cache before it
is registered or after it was dropped, see below. -/
theorem C95_complete_partial (ops0 ops : List Op) (c : Nat) (h : Stable (run ops0) c) (ho : ∀ o ∈ ops, o ≠ .invUnregister) :
    Stable (run (ops0 ++ ops)) c ∧ ∀ x ∈ (run (ops0 ++ ops)).conns, x.cache = c → (run ops0).events ≤ x.start →
      x.got = upTo x.start (run (ops0 ++ ops)).events := by
  have hfull : Full (run ops0) c (run ops0).events := by
    refine ⟨Nat.le_refl _, fun x hx _ hs => ?_⟩
    obtain ⟨k1, k2⟩ := sane_foldl (s := {}) (fun x hx => by cases hx) ops0 x hx
    have e : x.start = (run ops0).events := Nat.le_antisymm k1 hs
    refine ⟨k1, ?_⟩
    rw [← e, upTo_self]
    refine List.eq_nil_iff_forall_not_mem.2 fun n hn => ?_
    have := k2 n hn
    have e' : x.start = (ops0.foldl step {}).events := e
    omega
  have gen : ∀ (ops : List Op) (t : State) (e0 : Nat), Stable t c → (∀ o ∈ ops, o ≠ .invUnregister) → Full t c e0 →
      Stable (ops.foldl step t) c ∧ Full (ops.foldl step t) c e0 := by
    intro ops
    induction ops with
    | nil => exact fun t _ a _ b => ⟨a, b⟩
    | cons o ops ih =>
      intro t e0 a b d
      exact ih (step t o) e0 (stable_step a o (b o (by simp))) (fun o' ho' => b o' (List.mem_cons_of_mem _ ho'))
        (full_step a d o (b o (by simp)))
  have := gen ops (run ops0) _ h ho hfull
  have e : run (ops0 ++ ops) = ops.foldl step (run ops0) := by unfold run; rw [List.foldl_append]
  rw [e]
  exact ⟨this.1, fun x hx hc hs => (this.2.2 x hx hc hs).2⟩

/-- Nobody will register the cache (again). -/
structure Dropped (s : State) (c : Nat) : Prop where
  stored : s.stored ≠ some c
  registered : s.registered ≠ some c
  reqs : ∀ id, Assoc.get s.reqs id ≠ some (.loading c) ∧ Assoc.get s.reqs id ≠ some (.registering c)
  made : c < s.caches.length

theorem dropped_step {s : State} {c : Nat} (h : Dropped s c) (o : Op) :
    Dropped (step s o) c ∧ ∀ x ∈ (step s o).conns, x.cache = c → (x ∈ s.conns ∨ x.got = []) := by
  obtain ⟨h1, h2, h3, h4⟩ := h
  have same : Dropped s c := ⟨h1, h2, h3, h4⟩
  have keep : ∀ x ∈ s.conns, x.cache = c → (x ∈ s.conns ∨ x.got = []) := fun x hx _ => Or.inl hx
  have hset : ∀ (id : Nat) (g : Stage), g ≠ .loading c → g ≠ .registering c → ∀ id', Assoc.get (Assoc.set s.reqs id g) id' ≠ some (.loading c) ∧
      Assoc.get (Assoc.set s.reqs id g) id' ≠ some (.registering c) := by
    intro id g hg hg' id'
    rw [Assoc.get_set]
    split
    · exact ⟨fun e => hg (by cases e; rfl), fun e => hg' (by cases e; rfl)⟩
    · exact h3 id'
  have hdel : ∀ (id : Nat) id', Assoc.get (Assoc.del s.reqs id) id' ≠ some (.loading c) ∧ Assoc.get (Assoc.del s.reqs id) id' ≠ some (.registering c) := by
    intro id id'
    rw [Assoc.get_del]
    split
    · exact ⟨nofun, nofun⟩
    · exact h3 id'
  cases o with
  | write k v => exact ⟨⟨h1, h2, h3, h4⟩, keep⟩
  | recv =>
    simp only [step]
    split
    · exact ⟨same, keep⟩
    · split
      · exact ⟨same, keep⟩
      · exact ⟨⟨h1, h2, h3, by simpa [feed] using h4⟩, keep⟩
  | event =>
    simp only [step]
    split
    · exact ⟨same, keep⟩
    · refine ⟨⟨h1, h2, h3, h4⟩, fun x hx hc => ?_⟩
      simp only at hx
      obtain ⟨y, hy, rfl⟩ := List.mem_map.1 hx
      split at hc
      · rename_i hr; exact absurd (hc ▸ hr) h2
      · rename_i hr; rw [if_neg hr]; exact Or.inl hy
  | enter id =>
    simp only [step]
    split
    · exact ⟨⟨by assumption, h2, hset id _ (by simp) (by simp), h4⟩, keep⟩
    · exact ⟨⟨h1, h2, hset id _ (by simp only [ne_eq, Stage.loading.injEq]; omega) (by simp), by simp only [List.length_append]; omega⟩, keep⟩
  | read id =>
    simp only [step]
    split
    · exact ⟨⟨h1, h2, h3, by simpa using h4⟩, keep⟩
    · exact ⟨same, keep⟩
  | store id =>
    simp only [step]
    split
    · rename_i c0 hr
      have hne : c0 ≠ c := by rintro rfl; exact (h3 id).1 hr
      split
      · exact ⟨same, keep⟩
      · split
        · exact ⟨⟨by assumption, h2, hset id _ (by simp) (by simp), h4⟩, keep⟩
        · exact ⟨⟨by simpa using hne, h2, hset id _ (by simp) (by simpa using hne), h4⟩, keep⟩
    · exact ⟨same, keep⟩
  | register id ok =>
    simp only [step]
    split
    · rename_i c0 hr
      have hne : c0 ≠ c := by rintro rfl; exact (h3 id).2 hr
      exact ⟨⟨h1, by simpa using hne, hset id _ (by cases ok <;> simp) (by cases ok <;> simp), h4⟩, keep⟩
    · exact ⟨same, keep⟩
  | unregister id =>
    simp only [step]
    split
    · exact ⟨⟨h1, by simp, hset id _ (by simp) (by simp), h4⟩, keep⟩
    · exact ⟨same, keep⟩
  | delete id =>
    simp only [step]
    split
    · exact ⟨⟨by simp, h2, hdel id, h4⟩, keep⟩
    · exact ⟨same, keep⟩
  | connect id =>
    simp only [step]
    split
    · refine ⟨⟨h1, h2, hdel id, h4⟩, fun x hx hc => ?_⟩
      simp only at hx
      rcases List.mem_append.1 hx with hx | hx
      · exact Or.inl hx
      · rw [List.mem_singleton.1 hx]; exact Or.inr rfl
    · exact ⟨same, keep⟩
  | invUnregister => simp only [step]; split <;> first | exact ⟨same, keep⟩ | exact ⟨⟨h1, by simp, h3, h4⟩, keep⟩
  | invDelete => simp only [step]; split <;> first | exact ⟨same, keep⟩ | exact ⟨⟨by simp, h2, h3, h4⟩, keep⟩
  | invClose =>
    simp only [step]
    split
    · exact ⟨⟨h1, h2, h3, h4⟩, fun x hx => (by cases hx)⟩
    · exact ⟨same, keep⟩

/-- C95: an invalidation comes to its end: in every reachable state two steps at most are left of it, after which messages and events
are handed on again. -/
theorem C95_goes_on (ops : List Op) :
    (run (ops ++ [.invDelete, .invClose])).inval = 0 ∧ (run (ops ++ [.invDelete, .invClose, .event])).events = (run ops).events + 1 := by
  have h : (run ops).inval ≤ 2 := by
    induction ops using Verif.Util.snocRec with
    | nil => decide
    | append_singleton ops o ih =>
      unfold run at ih ⊢
      rw [List.foldl_append, List.foldl_cons, List.foldl_nil]
      generalize List.foldl step {} ops = s at ih
      cases o <;> simp only [step] <;> (repeat' split) <;> simp_all
  have h3 : (run ops).inval = 0 ∨ (run ops).inval = 1 ∨ (run ops).inval = 2 := by omega
  have e : ∀ l : List Op, run (ops ++ l) = l.foldl step (run ops) := fun l => by simp [run]
  rw [e, e]
  generalize run ops = s at h3
  rcases h3 with h3 | h3 | h3 <;> simp [step, h3]

/-- C95: a connection made on a dropped cache never gets an event. -/
theorem C95_dropped (s : State) (c : Nat) (h : Dropped s c) (hs : ∀ x ∈ s.conns, x.cache = c → x.got = []) (ops : List Op) :
    ∀ x ∈ (ops.foldl step s).conns, x.cache = c → x.got = [] := by
  induction ops generalizing s with
  | nil => exact hs
  | cons o ops ih =>
    obtain ⟨h1, h2⟩ := dropped_step h o
    refine ih (step s o) h1 fun x hx hc => ?_
    rcases h2 x hx hc with h | h
    · exact hs x h hc
    · exact h

/-! ### Violations -/

/-- A request loads the cache, stores it and registers it. -/
def load (id : Nat) (ok : Bool) : List Op := [.enter id, .read id, .read id, .read id, .read id, .read id, .store id, .register id ok]

/-- C95 is violated when two requests of a user come at the same time: the second finds the cache stored but not yet registered and makes
its connection; the next event does not reach the connection, later ones do. -/
theorem C95_violated_window :
    (run ((load 0 true).dropLast ++ [.enter 1, .connect 1, .event, .register 0 true, .connect 0, .event, .event])).conns =
      [⟨0, 0, [1, 2]⟩, ⟨0, 1, [1, 2]⟩] := by decide +kernel

theorem dropped_of (s : State) (c : Nat) (h : s.stored ≠ some c ∧ s.registered ≠ some c ∧ c < s.caches.length)
    (hr : ∀ e ∈ s.reqs, e.2 ≠ .loading c ∧ e.2 ≠ .registering c) : Dropped s c :=
  ⟨h.1, h.2.1, fun id => ⟨fun e => (hr _ (Assoc.get_mem e)).1 rfl, fun e => (hr _ (Assoc.get_mem e)).2 rfl⟩, h.2.2⟩

/-- C95 is violated when a room is invalidated while a request is about to make its connection: its cache is no longer registered, and
the connection, which is not closed, never gets an event. -/
theorem C95_violated_invalidated (ops : List Op) :
    ∃ s, s = run (load 0 true ++ [.invUnregister, .invDelete, .invClose, .connect 0]) ∧ (⟨0, 0, []⟩ : Conn) ∈ s.conns ∧
      ∀ x ∈ (ops.foldl step s).conns, x.cache = 0 → x.got = [] := by
  refine ⟨_, rfl, by decide +kernel, C95_dropped _ 0 (dropped_of _ 0 (by decide +kernel) (by decide +kernel)) (by decide +kernel) ops⟩

/-- C95 is violated when registering fails while another request uses the cache already. -/
theorem C95_violated_failed (ops : List Op) :
    ∃ s, s = run ((load 0 true).dropLast ++ [.enter 1, .register 0 false, .unregister 0, .delete 0, .connect 1]) ∧ (⟨0, 0, []⟩ : Conn) ∈ s.conns ∧
      ∀ x ∈ (ops.foldl step s).conns, x.cache = 0 → x.got = [] := by
  refine ⟨_, rfl, by decide +kernel, C95_dropped _ 0 (dropped_of _ 0 (by decide +kernel) (by decide +kernel)) (by decide +kernel) ops⟩

/-- The hypotheses of `C95_complete_partial` are met. -/
example : Stable (run (load 0 true ++ [.connect 0, .event])) 0 ∧
    (run (load 0 true ++ [.connect 0, .event] ++ [.enter 1, .connect 1, .event, .event])).conns = [⟨0, 0, [0, 1, 2]⟩, ⟨0, 1, [1, 2]⟩] := by
  refine ⟨⟨by decide +kernel, by decide +kernel, by decide +kernel, ?_⟩, by decide +kernel⟩
  have : (run (load 0 true ++ [.connect 0, .event])).reqs = [] := by decide +kernel
  rw [this]
  intro _ g h
  cases h

end Verif.UserCaches
