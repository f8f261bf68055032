import Verif.Redact
import Verif.StoreHist
/-!
# C76: redacted events stay redacted, others are left alone
-/
namespace Verif.Redact

open Verif Verif.Store

variable {J : Type}

/-! ## Specification -/

/-- A redaction of the event `id`. -/
def Redacts (js : Json J) (x : Item J) (id : String) : Prop :=
  x.1.type = "m.room.redaction" ∧ x.1.hasKey = false ∧ js.redacts x.2 = id ∧ id ≠ ""

def Op.items : Op J → List (Item J)
  | .init _ _ b => b.filterMap id
  | .acc _ _ _ t => t.filterMap id

def Op.room : Op J → String
  | .init r _ _ => r
  | .acc r _ _ _ => r

def isStored (s : State J) (id : String) : Prop := ∃ r ∈ s.db.rows, r.ev.id = id

/-- The algorithm for a room whose create event is `c`: that of its version, or that of version 1 if it has none or an unknown one. -/
def Algorithm (js : Json J) (c : J) (v : String) : Prop :=
  (js.version c ≠ "" ∧ js.knows (js.version c) = true ∧ v = js.version c) ∨
  ((js.version c = "" ∨ js.knows (js.version c) = false) ∧ v = "1")

/-- What `unsigned.redacted_because` and the content of a redacted event have in common: a property of redacted JSON. -/
def RedactedForm (js : Json J) (P : J → Prop) : Prop :=
  ∀ v j j' r j'', js.redact v j = some j' → js.because j' r = some j'' → P j''

/-! ## The store underneath -/

def Op.erase : Op J → Store.Op
  | .init room k b => .init room k (b.map fun o => o.map (·.1))
  | .acc room k l t => .acc room k l (t.map fun o => o.map (·.1))

theorem erase_events (t : List (Option (Item J))) : (t.map fun o => o.map (·.1)).filterMap id = (t.filterMap id).map (·.1) := by
  induction t with
  | nil => rfl
  | cons o t ih => cases o <;> simp_all

theorem step_db (js : Json J) (s : State J) (o : Op J) : (step js s o).db = s.db ∨ (step js s o).db = Store.step s.db o.erase := by
  cases o with
  | init room k b =>
    simp only [step, initialise, Op.erase, Store.step]
    split
    · left; rfl
    · rename_i db' h; right; rw [h]; rfl
  | acc room k l t =>
    simp only [step, accumulate, Op.erase, Store.step]
    split
    · left; rfl
    · rename_i db' post h
      rw [h]
      split
      · right; rfl
      · split
        · left; rfl
        · split
          · left; rfl
          · right; rfl

theorem run_snoc (js : Json J) (l : List (Op J)) (o : Op J) : run js (l ++ [o]) = step js (run js l) o := by
  unfold run; rw [List.foldl_append]; rfl

theorem run_TI (js : Json J) (ops : List (Op J)) : TI (run js ops).db := by
  induction ops using Verif.Util.snocRec with
  | nil => constructor <;> simp [run]
  | append_singleton l o ih =>
    rw [run_snoc]
    rcases step_db js (run js l) o with h | h
    · rw [h]; exact ih
    · rw [h]; exact (step_table ih o.erase).1

/-- The new events of a timeline. -/
theorem post_spec {db db' : DB} (hI : TI db) {room : String} {skip : Nat} {limited : Bool} {timeline : List (Option Ev)} {post : List Row}
    (h : Store.accumulate db room skip limited timeline = some (db', post)) :
    (∀ r ∈ post, (∀ q ∈ db.rows, q.ev.id ≠ r.ev.id) ∧ r.ev ∈ timeline.filterMap id ∧ ∃ r' ∈ db'.rows, r'.ev = r.ev ∧ r'.room = r.room) ∧
    (∀ r ∈ db'.rows, (∃ r' ∈ db.rows, r'.ev = r.ev ∧ r'.room = r.room) ∨ (∃ r' ∈ post, r'.ev = r.ev)) ∧
    (∀ r ∈ db.rows, ∃ r' ∈ db'.rows, r'.ev = r.ev ∧ r'.room = r.room) := by
  rcases acc_rows h with ⟨h1, h2, _⟩ | ⟨tagged, ht, hr, hq, hp⟩
  · rw [h1, h2]
    exact ⟨by simp, fun r hr => Or.inl ⟨r, hr, rfl, rfl⟩, fun r hr => ⟨r, hr, rfl, rfl⟩⟩
  · obtain ⟨h1, h2, h3, h4, h5, h6⟩ := insert_table hI room false skip tagged
    rw [ht] at h4
    have hfwd : ∀ r ∈ (insert db room false skip tagged).1.rows, ∃ r' ∈ db'.rows, r'.ev = r.ev ∧ r'.room = r.room := by
      intro r hrm
      have : r.core ∈ db'.rows.map Row.core := by rw [hr]; exact List.mem_map_of_mem hrm
      obtain ⟨r', hr', he⟩ := List.mem_map.1 this
      exact ⟨r', hr', (core_eq he).2.2.1, (core_eq he).2.1⟩
    have hbwd : ∀ r ∈ db'.rows, ∃ r' ∈ (insert db room false skip tagged).1.rows, r'.ev = r.ev ∧ r'.room = r.room := by
      intro r hrm
      have : r.core ∈ (insert db room false skip tagged).1.rows.map Row.core := by rw [← hr]; exact List.mem_map_of_mem hrm
      obtain ⟨r', hr', he⟩ := List.mem_map.1 this
      exact ⟨r', hr', (core_eq he).2.2.1, (core_eq he).2.1⟩
    have hpost : ∀ r ∈ post, r ∈ (insert db room false skip tagged).2 := by
      intro r hrm
      rcases hp with ⟨hp, _⟩ | hp
      · rw [hp] at hrm; simp at hrm
      · rw [hp] at hrm
        obtain ⟨e, _, he⟩ := List.mem_filterMap.1 hrm
        exact List.mem_of_find?_eq_some he
    refine ⟨fun r hrm => ?_, fun r hrm => ?_, fun r hrm => hfwd r (by rw [h2]; exact List.mem_append_left _ hrm)⟩
    · have hi := hpost r hrm
      refine ⟨fun q hq => h6 r hi q hq, ?_, hfwd r (by rw [h2]; exact List.mem_append_right _ hi)⟩
      have := h4.subset (List.mem_map_of_mem (f := fun r : Row => r.ev) hi)
      exact ((filterNew_sublist db _).trans (dedup_sublist timeline [])).subset this
    · obtain ⟨r', hr', he1, he2⟩ := hbwd r hrm
      rw [h2] at hr'
      rcases List.mem_append.1 hr' with hr' | hr'
      · exact Or.inl ⟨r', hr', he1, he2⟩
      · right
        rcases hp with ⟨hp, hn⟩ | hp
        · rw [hn] at hr'; simp at hr'
        · have hem := h4.subset (List.mem_map_of_mem (f := fun r : Row => r.ev) hr')
          have hids := h1.ids
          rw [h2, List.map_append] at hids
          have hids2 := (List.nodup_append.1 hids).2.1
          cases hf : (insert db room false skip tagged).2.find? (fun x => decide (x.ev.id = r'.ev.id)) with
          | none =>
            have := List.find?_eq_none.1 hf r' hr'
            simp at this
          | some z =>
            have hz := List.mem_of_find?_eq_some hf
            have hze : z.ev.id = r'.ev.id := by simpa using List.find?_some hf
            refine ⟨z, by rw [hp]; exact List.mem_filterMap.2 ⟨r'.ev, hem, hf⟩, ?_⟩
            have : ∀ (l : List Row), (l.map (·.ev.id)).Nodup → ∀ a ∈ l, ∀ b ∈ l, a.ev.id = b.ev.id → a = b := by
              intro l
              induction l with
              | nil => intro _ a ha; simp at ha
              | cons x l ih =>
                intro hn a ha b hb hab
                simp only [List.map_cons, List.nodup_cons] at hn
                rcases List.mem_cons.1 ha with ha' | ha' <;> rcases List.mem_cons.1 hb with hb' | hb'
                · rw [ha', hb']
                · subst ha'; exact absurd (List.mem_map.2 ⟨b, hb', hab.symm⟩) hn.1
                · subst hb'; exact absurd (List.mem_map.2 ⟨a, ha', hab⟩) hn.1
                · exact ih hn.2 a ha' b hb' hab
            rw [this _ hids2 z hz r' hr' hze, he1]

/-! ## The JSON column -/

theorem jsonOf_mem {items : List (Item J)} {id : String} {j : J} (h : jsonOf items id = some j) : ∃ x ∈ items, x.1.id = id ∧ x.2 = j := by
  unfold jsonOf at h
  obtain ⟨x, hx, hj⟩ := Option.map_eq_some_iff.1 h
  exact ⟨x, List.mem_of_find?_eq_some hx, by simpa using List.find?_some hx, hj⟩

theorem jsonOf_isSome {items : List (Item J)} {id : String} (h : ∃ x ∈ items, x.1.id = id) : ∃ j, jsonOf items id = some j := by
  obtain ⟨x, hx, he⟩ := h
  cases hf : items.find? (fun x => decide (x.1.id = id)) with
  | none => have := List.find?_eq_none.1 hf x hx; simp [he] at this
  | some y => exact ⟨y.2, by simp [jsonOf, hf]⟩

theorem stored_old {old : String → Option J} {new : List Row} {items : List (Item J)} {id : String} (h : ∀ r ∈ new, r.ev.id ≠ id) :
    stored old new items id = old id := by
  unfold stored
  rw [if_neg]
  intro h'
  obtain ⟨r, hr, he⟩ := List.any_eq_true.1 h'
  exact h r hr (by simpa using he)

theorem stored_new {old : String → Option J} {new : List Row} {items : List (Item J)} {id : String} (h : ∃ r ∈ new, r.ev.id = id) :
    stored old new items id = jsonOf items id := by
  unfold stored
  obtain ⟨r, hr, he⟩ := h
  rw [if_pos (List.any_eq_true.2 ⟨r, hr, by simpa using he⟩)]

theorem redactLoop_spec {js : Json J} {v : String} {rs : List (String × J)} (rows : List Row) : ∀ {json json' : String → Option J},
    redactLoop js v rs json rows = some json' → (rows.map (·.ev.id)).Nodup → ∀ id,
    (id ∉ rows.map (·.ev.id) ∨ lastFor rs id = none ∨ json id = none → json' id = json id) ∧
    (∀ b j, id ∈ rows.map (·.ev.id) → lastFor rs id = some b → json id = some j →
      ∃ j' j'', js.redact v j = some j' ∧ js.because j' b = some j'' ∧ json' id = some j'') := by
  induction rows with
  | nil =>
    intro json json' h _ id
    simp only [redactLoop, Option.some.injEq] at h
    subst h
    exact ⟨fun _ => rfl, by simp⟩
  | cons r rows ih =>
    intro json json' h hn id
    simp only [List.map_cons, List.nodup_cons] at hn
    simp only [redactLoop] at h
    cases h1 : redact1 js v rs json r with
    | none => rw [h1] at h; cases h
    | some json1 =>
      rw [h1] at h
      have hi := ih h hn.2 id
      -- what the first turn does
      have hother : id ≠ r.ev.id → json1 id = json id := by
        intro hne
        unfold redact1 at h1
        split at h1
        · split at h1
          · cases h1
          · split at h1
            · cases h1
            · simp only [Option.some.injEq] at h1
              rw [← h1]; simp [hne]
        · simp only [Option.some.injEq] at h1; rw [h1]
      refine ⟨fun hor => ?_, fun b j hm hb hj => ?_⟩
      · by_cases hid : id = r.ev.id
        · subst hid
          rw [(hi.1 (Or.inl hn.1))]
          have hor : lastFor rs r.ev.id = none ∨ json r.ev.id = none := by
            rcases hor with hor | hor
            · simp at hor
            · exact hor
          unfold redact1 at h1
          rcases hor with hor | hor
          · rw [hor] at h1; simp only [Option.some.injEq] at h1; rw [h1]
          · rw [hor] at h1
            cases hl : lastFor rs r.ev.id <;> rw [hl] at h1 <;> simp only [Option.some.injEq] at h1 <;> rw [← h1]
        · rw [← hother hid]
          refine hi.1 ?_
          rw [hother hid]
          rcases hor with hor | hor
          · left; simp only [List.map_cons, List.mem_cons, not_or] at hor; exact hor.2
          · exact Or.inr hor
      · by_cases hid : id = r.ev.id
        · subst hid
          rw [(hi.1 (Or.inl hn.1))]
          unfold redact1 at h1
          rw [hb, hj] at h1
          dsimp only at h1
          split at h1
          · cases h1
          · rename_i j' hj'
            split at h1
            · cases h1
            · rename_i j'' hj''
              simp only [Option.some.injEq] at h1
              refine ⟨j', j'', hj', hj'', ?_⟩
              rw [← h1]; simp
        · simp only [List.map_cons, List.mem_cons] at hm
          have hm' : id ∈ rows.map (·.ev.id) := by
            rcases hm with hm | hm
            · exact absurd hm hid
            · exact hm
          exact hi.2 b j hm' hb (by rw [hother hid]; exact hj)

/-! ## A timeline -/

/-- What a timeline does to the JSON column. -/
theorem acc_json {js : Json J} {s s' : State J} {room : String} {k : Nat} {l : Bool} {t : List (Option (Item J))} {post : List Row} {flag : Bool}
    (h : accumulate js s room k l t = some (s', post, flag)) (hI : TI s.db) :
    Store.accumulate s.db room k l (t.map fun o => o.map (·.1)) = some (s'.db, post) ∧ TI s'.db ∧
    ((redactions js (stored s.json post (t.filterMap id)) post = [] ∧ s'.json = stored s.json post (t.filterMap id) ∧ flag = false) ∨
     ∃ c, selectCreate s'.db (stored s.json post (t.filterMap id)) room = some c ∧
      redact js (versionOf js c) s'.db (redactions js (stored s.json post (t.filterMap id)) post) (stored s.json post (t.filterMap id)) = some s'.json ∧
      flag = (currentRows s'.db room).any fun r => decide (r.ev.id ∈ (redactions js (stored s.json post (t.filterMap id)) post).map (·.1))) := by
  unfold accumulate at h
  split at h
  · cases h
  · rename_i db' post' ha
    have hT : TI db' := by
      have := (step_table hI (.acc room k l (t.map fun o => o.map (·.1)))).1
      simp only [Store.step, ha, Option.map_some, Option.getD_some] at this
      exact this
    dsimp only at h
    split at h
    · rename_i hr
      simp only [Option.some.injEq, Prod.mk.injEq] at h
      obtain ⟨rfl, rfl, rfl⟩ := h
      exact ⟨ha, hT, Or.inl ⟨hr, rfl, rfl⟩⟩
    · split at h
      · cases h
      · rename_i c hc
        split at h
        · cases h
        · rename_i json' hj
          simp only [Option.some.injEq, Prod.mk.injEq] at h
          obtain ⟨rfl, rfl, rfl⟩ := h
          exact ⟨ha, hT, Or.inr ⟨c, hc, hj, rfl⟩⟩

theorem mem_redactions {js : Json J} {json : String → Option J} {post : List Row} {p : String × J} (h : p ∈ redactions js json post) :
    ∃ r ∈ post, json r.ev.id = some p.2 ∧ r.ev.hasKey = false ∧ r.ev.type = "m.room.redaction" ∧ js.redacts p.2 = p.1 ∧ p.1 ≠ "" := by
  obtain ⟨r, hr, h⟩ := List.mem_filterMap.1 h
  split at h
  · cases h
  · rename_i j hj
    split at h
    · rename_i hc
      simp only [Option.some.injEq] at h
      subst h
      exact ⟨r, hr, hj, hc.1, hc.2.1, rfl, hc.2.2⟩
    · cases h

theorem lastFor_mem {rs : List (String × J)} {id : String} {b : J} (h : lastFor rs id = some b) : (id, b) ∈ rs := by
  obtain ⟨x, hx, he⟩ := Option.map_eq_some_iff.1 h
  have h1 := List.mem_reverse.1 (List.mem_of_find?_eq_some hx)
  have h2 : x.1 = id := by simpa using List.find?_some hx
  rw [← h2, ← he]; exact h1

theorem lastFor_none {rs : List (String × J)} {id : String} (h : id ∉ rs.map (·.1)) : lastFor rs id = none := by
  unfold lastFor
  rw [List.find?_eq_none.2]; rfl
  intro x hx hc
  exact h (List.mem_map.2 ⟨x, List.mem_reverse.1 hx, by simpa using hc⟩)

theorem lastFor_append {a b : List (String × J)} {id : String} {j : J} (hb : ∀ p ∈ b, p.1 ≠ id) : lastFor (a ++ (id, j) :: b) id = some j := by
  unfold lastFor
  rw [List.reverse_append, List.reverse_cons, List.append_assoc, List.find?_append, List.find?_eq_none.2]
  · simp
  · intro x hx hc
    exact hb x (List.mem_reverse.1 hx) (by simpa using hc)

theorem version_ok (js : Json J) (c : J) : Algorithm js c (versionOf js c) := by
  unfold Algorithm versionOf
  by_cases h : js.version c = ""
  · right; simp [h]
  · simp only [if_neg h]
    by_cases hk : js.knows (js.version c) = true
    · left; simp [h, hk]
    · right; simp only [hk]; exact ⟨Or.inr (by simpa using hk), by simp⟩

theorem filter_ids_nodup {db : DB} (h : TI db) (p : Row → Bool) : ((db.rows.filter p).map (·.ev.id)).Nodup :=
  (List.filter_sublist.map _).nodup h.ids

theorem find_firsts (L : List (Item J)) : ∀ (e : Ev), e ∈ firsts (L.map (·.1)) → ∀ y, L.find? (fun x => decide (x.1.id = e.id)) = some y → y.1 = e := by
  induction L with
  | nil => intro e he; simp [firsts] at he
  | cons z L ih =>
    intro e he y hy
    simp only [List.map_cons, firsts, List.mem_cons, List.mem_filter] at he
    rw [List.find?_cons] at hy
    by_cases hz : z.1.id = e.id
    · simp only [hz, decide_true] at hy
      simp only [Option.some.injEq] at hy
      subst hy
      rcases he with he | ⟨he1, he2⟩
      · exact he.symm
      · simp [hz] at he2
    · simp only [hz, decide_false] at hy
      rcases he with he | ⟨he1, _⟩
      · exact absurd (by rw [he]) hz
      · exact ih e he1 y hy

/-- The JSON stored for a new event comes with that event. -/
theorem post_item {db db' : DB} (hI : TI db) {room : String} {k : Nat} {l : Bool} {t : List (Option (Item J))} {post : List Row}
    (ha : Store.accumulate db room k l (t.map fun o => o.map (·.1)) = some (db', post)) {r : Row} (hrm : r ∈ post) {j : J}
    (hj : jsonOf (t.filterMap id) r.ev.id = some j) : (r.ev, j) ∈ t.filterMap id := by
  have hd : r.ev ∈ dedup [] (t.map fun o => o.map (·.1)) := by
    rcases acc_rows ha with ⟨_, h2, _⟩ | ⟨tagged, ht, _, _, hpp⟩
    · rw [h2] at hrm; simp at hrm
    · rcases hpp with ⟨hpp, _⟩ | hpp
      · rw [hpp] at hrm; simp at hrm
      · rw [hpp] at hrm
        obtain ⟨e, he, hfe⟩ := List.mem_filterMap.1 hrm
        obtain ⟨_, _, _, h4', _, _⟩ := insert_table hI room false k tagged
        rw [ht] at h4'
        exact (filterNew_sublist db _).subset (h4'.subset (List.mem_map_of_mem (f := fun r : Row => r.ev) (List.mem_of_find?_eq_some hfe)))
  rw [dedup_spec] at hd
  have hfi := (List.mem_filter.1 hd).1
  rw [erase_events] at hfi
  unfold jsonOf at hj
  obtain ⟨y, hy, hyj⟩ := Option.map_eq_some_iff.1 hj
  have := find_firsts _ _ hfi y hy
  rw [← this, ← hyj]
  exact List.mem_of_find?_eq_some hy

/-- The JSON column after a timeline: unchanged (or that of the new event), or redacted. -/
theorem acc_cases {js : Json J} {s s' : State J} {room : String} {k : Nat} {l : Bool} {t : List (Option (Item J))} {post : List Row} {flag : Bool}
    (h : accumulate js s room k l t = some (s', post, flag)) (hI : TI s.db) (i : String) :
    s'.json i = stored s.json post (t.filterMap id) i ∨
    (∃ v j j' b j'', js.redact v j = some j' ∧ js.because j' b = some j'' ∧ s'.json i = some j'' ∧
      ∃ x ∈ t.filterMap id, Redacts js x i ∧ x.2 = b) := by
  obtain ⟨ha, hT, hor⟩ := acc_json h hI
  rcases hor with ⟨_, hj, _⟩ | ⟨c, _, hr, _⟩
  · left; rw [hj]
  · have hs := redactLoop_spec _ hr (filter_ids_nodup hT _) i
    cases hl : lastFor (redactions js (stored s.json post (t.filterMap id)) post) i with
    | none => left; exact hs.1 (Or.inr (Or.inl hl))
    | some b =>
      by_cases hm : i ∈ (s'.db.rows.filter fun r => decide (r.ev.id ∈
          (redactions js (stored s.json post (t.filterMap id)) post).map (·.1))).map (·.ev.id)
      · cases hj : stored s.json post (t.filterMap id) i with
        | none => left; rw [hs.1 (Or.inr (Or.inr hj))]; exact hj
        | some j =>
          right
          obtain ⟨j', j'', h1, h2, h3⟩ := hs.2 b j hm hl hj
          refine ⟨versionOf js c, j, j', b, j'', h1, h2, h3, ?_⟩
          obtain ⟨r, hrm, hrj, h5, h6, h7, h8⟩ := mem_redactions (lastFor_mem hl)
          rw [stored_new ⟨r, hrm, rfl⟩] at hrj
          exact ⟨_, post_item hI ha hrm hrj, ⟨h6, h5, h7, h8⟩, rfl⟩
      · left; exact hs.1 (Or.inl hm)

theorem init_new {db db' : DB} {room : String} {k : Nat} {b : List (Option Ev)} (h : Store.initialise db room k b = some db') (hI : TI db) :
    TI db' ∧ ∃ new, db'.rows = db.rows ++ new ∧ (∀ r ∈ new, (∀ q ∈ db.rows, q.ev.id ≠ r.ev.id) ∧ r.ev ∈ b.filterMap id) := by
  have hT := (step_table hI (.init room k b)).1
  have hr := init_rows db room k b
  simp only [Store.step, h, Option.getD_some] at hT hr
  refine ⟨hT, ?_⟩
  rcases hr with hr | ⟨hr, _⟩
  · exact ⟨[], by rw [hr, List.append_nil], by simp⟩
  · obtain ⟨h1, h2, h3, h4, h5, h6⟩ := insert_table hI room true k ((b.filterMap id).map fun e => (e, false))
    refine ⟨_, by rw [hr, h2], fun r hrm => ⟨fun q hq => h6 r hrm q hq, ?_⟩⟩
    have := h4.subset (List.mem_map_of_mem (f := fun r : Row => r.ev) hrm)
    simpa using this

theorem init_cases {s s' : State J} {room : String} {k : Nat} {b : List (Option (Item J))} (hI : TI s.db)
    (h : initialise s room k b = some s') :
    TI s'.db ∧ ∃ new, s'.db.rows = s.db.rows ++ new ∧ (∀ r ∈ new, (∀ q ∈ s.db.rows, q.ev.id ≠ r.ev.id) ∧ r.ev ∈ (b.filterMap id).map (·.1)) ∧
      s'.json = stored s.json new (b.filterMap id) := by
  unfold initialise at h
  split at h
  · cases h
  · rename_i db' hi
    simp only [Option.some.injEq] at h
    subst h
    obtain ⟨hT, new, hn, hnew⟩ := init_new hi hI
    rw [erase_events] at hnew
    refine ⟨hT, new, hn, hnew, ?_⟩
    show stored s.json (db'.rows.drop _) _ = _
    rw [hn, List.drop_left]

/-! ## Histories -/

/-- Every stored event has JSON. -/
def Full (s : State J) : Prop := ∀ i, isStored s i → ∃ j, s.json i = some j

/-- What one section does to the JSON column. -/
theorem step_cases (js : Json J) {s : State J} (hI : TI s.db) (o : Op J) (i : String) :
    ((step js s o).json i = s.json i) ∨
    (¬ isStored s i ∧ ∃ x ∈ o.items, x.1.id = i ∧ (step js s o).json i = some x.2) ∨
    (∃ v j j' b j'', js.redact v j = some j' ∧ js.because j' b = some j'' ∧ (step js s o).json i = some j'' ∧ ∃ x ∈ o.items, Redacts js x i ∧ x.2 = b) := by
  cases o with
  | init room k b =>
    simp only [step]
    cases h : initialise s room k b with
    | none => left; rfl
    | some s' =>
      obtain ⟨_, new, hn, hnew, hj⟩ := init_cases hI h
      simp only [Option.getD_some]
      rw [hj]
      by_cases hm : ∃ r ∈ new, r.ev.id = i
      · right; left
        obtain ⟨r, hr, hri⟩ := hm
        rw [stored_new ⟨r, hr, hri⟩]
        obtain ⟨x, hx, hxe⟩ := List.mem_map.1 (hnew r hr).2
        obtain ⟨j, hj'⟩ := jsonOf_isSome (items := b.filterMap id) (id := i) ⟨x, hx, by rw [hxe, hri]⟩
        obtain ⟨y, hy, hyi, hyj⟩ := jsonOf_mem hj'
        exact ⟨fun ⟨q, hq, hqi⟩ => (hnew r hr).1 q hq (by rw [hqi, hri]), y, hy, hyi, by rw [hj', hyj]⟩
      · left
        exact stored_old fun r hr he => hm ⟨r, hr, he⟩
  | acc room k l t =>
    simp only [step]
    cases h : accumulate js s room k l t with
    | none => left; rfl
    | some p =>
      obtain ⟨s', post, flag⟩ := p
      simp only [Option.map_some, Option.getD_some]
      rcases acc_cases h hI i with hc | hc
      · rw [hc]
        obtain ⟨ha, _, _⟩ := acc_json h hI
        have hp := (post_spec hI ha).1
        by_cases hm : ∃ r ∈ post, r.ev.id = i
        · right; left
          obtain ⟨r, hr, hri⟩ := hm
          rw [stored_new ⟨r, hr, hri⟩]
          have hrev := (hp r hr).2.1
          rw [erase_events] at hrev
          obtain ⟨x, hx, hxe⟩ := List.mem_map.1 hrev
          obtain ⟨j, hj'⟩ := jsonOf_isSome (items := t.filterMap id) (id := i) ⟨x, hx, by rw [hxe, hri]⟩
          obtain ⟨y, hy, hyi, hyj⟩ := jsonOf_mem hj'
          exact ⟨fun ⟨q, hq, hqi⟩ => (hp r hr).1 q hq (by rw [hqi, hri]), y, hy, hyi, by rw [hj', hyj]⟩
        · left
          exact stored_old fun r hr he => hm ⟨r, hr, he⟩
      · right; right; exact hc

/-- The events stored after a section. -/
theorem step_stored (js : Json J) {s : State J} (hI : TI s.db) (o : Op J) (i : String) :
    (isStored s i → isStored (step js s o) i) ∧ (isStored (step js s o) i → isStored s i ∨ ∃ j, (step js s o).json i = some j) := by
  cases o with
  | init room k b =>
    simp only [step]
    cases h : initialise s room k b with
    | none => exact ⟨fun h => h, fun h => Or.inl h⟩
    | some s' =>
      obtain ⟨_, new, hn, hnew, hj⟩ := init_cases hI h
      simp only [Option.getD_some]
      unfold isStored
      rw [hn]
      refine ⟨fun ⟨r, hr, he⟩ => ⟨r, List.mem_append_left _ hr, he⟩, fun ⟨r, hr, he⟩ => ?_⟩
      rcases List.mem_append.1 hr with hr | hr
      · exact Or.inl ⟨r, hr, he⟩
      · right
        rw [hj, stored_new ⟨r, hr, he⟩]
        obtain ⟨x, hx, hxe⟩ := List.mem_map.1 (hnew r hr).2
        exact jsonOf_isSome ⟨x, hx, by rw [hxe, he]⟩
  | acc room k l t =>
    simp only [step]
    cases h : accumulate js s room k l t with
    | none => exact ⟨fun h => h, fun h => Or.inl h⟩
    | some p =>
      obtain ⟨s', post, flag⟩ := p
      simp only [Option.map_some, Option.getD_some]
      obtain ⟨ha, _, _⟩ := acc_json h hI
      obtain ⟨hp1, hp2, hp3⟩ := post_spec hI ha
      refine ⟨fun ⟨r, hr, he⟩ => ?_, fun ⟨r, hr, he⟩ => ?_⟩
      · obtain ⟨r', hr', he', _⟩ := hp3 r hr
        exact ⟨r', hr', by rw [he', he]⟩
      · rcases hp2 r hr with ⟨r', hr', he', _⟩ | ⟨r', hr', he'⟩
        · exact Or.inl ⟨r', hr', by rw [he', he]⟩
        · right
          rcases acc_cases h hI i with hc | ⟨_, _, _, _, j'', _, _, hj, _⟩
          · rw [hc, stored_new ⟨r', hr', by rw [he', he]⟩]
            have hrev := (hp1 r' hr').2.1
            rw [erase_events] at hrev
            obtain ⟨x, hx, hxe⟩ := List.mem_map.1 hrev
            exact jsonOf_isSome ⟨x, hx, by rw [hxe, he', he]⟩
          · exact ⟨j'', hj⟩

theorem run_full (js : Json J) (ops : List (Op J)) : Full (run js ops) := by
  induction ops using Verif.Util.snocRec with
  | nil => intro i ⟨r, hr, _⟩; simp [run] at hr
  | append_singleton l o ih =>
    rw [run_snoc]
    intro i hi
    rcases (step_stored js (run_TI js l) o i).2 hi with h | h
    · obtain ⟨j, hj⟩ := ih i h
      rcases step_cases js (run_TI js l) o i with hc | ⟨_, x, _, _, hc⟩ | ⟨_, _, _, _, j'', _, _, hc, _⟩
      · exact ⟨j, by rw [hc, hj]⟩
      · exact ⟨x.2, hc⟩
      · exact ⟨j'', hc⟩
    · exact h

/-! ## C76 -/

/-- An event which no delivered redaction names is stored as one of the pollers delivered it, whatever else was redacted. -/
theorem C76_untouched (js : Json J) (ops : List (Op J)) (i : String) (hn : ∀ o ∈ ops, ∀ x ∈ o.items, ¬ Redacts js x i)
    (hi : isStored (run js ops) i) : ∃ o ∈ ops, ∃ x ∈ o.items, x.1.id = i ∧ (run js ops).json i = some x.2 := by
  have key : ∀ ops : List (Op J), (∀ o ∈ ops, ∀ x ∈ o.items, ¬ Redacts js x i) → ∀ j, (run js ops).json i = some j →
      ∃ o ∈ ops, ∃ x ∈ o.items, x.1.id = i ∧ x.2 = j := by
    intro ops
    induction ops using Verif.Util.snocRec with
    | nil => intro _ j hj; cases hj
    | append_singleton l o ih =>
      intro hn j hj
      rw [run_snoc] at hj
      rcases step_cases js (run_TI js l) o i with hc | ⟨_, x, hx, hxi, hc⟩ | ⟨_, _, _, _, _, _, _, _, x, hx, hr, _⟩
      · rw [hc] at hj
        obtain ⟨o', ho', x, hx, he⟩ := ih (fun o ho => hn o (List.mem_append_left _ ho)) j hj
        exact ⟨o', List.mem_append_left _ ho', x, hx, he⟩
      · rw [hc] at hj
        exact ⟨o, by simp, x, hx, hxi, by simpa using hj⟩
      · exact absurd hr (hn o (by simp) x hx)
  obtain ⟨j, hj⟩ := run_full js ops i hi
  obtain ⟨o, ho, x, hx, he1, he2⟩ := key ops hn j hj
  exact ⟨o, ho, x, hx, he1, by rw [hj, he2]⟩

/-- A stored event is never replaced by another delivery of it: only a redaction of it can change it. -/
theorem C76_first_kept (js : Json J) (ops : List (Op J)) (o : Op J) (i : String) (hi : isStored (run js ops) i)
    (hn : ∀ x ∈ o.items, ¬ Redacts js x i) : (run js (ops ++ [o])).json i = (run js ops).json i := by
  rw [run_snoc]
  rcases step_cases js (run_TI js ops) o i with hc | ⟨h, _⟩ | ⟨_, _, _, _, _, _, _, _, x, hx, hr, _⟩
  · exact hc
  · exact absurd hi h
  · exact absurd hr (hn x hx)

/-- Once redacted, an event stays redacted, whatever is delivered later: `P` is any property which redacting brings about. -/
theorem C76_permanent (js : Json J) {P : J → Prop} (hP : RedactedForm js P) (ops more : List (Op J)) (i : String) (j : J)
    (hi : isStored (run js ops) i) (hj : (run js ops).json i = some j) (hpj : P j) :
    ∃ j', (run js (ops ++ more)).json i = some j' ∧ P j' := by
  have key : isStored (run js (ops ++ more)) i ∧ ∃ j', (run js (ops ++ more)).json i = some j' ∧ P j' := by
    induction more using Verif.Util.snocRec with
    | nil => rw [List.append_nil]; exact ⟨hi, j, hj, hpj⟩
    | append_singleton l o ih =>
      obtain ⟨hs, j', hj', hp'⟩ := ih
      rw [← List.append_assoc, run_snoc]
      refine ⟨(step_stored js (run_TI js _) o i).1 hs, ?_⟩
      rcases step_cases js (run_TI js (ops ++ l)) o i with hc | ⟨h, _⟩ | ⟨_, _, _, _, j'', h1, h2, hc, _⟩
      · exact ⟨j', by rw [hc, hj'], hp'⟩
      · exact absurd hs h
      · exact ⟨j'', hc, hP _ _ _ _ _ h1 h2⟩
  exact key.2

theorem lastFor_isSome {rs : List (String × J)} {i : String} (h : i ∈ rs.map (·.1)) : ∃ b, lastFor rs i = some b := by
  obtain ⟨p, hp, hi⟩ := List.mem_map.1 h
  unfold lastFor
  cases hf : rs.reverse.find? (fun r => decide (r.1 = i)) with
  | none => have := List.find?_eq_none.1 hf p (List.mem_reverse.2 hp); simp [hi] at this
  | some y => exact ⟨y.2, rfl⟩

theorem lastFor_split {rs : List (String × J)} {i : String} {b : J} (h : lastFor rs i = some b) :
    ∃ pre suf, rs = pre ++ (i, b) :: suf ∧ ∀ p ∈ suf, p.1 ≠ i := by
  obtain ⟨x, hx, he⟩ := Option.map_eq_some_iff.1 h
  obtain ⟨h1, as, bs, h2, h3⟩ := List.find?_eq_some_iff_append.1 hx
  have h1 : x.1 = i := by simpa using h1
  refine ⟨bs.reverse, as.reverse, ?_, fun p hp hpi => ?_⟩
  · have := congrArg List.reverse h2
    rw [List.reverse_reverse] at this
    rw [this, List.reverse_append, List.reverse_cons, ← h1, ← he, List.append_assoc]; rfl
  · have := h3 p (List.mem_reverse.1 hp)
    simp [hpi] at this

theorem mem_redactions' {js : Json J} {json : String → Option J} {post : List Row} {r : Row} {j : J} {i : String} (hr : r ∈ post)
    (hj : json r.ev.id = some j) (h : Redacts js (r.ev, j) i) : (i, j) ∈ redactions js json post := by
  obtain ⟨h1, h2, h3, h4⟩ := h
  refine List.mem_filterMap.2 ⟨r, hr, ?_⟩
  rw [hj]
  dsimp only at h1 h2 h3 ⊢
  rw [if_pos ⟨h2, h1, by rw [h3]; exact h4⟩, h3]

theorem selectCreate_spec {db : DB} {json : String → Option J} {room : String} {c : J} (h : selectCreate db json room = some c) :
    ∃ r ∈ db.rows, r.room = room ∧ r.ev.type = "m.room.create" ∧ r.ev.stateKey = "" ∧ json r.ev.id = some c := by
  unfold selectCreate at h
  split at h
  · cases h
  · rename_i r hr
    have := List.find?_some hr
    simp only [Bool.and_eq_true, decide_eq_true_eq] at this
    exact ⟨r, List.mem_of_find?_eq_some hr, this.1.1, this.1.2, this.2, h⟩

/-- The JSON an event has before the redactions of a timeline: what was stored, or what is delivered now. -/
def Before (s : State J) (items : List (Item J)) (i : String) (j : J) : Prop :=
  (isStored s i ∧ s.json i = some j) ∨ (¬ isStored s i ∧ ∃ x ∈ items, x.1.id = i ∧ x.2 = j)

theorem before_stored {s : State J} {db' : DB} {room : String} {k : Nat} {l : Bool} {t : List (Option (Item J))} {post : List Row} (hI : TI s.db)
    (ha : Store.accumulate s.db room k l (t.map fun o => o.map (·.1)) = some (db', post)) {i : String} {j : J} (hs : ∃ r ∈ db'.rows, r.ev.id = i)
    (hj : stored s.json post (t.filterMap id) i = some j) : Before s (t.filterMap id) i j := by
  obtain ⟨hp1, hp2, hp3⟩ := post_spec hI ha
  obtain ⟨r, hr, hri⟩ := hs
  by_cases hm : ∃ r ∈ post, r.ev.id = i
  · rw [stored_new hm] at hj
    obtain ⟨x, hx, h1, h2⟩ := jsonOf_mem hj
    obtain ⟨r', hr', hri'⟩ := hm
    exact Or.inr ⟨fun ⟨q, hq, hqi⟩ => (hp1 r' hr').1 q hq (by rw [hqi, hri']), x, hx, h1, h2⟩
  · rw [stored_old fun r hr he => hm ⟨r, hr, he⟩] at hj
    refine Or.inl ⟨?_, hj⟩
    rcases hp2 r hr with ⟨r', hr', he', _⟩ | ⟨r', hr', he'⟩
    · exact ⟨r', hr', by rw [he', hri]⟩
    · exact absurd ⟨r', hr', by rw [he', hri]⟩ hm

/-- Every stored event named by a redaction among the newly accumulated events is redacted, by the algorithm of the redaction's room
and because of the last such redaction.  Missing: a redaction whose event is stored only later is not applied
(`C76_violated_order`), and the event may be one of another room (`C76_violated_room`). -/
theorem C76_redacted_partial (js : Json J) (ops : List (Op J)) {room : String} {k : Nat} {l : Bool} {t : List (Option (Item J))} {s' : State J}
    {post : List Row} {flag : Bool} (h : accumulate js (run js ops) room k l t = some (s', post, flag))
    (hu : ∀ x ∈ t.filterMap id, ∀ y ∈ t.filterMap id, x.1.id = y.1.id → x = y) {x : Item J} (hx : x ∈ t.filterMap id)
    (hn : x.1 ∈ post.map (·.ev)) {i : String} (hr : Redacts js x i) (hi : isStored s' i) :
    ∃ c v j j' b j'', (∃ rc ∈ s'.db.rows, rc.room = room ∧ rc.ev.type = "m.room.create" ∧ rc.ev.stateKey = "" ∧
        Before (run js ops) (t.filterMap id) rc.ev.id c) ∧ Algorithm js c v ∧
      Before (run js ops) (t.filterMap id) i j ∧ js.redact v j = some j' ∧ js.because j' b = some j'' ∧ s'.json i = some j'' ∧
      ∃ y ∈ t.filterMap id, Redacts js y i ∧ y.2 = b ∧ ∃ pre suf, post.map (·.ev) = pre ++ y.1 :: suf ∧
        ∀ e ∈ suf, ∀ z ∈ t.filterMap id, z.1 = e → ¬ Redacts js z i := by
  have hI := run_TI js ops
  have hF := run_full js ops
  generalize run js ops = s at h hI hF
  obtain ⟨ha, hT, hor⟩ := acc_json h hI
  obtain ⟨hp1, hp2, hp3⟩ := post_spec hI ha
  have hjp : ∀ r ∈ post, ∃ j, stored s.json post (t.filterMap id) r.ev.id = some j ∧ (r.ev, j) ∈ t.filterMap id := by
    intro r hr
    have hrev := (hp1 r hr).2.1
    rw [erase_events] at hrev
    obtain ⟨y, hy, hye⟩ := List.mem_map.1 hrev
    rw [stored_new ⟨r, hr, rfl⟩]
    obtain ⟨j, hj⟩ := jsonOf_isSome (items := t.filterMap id) (id := r.ev.id) ⟨y, hy, by rw [hye]⟩
    exact ⟨j, hj, post_item hI ha hr hj⟩
  obtain ⟨r, hrm, hre⟩ := List.mem_map.1 hn
  obtain ⟨jr, hjr, hjm⟩ := hjp r hrm
  have hxr : (r.ev, jr) = x := hu _ hjm _ hx (by rw [hre])
  have hmem := mem_redactions' hrm hjr (by rw [hxr]; exact hr)
  rcases hor with ⟨he, _, _⟩ | ⟨c, hc, hrd, _⟩
  · rw [he] at hmem; simp at hmem
  · obtain ⟨b, hb⟩ := lastFor_isSome (List.mem_map_of_mem (f := fun p : String × J => p.1) hmem)
    have hs := redactLoop_spec _ hrd (filter_ids_nodup hT _) i
    obtain ⟨ri, hrim, hrii⟩ := hi
    have hsome : ∃ j, stored s.json post (t.filterMap id) i = some j := by
      by_cases hm : ∃ r ∈ post, r.ev.id = i
      · obtain ⟨r', hr', he'⟩ := hm
        obtain ⟨j, hj, _⟩ := hjp r' hr'
        exact ⟨j, by rw [← he', hj]⟩
      · rw [stored_old fun r hr he => hm ⟨r, hr, he⟩]
        rcases hp2 ri hrim with ⟨r', hr', he', _⟩ | ⟨r', hr', he'⟩
        · exact hF i ⟨r', hr', by rw [he', hrii]⟩
        · exact absurd ⟨r', hr', by rw [he', hrii]⟩ hm
    obtain ⟨j, hj⟩ := hsome
    have hin : i ∈ (s'.db.rows.filter fun r => decide (r.ev.id ∈
        (redactions js (stored s.json post (t.filterMap id)) post).map (·.1))).map (·.ev.id) := by
      refine List.mem_map.2 ⟨ri, List.mem_filter.2 ⟨hrim, ?_⟩, hrii⟩
      rw [hrii]
      exact decide_eq_true (List.mem_map.2 ⟨_, hmem, rfl⟩)
    obtain ⟨j', j'', h1, h2, h3⟩ := hs.2 b j hin hb hj
    obtain ⟨rc, hrc1, hrc2, hrc3, hrc4, hrc5⟩ := selectCreate_spec hc
    refine ⟨c, versionOf js c, j, j', b, j'', ⟨rc, hrc1, hrc2, hrc3, hrc4, before_stored hI ha ⟨rc, hrc1, rfl⟩ hrc5⟩, version_ok js c,
      before_stored hI ha ⟨ri, hrim, hrii⟩ hj, h1, h2, h3, ?_⟩
    obtain ⟨pre, suf, hsp, hlast⟩ := lastFor_split hb
    unfold redactions at hsp
    obtain ⟨p1, p2, hp12, hpre, hsuf⟩ := List.filterMap_eq_append_iff.1 hsp
    obtain ⟨q1, rb, q2, hq, hq1, hrb, hq2⟩ := List.filterMap_eq_cons_iff.1 hsuf
    have hrbm : rb ∈ post := by rw [hp12, hq]; simp
    obtain ⟨jb, hjb, hjbm⟩ := hjp rb hrbm
    rw [hjb] at hrb
    dsimp only at hrb
    split at hrb
    · rename_i hcond
      simp only [Option.some.injEq, Prod.mk.injEq] at hrb
      obtain ⟨hrb1, hrb2⟩ := hrb
      refine ⟨(rb.ev, jb), hjbm, ⟨hcond.2.1, hcond.1, hrb1, by rw [← hrb1]; exact hcond.2.2⟩, hrb2,
        (p1 ++ q1).map (·.ev), q2.map (·.ev), by rw [hp12, hq]; simp, ?_⟩
      intro e he z hz hze hzr
      obtain ⟨r2, hr2, hr2e⟩ := List.mem_map.1 he
      have hr2m : r2 ∈ post := by rw [hp12, hq]; simp [hr2]
      obtain ⟨j2, hj2, hj2m⟩ := hjp r2 hr2m
      have hzz : (r2.ev, j2) = z := hu _ hj2m _ hz (by rw [hze, ← hr2e])
      have := mem_redactions' (json := stored s.json post (t.filterMap id)) hr2 hj2 (by rw [hzz]; exact hzr)
      unfold redactions at this
      rw [hq2] at this
      exact hlast _ this rfl
    · cases hrb

/-- The caches are told to reload a room's state exactly when a redaction names an event of the room's current snapshot. -/
theorem C76_flag (js : Json J) (ops : List (Op J)) {room : String} {k : Nat} {l : Bool} {t : List (Option (Item J))} {s' : State J}
    {post : List Row} {flag : Bool} (h : accumulate js (run js ops) room k l t = some (s', post, flag))
    (hu : ∀ x ∈ t.filterMap id, ∀ y ∈ t.filterMap id, x.1.id = y.1.id → x = y) :
    flag = true ↔ ∃ r ∈ s'.db.rows, (∃ sn, selectSnap s'.db (s'.db.cur room) = some sn ∧ r.nid ∈ sn.nids) ∧ ∃ x ∈ t.filterMap id, x.1 ∈ post.map (·.ev) ∧ Redacts js x r.ev.id := by
  have hI := run_TI js ops
  generalize run js ops = s at h hI
  obtain ⟨ha, hT, hor⟩ := acc_json h hI
  obtain ⟨hp1, hp2, hp3⟩ := post_spec hI ha
  have hjp : ∀ r ∈ post, ∃ j, stored s.json post (t.filterMap id) r.ev.id = some j ∧ (r.ev, j) ∈ t.filterMap id := by
    intro r hr
    have hrev := (hp1 r hr).2.1
    rw [erase_events] at hrev
    obtain ⟨y, hy, hye⟩ := List.mem_map.1 hrev
    rw [stored_new ⟨r, hr, rfl⟩]
    obtain ⟨j, hj⟩ := jsonOf_isSome (items := t.filterMap id) (id := r.ev.id) ⟨y, hy, by rw [hye]⟩
    exact ⟨j, hj, post_item hI ha hr hj⟩
  have hiff : ∀ i, i ∈ (redactions js (stored s.json post (t.filterMap id)) post).map (·.1) ↔
      ∃ x ∈ t.filterMap id, x.1 ∈ post.map (·.ev) ∧ Redacts js x i := by
    intro i
    constructor
    · intro hi
      obtain ⟨p, hp, hpi⟩ := List.mem_map.1 hi
      obtain ⟨r, hr, hrj, h1, h2, h3, h4⟩ := mem_redactions hp
      obtain ⟨j, hj, hjm⟩ := hjp r hr
      rw [hj] at hrj
      simp only [Option.some.injEq] at hrj
      subst hrj
      exact ⟨_, hjm, List.mem_map_of_mem hr, h2, h1, by rw [h3, hpi], by rw [← hpi]; exact h4⟩
    · rintro ⟨x, hx, hn, hr⟩
      obtain ⟨r, hrm, hre⟩ := List.mem_map.1 hn
      obtain ⟨jr, hjr, hjm⟩ := hjp r hrm
      have hxr : (r.ev, jr) = x := hu _ hjm _ hx (by rw [hre])
      exact List.mem_map.2 ⟨_, mem_redactions' hrm hjr (by rw [hxr]; exact hr), rfl⟩
  have hcur : ∀ r, r ∈ currentRows s'.db room ↔
      r ∈ s'.db.rows ∧ ∃ sn, selectSnap s'.db (s'.db.cur room) = some sn ∧ r.nid ∈ sn.nids := by
    intro r
    unfold currentRows
    cases selectSnap s'.db (s'.db.cur room) with
    | none => simp
    | some sn => simp
  rcases hor with ⟨he, _, hf⟩ | ⟨c, _, _, hf⟩
  · rw [hf]
    refine ⟨fun h => (by cases h), fun ⟨r, _, _, hx⟩ => ?_⟩
    have := (hiff r.ev.id).2 hx
    rw [he] at this; simp at this
  · rw [hf, List.any_eq_true]
    constructor
    · rintro ⟨r, hr, hd⟩
      obtain ⟨h1, h2⟩ := (hcur r).1 hr
      exact ⟨r, h1, h2, (hiff _).1 (by simpa using hd)⟩
    · rintro ⟨r, hr, hs, hd⟩; exact ⟨r, (hcur r).2 ⟨hr, hs⟩, by simpa using (hiff _).2 hd⟩

/-! ## No errors -/

/-- An event id belongs to one event of one room. -/
def Named (evOf : String → Ev) (roomOf : String → String) (o : Op J) : Prop :=
  ∀ x ∈ o.items, x.1 = evOf x.1.id ∧ roomOf x.1.id = o.room

structure NInv (evOf : String → Ev) (roomOf : String → String) (db : DB) : Prop where
  named : ∀ r ∈ db.rows, r.ev = evOf r.ev.id ∧ r.room = roomOf r.ev.id
  create : ∀ room, db.cur room ≠ 0 → ∃ r ∈ db.rows, r.room = room ∧ isCreate r.ev

theorem insert_room {db : DB} (room : String) (st : Bool) (skip : Nat) (evs : List (Ev × Bool)) :
    ∀ r ∈ (insert db room st skip evs).2, r.room = room := by
  obtain ⟨new, h1, h2, h3, h4, h5, h6, h7, h8, h9⟩ := insertLoop_spec room st evs db.rows (db.seq + skip)
  have hnew : (insert db room st skip evs).2 = new := by simp [Store.insert, h1]
  rw [hnew]
  exact fun r hr => (h3 r hr).2.2.1

theorem acc_cur {db db' : DB} (hI : TI db) {room : String} {skip : Nat} {limited : Bool} {timeline : List (Option Ev)} {post : List Row}
    (h : Store.accumulate db room skip limited timeline = some (db', post)) :
    (∀ r, r ≠ room → db'.cur r = db.cur r) ∧
    (post ≠ [] ∨ db'.cur room ≠ db.cur room → db.cur room ≠ 0 ∨ ∃ e ∈ timeline.filterMap id, isCreate e ∧ ∃ r ∈ db'.rows, r.ev.id = e.id) := by
  constructor
  · intro r hr
    unfold Store.accumulate at h
    dsimp only at h
    split at h
    · simp only [Option.some.injEq, Prod.mk.injEq] at h; rw [h.1]
    · split at h
      · simp only [Option.some.injEq, Prod.mk.injEq] at h; rw [h.1]
      · split at h
        · simp only [Option.some.injEq, Prod.mk.injEq] at h; rw [← h.1]; rfl
        · split at h
          · cases h
          · simp only [Option.some.injEq, Prod.mk.injEq] at h; rw [← h.1]; exact if_neg hr
  · intro hne
    by_cases h0 : db.cur room = 0
    · right
      rcases acc_rows h with ⟨h1, h2, _⟩ | ⟨tagged, ht, hr, _, _⟩
      · rw [h1, h2] at hne; simp at hne
      · have hf : ∃ e es, filterNew db (dedup [] timeline) = e :: es ∧ (isCreate e) := by
          unfold Store.accumulate at h
          dsimp only at h
          split at h
          · simp only [Option.some.injEq, Prod.mk.injEq] at h; rw [h.1, h.2] at hne; simp at hne
          · rename_i first rest hfn
            split at h
            · simp only [Option.some.injEq, Prod.mk.injEq] at h; rw [h.1, h.2] at hne; simp at hne
            · rename_i hg
              refine ⟨first, rest, hfn, ?_⟩
              by_cases hc : isCreate first
              · exact hc
              · exact absurd ⟨h0, hc⟩ hg
        obtain ⟨e, es, hfe, hc⟩ := hf
        have hem : e ∈ filterNew db (dedup [] timeline) := by rw [hfe]; simp
        refine ⟨e, ((filterNew_sublist db _).trans (dedup_sublist timeline [])).subset hem, hc, ?_⟩
        rw [← ht] at hem
        obtain ⟨x, hx, hxe⟩ := List.mem_map.1 hem
        obtain ⟨_, _, _, _, h5, _⟩ := insert_table hI room false skip tagged
        obtain ⟨r, hrm, hri⟩ := h5 x hx
        have : r.core ∈ db'.rows.map Row.core := by rw [hr]; exact List.mem_map_of_mem hrm
        obtain ⟨r', hr', he⟩ := List.mem_map.1 this
        exact ⟨r', hr', by rw [(core_eq he).2.2.1, hri, hxe]⟩
    · exact Or.inl h0

theorem acc_row_room {db db' : DB} (hI : TI db) {room : String} {skip : Nat} {limited : Bool} {timeline : List (Option Ev)} {post : List Row}
    (h : Store.accumulate db room skip limited timeline = some (db', post)) :
    ∀ r ∈ db'.rows, (∃ r' ∈ db.rows, r'.ev = r.ev ∧ r'.room = r.room) ∨ (r.room = room ∧ r.ev ∈ timeline.filterMap id) := by
  intro r hr
  rcases acc_rows h with ⟨h1, _, _⟩ | ⟨tagged, ht, hro, _, _⟩
  · rw [h1] at hr; exact Or.inl ⟨r, hr, rfl, rfl⟩
  · have : r.core ∈ (Store.insert db room false skip tagged).1.rows.map Row.core := by rw [← hro]; exact List.mem_map_of_mem hr
    obtain ⟨r', hr', he⟩ := List.mem_map.1 this
    obtain ⟨_, h2, _, h4, _, _⟩ := insert_table hI room false skip tagged
    rw [h2] at hr'
    rcases List.mem_append.1 hr' with hr' | hr'
    · exact Or.inl ⟨r', hr', (core_eq he).2.2.1, (core_eq he).2.1⟩
    · right
      refine ⟨by rw [← (core_eq he).2.1]; exact insert_room room false skip tagged r' hr', ?_⟩
      rw [ht] at h4
      have := h4.subset (List.mem_map_of_mem (f := fun r : Row => r.ev) hr')
      rw [← (core_eq he).2.2.1]
      exact ((filterNew_sublist db _).trans (dedup_sublist timeline [])).subset this

theorem NInv.acc {evOf : String → Ev} {roomOf : String → String} {db db' : DB} (hI : TI db) (hN : NInv evOf roomOf db) {room : String} {skip : Nat}
    {limited : Bool} {timeline : List (Option Ev)} {post : List Row} (h : Store.accumulate db room skip limited timeline = some (db', post))
    (hn : ∀ e ∈ timeline.filterMap id, e = evOf e.id ∧ roomOf e.id = room) :
    NInv evOf roomOf db' ∧ (post ≠ [] → ∃ r ∈ db'.rows, r.room = room ∧ isCreate r.ev) := by
  have hnamed : ∀ r ∈ db'.rows, r.ev = evOf r.ev.id ∧ r.room = roomOf r.ev.id := by
    intro r hr
    rcases acc_row_room hI h r hr with ⟨r', hr', he, hro⟩ | ⟨hro, he⟩
    · rw [← he, ← hro]; exact hN.named r' hr'
    · rw [hro]; exact ⟨(hn _ he).1, (hn _ he).2.symm⟩
  obtain ⟨hc1, hc2⟩ := acc_cur hI h
  have hold : ∀ r ∈ db.rows, ∃ r' ∈ db'.rows, r'.ev = r.ev ∧ r'.room = r.room := (post_spec hI h).2.2
  have key : post ≠ [] ∨ db'.cur room ≠ db.cur room → ∃ r ∈ db'.rows, r.room = room ∧ isCreate r.ev := by
    intro hne
    rcases hc2 hne with h0 | ⟨e, he, hce, r, hr, hri⟩
    · obtain ⟨r, hr, h1, h2⟩ := hN.create room h0
      obtain ⟨r', hr', he, hro⟩ := hold r hr
      exact ⟨r', hr', by rw [hro, h1], by rw [he]; exact h2⟩
    · obtain ⟨h1, h2⟩ := hnamed r hr
      rw [hri] at h1 h2
      exact ⟨r, hr, by rw [h2, (hn e he).2], by rw [h1, ← (hn e he).1]; exact hce⟩
  refine ⟨⟨hnamed, fun r0 hr0 => ?_⟩, fun hp => key (Or.inl hp)⟩
  by_cases hrr : r0 = room ∧ db'.cur room ≠ db.cur room
  · rw [hrr.1]; exact key (Or.inr hrr.2)
  · have : db.cur r0 ≠ 0 := by
      by_cases h0 : r0 = room
      · subst h0
        by_cases he : db'.cur r0 = db.cur r0
        · rw [← he]; exact hr0
        · exact absurd ⟨rfl, he⟩ hrr
      · rw [← hc1 r0 h0]; exact hr0
    obtain ⟨r, hr, h1, h2⟩ := hN.create r0 this
    obtain ⟨r', hr', he, hro⟩ := hold r hr
    exact ⟨r', hr', by rw [hro, h1], by rw [he]; exact h2⟩

theorem init_cur {db db' : DB} {room : String} {k : Nat} {b : List (Option Ev)} (h : Store.initialise db room k b = some db') :
    (∀ r, r ≠ room → db'.cur r = db.cur r) ∧ (db'.cur room ≠ db.cur room → db.cur room ≠ 0 ∨ ∃ e ∈ b.filterMap id, isCreate e) := by
  unfold Store.initialise at h
  split at h
  · simp only [Option.some.injEq] at h; rw [h]; simp
  · dsimp only at h
    split at h
    · cases h
    · split at h
      · cases h
      · rename_i hg
        split at h
        · simp only [Option.some.injEq] at h; rw [← h]; simp [Store.insert]
        · split at h
          · cases h
          · simp only [Option.some.injEq] at h
            rw [← h]
            refine ⟨fun r hr => if_neg hr, fun _ => ?_⟩
            by_cases h0 : db.cur room = 0
            · right
              by_cases hc : ((b.filterMap id).any fun e => e.type = "m.room.create" && e.stateKey = "") = true
              · obtain ⟨e, he, hce⟩ := List.any_eq_true.1 hc
                simp only [Bool.and_eq_true, decide_eq_true_eq] at hce
                exact ⟨e, he, hce⟩
              · exact absurd ⟨h0, hc⟩ hg
            · exact Or.inl h0

theorem NInv.init {evOf : String → Ev} {roomOf : String → String} {db db' : DB} (hI : TI db) (hN : NInv evOf roomOf db) {room : String} {k : Nat}
    {b : List (Option Ev)} (h : Store.initialise db room k b = some db') (hn : ∀ e ∈ b.filterMap id, e = evOf e.id ∧ roomOf e.id = room) :
    NInv evOf roomOf db' := by
  have hr := init_rows db room k b
  simp only [Store.step, h, Option.getD_some] at hr
  obtain ⟨hc1, hc2⟩ := init_cur h
  rcases hr with hr | ⟨hr, _⟩
  · rw [hr]; exact hN
  · obtain ⟨_, h2, _, h4, h5, _⟩ := insert_table hI room true k ((b.filterMap id).map fun e => (e, false))
    have hnamed : ∀ r ∈ db'.rows, r.ev = evOf r.ev.id ∧ r.room = roomOf r.ev.id := by
      intro r hrm
      rw [hr, h2] at hrm
      rcases List.mem_append.1 hrm with hrm | hrm
      · exact hN.named r hrm
      · have := h4.subset (List.mem_map_of_mem (f := fun r : Row => r.ev) hrm)
        rw [List.map_map] at this
        have he : r.ev ∈ b.filterMap id := by simpa using this
        rw [insert_room _ _ _ _ r hrm]
        exact ⟨(hn _ he).1, (hn _ he).2.symm⟩
    refine ⟨hnamed, fun r0 hr0 => ?_⟩
    have hold : db.cur r0 ≠ 0 → ∃ r ∈ db'.rows, r.room = r0 ∧ isCreate r.ev := by
      intro h0
      obtain ⟨r, hrm, h⟩ := hN.create r0 h0
      exact ⟨r, by rw [hr, h2]; exact List.mem_append_left _ hrm, h⟩
    by_cases hrr : r0 = room
    · subst hrr
      by_cases hce : db'.cur r0 = db.cur r0
      · exact hold (by rw [← hce]; exact hr0)
      · rcases hc2 hce with h0 | ⟨e, he, hcr⟩
        · exact hold h0
        · obtain ⟨r, hrm, hri⟩ := h5 (e, false) (List.mem_map.2 ⟨e, he, rfl⟩)
          rw [← hr] at hrm
          obtain ⟨h1, h2'⟩ := hnamed r hrm
          dsimp only at hri
          rw [hri] at h1 h2'
          exact ⟨r, hrm, by rw [h2', (hn e he).2], by rw [h1, ← (hn e he).1]; exact hcr⟩
    · exact hold (by rw [← hc1 r0 hrr]; exact hr0)

theorem redactLoop_total {js : Json J} (h1 : ∀ v j, js.redact v j ≠ none) (h2 : ∀ j r, js.because j r ≠ none) (v : String) (rs : List (String × J))
    (rows : List Row) : ∀ json, ∃ json', redactLoop js v rs json rows = some json' := by
  induction rows with
  | nil => intro json; exact ⟨json, rfl⟩
  | cons r rows ih =>
    intro json
    have : ∃ j1, redact1 js v rs json r = some j1 := by
      unfold redact1
      split
      · split
        · rename_i h; exact absurd h (h1 _ _)
        · split
          · rename_i h; exact absurd h (h2 _ _)
          · exact ⟨_, rfl⟩
      · exact ⟨_, rfl⟩
    obtain ⟨j1, hj1⟩ := this
    simp only [redactLoop, hj1]
    exact ih j1

theorem erase_named {evOf : String → Ev} {roomOf : String → String} {t : List (Option (Item J))} {room : String}
    (h : ∀ x ∈ t.filterMap id, x.1 = evOf x.1.id ∧ roomOf x.1.id = room) :
    ∀ e ∈ (t.map fun o => o.map (·.1)).filterMap id, e = evOf e.id ∧ roomOf e.id = room := by
  intro e he
  rw [erase_events] at he
  obtain ⟨x, hx, rfl⟩ := List.mem_map.1 he
  exact h x hx

theorem acc_total {js : Json J} (h1 : ∀ v j, js.redact v j ≠ none) (h2 : ∀ j r, js.because j r ≠ none) {s : State J} (hI : TI s.db) (hF : Full s)
    {evOf : String → Ev} {roomOf : String → String} (hN : NInv evOf roomOf s.db) {room : String} {k : Nat} {l : Bool} {t : List (Option (Item J))}
    (hn : ∀ x ∈ t.filterMap id, x.1 = evOf x.1.id ∧ roomOf x.1.id = room)
    {db' : DB} {post : List Row} (ha : Store.accumulate s.db room k l (t.map fun o => o.map (·.1)) = some (db', post)) :
    ∃ s' flag, accumulate js s room k l t = some (s', post, flag) ∧ s'.db = db' := by
  unfold accumulate
  rw [ha]
  dsimp only
  split
  · exact ⟨_, _, rfl, rfl⟩
  · rename_i hrs
    have hpost : post ≠ [] := by intro h; rw [h] at hrs; exact hrs rfl
    obtain ⟨r, hr, hro, hcr⟩ := (hN.acc hI ha (erase_named hn)).2 hpost
    obtain ⟨hp1, hp2, hp3⟩ := post_spec hI ha
    have hc : ∃ c, selectCreate db' (stored s.json post (t.filterMap id)) room = some c := by
      unfold selectCreate
      cases hf : db'.rows.find? (fun r => decide (r.room = room) && decide (r.ev.type = "m.room.create") && decide (r.ev.stateKey = "")) with
      | none =>
        have := List.find?_eq_none.1 hf r hr
        simp [hro, hcr.1, hcr.2] at this
      | some q =>
        have hq := List.mem_of_find?_eq_some hf
        show ∃ c, stored _ _ _ q.ev.id = some c
        by_cases hm : ∃ r ∈ post, r.ev.id = q.ev.id
        · rw [stored_new hm]
          obtain ⟨r', hr', he'⟩ := hm
          have hrev := (hp1 r' hr').2.1
          rw [erase_events] at hrev
          obtain ⟨y, hy, hye⟩ := List.mem_map.1 hrev
          exact jsonOf_isSome ⟨y, hy, by rw [hye, he']⟩
        · rw [stored_old fun r hr he => hm ⟨r, hr, he⟩]
          rcases hp2 q hq with ⟨r', hr', he', _⟩ | ⟨r', hr', he'⟩
          · exact hF _ ⟨r', hr', by rw [he']⟩
          · exact absurd ⟨r', hr', by rw [he']⟩ hm
    obtain ⟨c, hc⟩ := hc
    rw [hc]
    dsimp only
    obtain ⟨j', hj'⟩ := redactLoop_total h1 h2 (versionOf js c) (redactions js (stored s.json post (t.filterMap id)) post)
      (db'.rows.filter fun r => decide (r.ev.id ∈ (redactions js (stored s.json post (t.filterMap id)) post).map (·.1)))
      (stored s.json post (t.filterMap id))
    have hj'' : redact js (versionOf js c) db' (redactions js (stored s.json post (t.filterMap id)) post)
      (stored s.json post (t.filterMap id)) = some j' := hj'
    rw [hj'']
    exact ⟨_, _, rfl, rfl⟩

/-- The tables other than the JSON are those of the store without redactions. -/
theorem run_db {js : Json J} (h1 : ∀ v j, js.redact v j ≠ none) (h2 : ∀ j r, js.because j r ≠ none) {evOf : String → Ev}
    {roomOf : String → String} (ops : List (Op J)) (hn : ∀ o ∈ ops, Named evOf roomOf o) :
    (run js ops).db = Store.run (ops.map Op.erase) ∧ NInv evOf roomOf (run js ops).db := by
  induction ops using Verif.Util.snocRec with
  | nil => exact ⟨rfl, by simp [run], by simp [run]⟩
  | append_singleton l o ih =>
    obtain ⟨ih1, ih2⟩ := ih fun o ho => hn o (List.mem_append_left _ ho)
    have hno := hn o (by simp)
    have hI := run_TI js l
    have hF := run_full js l
    have hst : (step js (run js l) o).db = Store.step (run js l).db o.erase ∧ NInv evOf roomOf (step js (run js l) o).db := by
      generalize run js l = s at ih1 ih2 hI hF
      cases o with
      | init room k b =>
        simp only [step, initialise, Op.erase, Store.step]
        cases hi : Store.initialise s.db room k (b.map fun o => o.map (·.1)) with
        | none => exact ⟨rfl, ih2⟩
        | some db' => exact ⟨rfl, ih2.init hI hi (erase_named hno)⟩
      | acc room k l t =>
        simp only [step, Op.erase, Store.step]
        cases hi : Store.accumulate s.db room k l (t.map fun o => o.map (·.1)) with
        | none => simp only [accumulate, hi]; exact ⟨rfl, ih2⟩
        | some p =>
          obtain ⟨db', post⟩ := p
          obtain ⟨s', flag, ha, hd⟩ := acc_total (room := room) h1 h2 hI hF ih2 hno hi
          rw [ha]
          simp only [Option.map_some, Option.getD_some]
          rw [hd]
          exact ⟨rfl, (ih2.acc hI hi (erase_named hno)).1⟩
    rw [run_snoc]
    refine ⟨?_, hst.2⟩
    rw [hst.1, ih1, List.map_append]
    unfold Store.run; rw [List.foldl_append]; rfl

/-- A timeline is never refused because of its redactions: the create event which gives the algorithm is there whenever an event of
the room is accepted. -/
theorem C76_no_error (js : Json J) (h1 : ∀ v j, js.redact v j ≠ none) (h2 : ∀ j r, js.because j r ≠ none) (evOf : String → Ev)
    (roomOf : String → String) (ops : List (Op J)) (hn : ∀ o ∈ ops, Named evOf roomOf o) (hok : ∀ o ∈ ops, OkOp o.erase) (room : String) (k : Nat)
    (l : Bool) (t : List (Option (Item J))) (hnt : Named evOf roomOf (.acc room k l t)) (hot : OkOp (Op.acc room k l t).erase) :
    accumulate js (run js ops) room k l t ≠ none := by
  obtain ⟨hd, hN⟩ := run_db h1 h2 ops hn
  have := C40_no_error (ops.map Op.erase) (by intro o ho; obtain ⟨o', ho', rfl⟩ := List.mem_map.1 ho; exact hok o' ho') room k l
    (t.map fun (o : Option (Item J)) => o.map fun x : Item J => x.1) hot
  rw [← hd] at this
  obtain ⟨p, hp⟩ := Option.ne_none_iff_exists'.1 this
  obtain ⟨s', flag, ha, _⟩ := acc_total h1 h2 (run_TI js ops) (run_full js ops) hN (room := room) hnt (db' := p.1) (post := p.2) hp
  rw [ha]; simp

/-! ## Examples and violations -/

structure Doc where
  body : String := ""
  redacts : String := ""
  version : String := ""
  because : String := ""
deriving DecidableEq, Repr

/-- Redacting drops the body; one body cannot be redacted. -/
def exJs : Json Doc where
  redacts := (·.redacts)
  version := (·.version)
  knows := fun v => decide (v ∈ ["1", "10", "11"])
  redact := fun v d => if d.body = "broken" then none else some { d with body := "", version := v }
  because := fun d r => some { d with because := r.body }

def exC : Item Doc := (exCreate, { version := "10" })
def exN : Item Doc := (exName "$n", { body := "rude" })
def exM (i : String) (b : String) : Item Doc := (exMsg i, { body := b })
def exR (i target why : String) : Item Doc := ({ id := i, type := "m.room.redaction" }, { body := why, redacts := target })

def exOps : List (Op Doc) := [.init "!r" 0 [some exC, some exN], .acc "!r" 0 false [some (exM "$1" "hello"), some (exM "$2" "kept")]]

/-- Non-vacuity for `C76_redacted_partial`, `C76_untouched`, `C76_permanent` and `C76_flag`: two redactions of a message, one of the
room's name. -/
example : ((accumulate exJs (run exJs exOps) "!r" 0 false
      [some (exR "$r1" "$1" "spam"), some (exM "$3" "more"), some (exR "$r2" "$1" "again"), some (exR "$r3" "$n" "rude")]).map
        fun p => (p.2.2, p.1.json "$1", p.1.json "$n", p.1.json "$2")) =
      some (true, some { version := "10", because := "again" }, some { version := "10", because := "rude" }, some { body := "kept" }) := by
  decide +kernel

/-- Non-vacuity for `RedactedForm`: the body is gone. -/
example : RedactedForm exJs (fun d => d.body = "") := by
  intro v j j' r j'' h1 h2
  simp only [exJs] at h1 h2
  split at h1
  · cases h1
  · simp only [Option.some.injEq] at h1 h2
    rw [← h2, ← h1]

/-- Non-vacuity for `C76_no_error`. -/
example : ∃ evOf roomOf, (∀ o ∈ exOps, Named evOf roomOf o) ∧ (∀ o ∈ exOps, OkOp o.erase) := by
  refine ⟨fun i => if i = "$c" then exCreate else if i = "$n" then exName i else exMsg i, fun _ => "!r", fun o ho x hx => ?_, fun o ho => ?_⟩
  · rcases List.mem_cons.1 ho with rfl | ho
    · have : x = exC ∨ x = exN := by simpa [Op.items] using hx
      rcases this with rfl | rfl <;> exact ⟨by decide +kernel, rfl⟩
    · rcases List.mem_cons.1 ho with rfl | ho
      · have : x = exM "$1" "hello" ∨ x = exM "$2" "kept" := by simpa [Op.items] using hx
        rcases this with rfl | rfl <;> exact ⟨by decide +kernel, rfl⟩
      · simp at ho
  · rcases List.mem_cons.1 ho with rfl | ho
    · simp only [Op.erase, OkOp]; exact ⟨by decide +kernel, by unfold Clean; decide +kernel⟩
    · rcases List.mem_cons.1 ho with rfl | ho
      · simp only [Op.erase, OkOp]; unfold Clean; decide +kernel
      · simp at ho

/-- **C76 fails when the event comes after its redaction**: it is stored, and shown, as it was. -/
theorem C76_violated_order :
    (run exJs [.init "!r" 0 [some exC], .acc "!r" 0 false [some (exR "$r1" "$1" "spam")], .acc "!r" 0 true [some (exM "$1" "hello")]]).json "$1" =
      some { body := "hello" } := by decide +kernel

/-- **C76 fails for redactions naming an event of another room**: a redaction in one room, whatever power its sender has in the other, blanks
an event of the other. -/
theorem C76_violated_room :
    ((run exJs (exOps ++ [.init "!evil" 0 [some ({ exCreate with id := "$e" }, { version := "10" })],
      .acc "!evil" 0 false [some (exR "$r1" "$1" "haha")]])).json "$1") = some { version := "10", because := "haha" } ∧
    ∀ r ∈ (run exJs (exOps ++ [.init "!evil" 0 [some ({ exCreate with id := "$e" }, { version := "10" })],
      .acc "!evil" 0 false [some (exR "$r1" "$1" "haha")]])).db.rows, r.ev.id = "$1" → r.room = "!r" := by decide +kernel

/-- **C76_no_error needs redacting to succeed**: a redaction of an event whose JSON cannot be redacted makes the whole timeline fail, and
the events delivered with it are not stored. -/
theorem C76_violated_broken :
    accumulate exJs (run exJs [.init "!r" 0 [some exC], .acc "!r" 0 false [some (exM "$1" "broken")]]) "!r" 0 false
      [some (exM "$2" "hello"), some (exR "$r1" "$1" "spam")] = none := by decide +kernel

end Verif.Redact
