import Verif.Spaces
/-!
# C58: space membership follows the last relevant event

The specification is about the whole history of events: a relation is there exactly if the last event about it
has a `via` list.
-/
namespace Verif.Spaces

open Verif

/-- The event is about this parent, child and kind of relation. -/
def About (e : Ev) (tr : Triple) : Prop :=
  (e.type = "m.space.child" ∧ e.room = tr.1 ∧ e.stateKey = some tr.2.1 ∧ tr.2.2 = 2) ∨
  (e.type = "m.space.parent" ∧ e.stateKey = some tr.1 ∧ e.room = tr.2.1 ∧ tr.2.2 = 1)

instance (e : Ev) (tr : Triple) : Decidable (About e tr) := inferInstanceAs (Decidable (_ ∨ _))

/-- What is stored of an event: ordering and suggestion for children, nothing for parents. -/
def stored (e : Ev) : String × Bool := if e.type = "m.space.child" then (e.ordering, e.suggested) else ("", false)

/-- The last event about a relation. -/
def lastAbout (tr : Triple) (evs : List Ev) : Option Ev := evs.reverse.find? fun e => decide (About e tr)

theorem lastAbout_snoc (tr : Triple) (l : List Ev) (e : Ev) :
    lastAbout tr (l ++ [e]) = if About e tr then some e else lastAbout tr l := by
  simp only [lastAbout, List.reverse_append, List.reverse_cons, List.reverse_nil, List.nil_append, List.singleton_append, List.find?_cons]
  by_cases h : About e tr <;> simp [h]

theorem lastAbout_append (tr : Triple) (a b : List Ev) : lastAbout tr (a ++ b) = (lastAbout tr b).or (lastAbout tr a) := by
  simp only [lastAbout, List.reverse_append, List.find?_append]

theorem lastAbout_iff (tr : Triple) (l : List Ev) (e : Ev) :
    lastAbout tr l = some e ↔ ∃ a b, l = a ++ e :: b ∧ About e tr ∧ ∀ x ∈ b, ¬ About x tr := by
  induction l using Verif.Util.snocRec with
  | nil => simp [lastAbout]
  | append_singleton l x ih =>
    rw [lastAbout_snoc]
    by_cases h : About x tr
    · rw [if_pos h]
      constructor
      · rintro ⟨⟩; exact ⟨l, [], rfl, h, by simp⟩
      · rintro ⟨a, b, he, h1, h2⟩
        rcases List.eq_nil_or_concat b with rfl | ⟨b', y, rfl⟩
        · obtain ⟨_, h3⟩ := List.append_inj' he rfl
          cases h3; rfl
        · rw [List.concat_eq_append] at he h2
          obtain ⟨_, h3⟩ := List.append_inj' (s₁ := l) (s₂ := a ++ e :: b') (t₁ := [x]) (t₂ := [y]) (by simpa using he) rfl
          cases h3
          exact absurd h (h2 _ (by simp))
    · rw [if_neg h, ih]
      constructor
      · rintro ⟨a, b, rfl, h1, h2⟩
        refine ⟨a, b ++ [x], by simp, h1, ?_⟩
        intro y hy
        rcases List.mem_append.1 hy with hy | hy
        · exact h2 y hy
        · rw [List.mem_singleton.1 hy]; exact h
      · rintro ⟨a, b, he, h1, h2⟩
        rcases List.eq_nil_or_concat b with rfl | ⟨b', y, rfl⟩
        · obtain ⟨_, h3⟩ := List.append_inj' he rfl
          cases h3; exact absurd h1 h
        · rw [List.concat_eq_append] at he h2
          obtain ⟨h3, _⟩ := List.append_inj' (s₁ := l) (s₂ := a ++ e :: b') (t₁ := [x]) (t₂ := [y]) (by simpa using he) rfl
          exact ⟨a, b', h3, h1, fun z hz => h2 z (by simp [hz])⟩

/-- `fromEvent` in terms of the specification. -/
theorem fromEvent_some {e : Ev} {r : Rel} {d : Bool} (h : fromEvent e = some (r, d)) :
    About e r.triple ∧ (r.ordering, r.suggested) = stored e ∧ d = !e.via := by
  unfold fromEvent at h
  cases hk : e.stateKey with
  | none => rw [hk] at h; cases h
  | some k =>
    rw [hk] at h
    simp only at h
    by_cases h1 : e.type = "m.space.child"
    · rw [if_pos h1] at h; cases h
      exact ⟨Or.inl ⟨h1, rfl, hk, rfl⟩, by simp [stored, h1], rfl⟩
    · rw [if_neg h1] at h
      by_cases h2 : e.type = "m.space.parent"
      · rw [if_pos h2] at h; cases h
        exact ⟨Or.inr ⟨h2, hk, rfl, rfl⟩, by simp [stored, h1], rfl⟩
      · rw [if_neg h2] at h; cases h

theorem fromEvent_about {e : Ev} {tr : Triple} (h : About e tr) : ∃ r d, fromEvent e = some (r, d) ∧ r.triple = tr := by
  obtain ⟨p, c, n⟩ := tr
  rcases h with ⟨h1, h2, h3, h4⟩ | ⟨h1, h2, h3, h4⟩
  · simp only at h2 h3 h4
    subst h4; subst h2
    refine ⟨⟨e.room, c, 2, e.ordering, e.suggested⟩, !e.via, ?_, rfl⟩
    unfold fromEvent; rw [h3]; simp [h1]
  · simp only at h2 h3 h4
    subst h4; subst h3
    refine ⟨⟨p, e.room, 1, "", false⟩, !e.via, ?_, rfl⟩
    unfold fromEvent; rw [h2]; simp [h1]

theorem about_unique {e : Ev} {r : Rel} {d : Bool} (h : fromEvent e = some (r, d)) {tr : Triple} (ha : About e tr) : r.triple = tr := by
  obtain ⟨r', d', h', ht⟩ := fromEvent_about ha
  rw [h] at h'; cases h'; exact ht

theorem app_cancel_left {a b c : String} (h : a ++ b = a ++ c) : b = c := by
  have := congrArg String.toList h
  rw [String.toList_append, String.toList_append] at this
  exact String.toList_inj.1 (List.append_cancel_left this)

theorem app_cancel_right {a b c : String} (h : a ++ c = b ++ c) : a = b := by
  have := congrArg String.toList h
  rw [String.toList_append, String.toList_append] at this
  exact String.toList_inj.1 (List.append_cancel_right this)

theorem app_last {a b : String} (h : a ++ "1" = b ++ "2") : False := by
  have := congrArg String.toList h
  rw [String.toList_append, String.toList_append] at this
  have h2 := (List.append_inj' this rfl).2
  exact absurd h2 (by decide)

/-- Relations of events of one room have different keys unless they have the same parent, child and kind. -/
theorem key_inj {e e' : Ev} {r r' : Rel} {d d' : Bool} (hr : e.room = e'.room) (h : fromEvent e = some (r, d))
    (h' : fromEvent e' = some (r', d')) : r.key = r'.key ↔ r.triple = r'.triple := by
  constructor
  · intro hk
    obtain ⟨p, c, n, o, s⟩ := r
    obtain ⟨p', c', n', o', s'⟩ := r'
    have h1 := (fromEvent_some h).1
    have h2 := (fromEvent_some h').1
    simp only [About, Rel.triple] at h1 h2
    simp only [Rel.key] at hk
    simp only [Rel.triple]
    rcases h1 with ⟨_, hp, _, rfl⟩ | ⟨_, _, hp, rfl⟩ <;> rcases h2 with ⟨_, hp', _, rfl⟩ | ⟨_, _, hp', rfl⟩
    · have : p = p' := by rw [← hp, ← hp', hr]
      subst this
      have h1 := app_cancel_right (app_cancel_right hk)
      have h2 := app_cancel_left h1
      rw [h2]
    · exact (app_last (hk.symm : _ ++ "1" = _ ++ "2")).elim
    · exact (app_last (hk : _ ++ "1" = _ ++ "2")).elim
    · have : c = c' := by rw [← hp, ← hp', hr]
      subst this
      have h1 := app_cancel_right (app_cancel_right hk)
      have h2 := app_cancel_right (app_cancel_right h1)
      rw [h2]
  · intro ht
    simp only [Rel.triple, Prod.mk.injEq] at ht
    simp only [Rel.key, ht]

theorem relations_snoc (l : List Ev) (e : Ev) : relations (l ++ [e]) =
    match fromEvent e with | none => relations l | some r => Assoc.set (relations l) r.1.key r := by
  unfold relations; rw [List.foldl_append]; rfl

/-- The map has, for each relation, what the last event about it says. -/
theorem relations_mem (room : String) (evs : List Ev) (hroom : ∀ e ∈ evs, e.room = room) (k : String) (r : Rel) (d : Bool) :
    (k, (r, d)) ∈ relations evs ↔ k = r.key ∧ ∃ e, lastAbout r.triple evs = some e ∧ fromEvent e = some (r, d) := by
  induction evs using Verif.Util.snocRec generalizing k r d with
  | nil => simp [relations, lastAbout]
  | append_singleton l e ih =>
    have ih := ih fun x hx => hroom x (by simp [hx])
    have he := hroom e (by simp)
    rw [relations_snoc, lastAbout_snoc]
    have hlr : ∀ {tr x}, lastAbout tr l = some x → x.room = room := by
      intro tr x hx
      obtain ⟨a, b, rfl, _, _⟩ := (lastAbout_iff _ _ _).1 hx
      exact hroom x (by simp)
    cases hf : fromEvent e with
    | none =>
      have hna : ¬ About e r.triple := fun ha => by
        obtain ⟨_, _, h, _⟩ := fromEvent_about ha; rw [hf] at h; cases h
      rw [if_neg hna]; exact ih k r d
    | some p =>
      obtain ⟨r0, d0⟩ := p
      simp only [Assoc.set, Assoc.del, List.mem_append, List.mem_filter, decide_eq_true_eq, List.mem_singleton, Prod.mk.injEq]
      rw [ih]
      constructor
      · rintro (⟨⟨hk, x, hx, hxf⟩, hne⟩ | ⟨hk, rfl, rfl⟩)
        · refine ⟨hk, x, ?_, hxf⟩
          rw [if_neg, hx]
          intro ha
          have := about_unique hf ha
          exact hne (hk.trans ((key_inj ((hlr hx).trans he.symm) hxf hf).2 this.symm))
        · exact ⟨hk, e, by rw [if_pos (fromEvent_some hf).1], hf⟩
      · rintro ⟨hk, x, hx, hxf⟩
        by_cases ha : About e r.triple
        · rw [if_pos ha] at hx; cases hx
          rw [hf] at hxf; cases hxf
          exact Or.inr ⟨hk, rfl, rfl⟩
        · rw [if_neg ha] at hx
          refine Or.inl ⟨⟨hk, x, hx, hxf⟩, ?_⟩
          intro hke
          have := (key_inj ((hlr hx).trans he.symm) hxf hf).1 (hk.symm.trans hke)
          exact ha (this ▸ (fromEvent_some hf).1)

theorem relations_nodup (evs : List Ev) : ((relations evs).map (·.1)).Nodup := by
  induction evs using Verif.Util.snocRec with
  | nil => exact List.nodup_nil
  | append_singleton l e ih =>
    rw [relations_snoc]
    cases fromEvent e with
    | none => exact ih
    | some p => exact Assoc.nodup_set ih _ _

/-! ## The statements -/

theorem bulkInsert_flatten (cs : List (List Rel)) : ∀ t : Table, (cs.flatten.map Rel.triple).Nodup →
    bulkInsert t cs = some (cs.flatten.foldl (fun t r => Assoc.set t r.triple (r.ordering, r.suggested)) t) := by
  induction cs with
  | nil => intro t _; rfl
  | cons c cs ih =>
    intro t h
    simp only [List.flatten_cons, List.map_append, List.nodup_append] at h
    simp only [bulkInsert, insertChunk, if_pos h.1, Option.bind_some, List.flatten_cons, List.foldl_append]
    exact ih _ h.2.1

theorem get_inserts (rs : List Rel) (tr : Triple) (r0 : Rel) : ∀ t : Table, (∀ r ∈ rs, r.triple = tr → r = r0) →
    Assoc.get (rs.foldl (fun t r => Assoc.set t r.triple (r.ordering, r.suggested)) t) tr =
      if tr ∈ rs.map Rel.triple then some (r0.ordering, r0.suggested) else Assoc.get t tr := by
  induction rs with
  | nil => intro t _; simp
  | cons r rs ih =>
    intro t h
    rw [List.foldl_cons, ih _ (fun x hx => h x (by simp [hx])), Assoc.get_set]
    by_cases h1 : tr ∈ rs.map Rel.triple
    · simp [h1]
    · by_cases h2 : tr = r.triple
      · have := h r (by simp) h2.symm
        subst this
        simp [h1, h2]
      · simp [h1, h2]

theorem get_deletes (rs : List Rel) (tr : Triple) : ∀ t : Table,
    Assoc.get (bulkDelete t rs) tr = if tr ∈ rs.map Rel.triple then none else Assoc.get t tr := by
  induction rs with
  | nil => intro t; simp [bulkDelete]
  | cons r rs ih =>
    intro t
    show Assoc.get (bulkDelete (Assoc.del t r.triple) rs) tr = _
    rw [ih, Assoc.get_del]
    by_cases h1 : tr ∈ rs.map Rel.triple
    · simp [h1]
    · by_cases h2 : tr = r.triple <;> simp [h1, h2]

/-- What a batch does, in terms of its last events. -/
theorem handle_spec {t : Table} {room : String} {evs : List Ev} (hroom : ∀ e ∈ evs, e.room = room) {res : Option Table}
    (h : Handle t evs res) : ∃ t', res = some t' ∧ ∀ tr, Assoc.get t' tr =
      match lastAbout tr evs with
      | none => Assoc.get t tr
      | some e => if e.via then some (stored e) else none := by
  obtain ⟨order, hperm, chunks, hch, rfl⟩ := h
  have hmem : ∀ k r d, (k, (r, d)) ∈ order ↔ k = r.key ∧ ∃ e, lastAbout r.triple evs = some e ∧ fromEvent e = some (r, d) :=
    fun k r d => hperm.mem_iff.trans (relations_mem room evs hroom k r d)
  have hnd : (order.map (·.1)).Nodup := (hperm.map _).nodup_iff.2 (relations_nodup evs)
  -- every entry of the map with this triple is the one of the last event
  have huniq : ∀ k r d, (k, (r, d)) ∈ order → ∀ e, lastAbout r.triple evs = some e → fromEvent e = some (r, d) := by
    intro k r d hm e he
    obtain ⟨_, e', he', hf⟩ := (hmem k r d).1 hm
    rw [he] at he'; cases he'; exact hf
  have htr : ((order.filter fun r => !r.2.2).map (·.2.1)).map Rel.triple |>.Nodup := by
    have hp : order.Pairwise fun a b => a.2.1.triple ≠ b.2.1.triple := by
      have h0 : order.Pairwise fun a b => a.1 ≠ b.1 := List.pairwise_map.1 hnd
      refine List.Pairwise.imp_of_mem ?_ h0
      rintro ⟨k, r, d⟩ ⟨k', r', d'⟩ ha hb hne heq
      obtain ⟨hk, e, he, hf⟩ := (hmem k r d).1 ha
      obtain ⟨hk', e', he', hf'⟩ := (hmem k' r' d').1 hb
      have heq : r.triple = r'.triple := heq
      rw [heq] at he; rw [he] at he'; cases he'
      rw [hf] at hf'; cases hf'
      exact hne (hk.trans hk'.symm)
    rw [List.map_map]
    exact List.pairwise_map.2 (List.Pairwise.sublist List.filter_sublist hp)
  rw [bulkInsert_flatten chunks t (by rw [hch]; exact htr)]
  refine ⟨_, rfl, fun tr => ?_⟩
  rw [get_deletes, hch]
  have hadd : ∀ r, r ∈ (order.filter fun r => !r.2.2).map (·.2.1) ↔ ∃ e, lastAbout r.triple evs = some e ∧ fromEvent e = some (r, false) := by
    intro r
    simp only [List.mem_map, List.mem_filter, Bool.not_eq_true']
    constructor
    · rintro ⟨⟨k, r', d⟩, ⟨hm, hd⟩, rfl⟩
      simp only at hd; subst hd
      exact ((hmem _ _ _).1 hm).2
    · intro h; exact ⟨(r.key, (r, false)), ⟨(hmem _ _ _).2 ⟨rfl, h⟩, rfl⟩, rfl⟩
  have hdel : ∀ r, r ∈ (order.filter fun r => r.2.2).map (·.2.1) ↔ ∃ e, lastAbout r.triple evs = some e ∧ fromEvent e = some (r, true) := by
    intro r
    simp only [List.mem_map, List.mem_filter]
    constructor
    · rintro ⟨⟨k, r', d⟩, ⟨hm, hd⟩, rfl⟩
      simp only at hd; subst hd
      exact ((hmem _ _ _).1 hm).2
    · intro h; exact ⟨(r.key, (r, true)), ⟨(hmem _ _ _).2 ⟨rfl, h⟩, rfl⟩, rfl⟩
  have hdelt : tr ∈ ((order.filter fun r => r.2.2).map (·.2.1)).map Rel.triple ↔
      ∃ e r, lastAbout tr evs = some e ∧ fromEvent e = some (r, true) := by
    simp only [List.mem_map (f := Rel.triple), hdel]
    constructor
    · rintro ⟨r, ⟨e, he, hf⟩, rfl⟩; exact ⟨e, r, he, hf⟩
    · rintro ⟨e, r, he, hf⟩
      have := about_unique hf ((lastAbout_iff _ _ _).1 he |>.elim fun a h => h.elim fun b h => h.2.1)
      exact ⟨r, ⟨e, this ▸ he, hf⟩, this⟩
  cases hl : lastAbout tr evs with
  | none =>
    rw [if_neg (fun h => by obtain ⟨e, r, he, _⟩ := hdelt.1 h; rw [hl] at he; cases he)]
    rw [get_inserts _ tr ⟨"", "", 0, "", false⟩ t, if_neg]
    · intro h
      obtain ⟨r, hr, rfl⟩ := List.mem_map.1 h
      obtain ⟨e, he, _⟩ := (hadd r).1 hr
      rw [hl] at he; cases he
    · intro r hr ht
      obtain ⟨e, he, _⟩ := (hadd r).1 hr
      rw [ht, hl] at he; cases he
  | some e =>
    have ha : About e tr := by obtain ⟨a, b, _, h, _⟩ := (lastAbout_iff _ _ _).1 hl; exact h
    obtain ⟨r, d, hf, ht⟩ := fromEvent_about ha
    obtain ⟨_, hs, hd⟩ := fromEvent_some hf
    by_cases hv : e.via = true
    · rw [hv] at hd
      simp only [Bool.not_true] at hd; subst hd
      rw [if_neg (fun h => by obtain ⟨e', r', he', hf'⟩ := hdelt.1 h; rw [hl] at he'; cases he'; rw [hf] at hf'; cases hf')]
      rw [get_inserts _ tr r t, if_pos]
      · simp only [hv, if_true, hs]
      · exact List.mem_map.2 ⟨r, (hadd r).2 ⟨e, ht ▸ hl, hf⟩, ht⟩
      · intro r' hr' ht'
        obtain ⟨e', he', hf'⟩ := (hadd r').1 hr'
        rw [ht', hl] at he'; cases he'
        rw [hf] at hf'; cases hf'; rfl
    · have hv : e.via = false := by simpa using hv
      rw [hv] at hd
      simp only [Bool.not_false] at hd; subst hd
      rw [if_pos (hdelt.2 ⟨e, r, hl, hf⟩)]
      simp [hv]

/-- A call with events of one room does not fail: no statement touches a row twice. -/
theorem C58_no_error (t : Table) (room : String) (evs : List Ev) (hroom : ∀ e ∈ evs, e.room = room) (res : Option Table)
    (h : Handle t evs res) : res ≠ none := by
  obtain ⟨t', rfl, _⟩ := handle_spec hroom h
  simp

theorem run_spec {bs : List (List Ev)} {t : Table} (h : Run bs t) (hroom : ∀ evs ∈ bs, ∃ room, ∀ e ∈ evs, e.room = room) (tr : Triple) :
    Assoc.get t tr = match lastAbout tr bs.flatten with
      | none => none
      | some e => if e.via then some (stored e) else none := by
  induction h with
  | nil => simp [lastAbout, Assoc.get_nil]
  | @step bs t evs t' _ hh ih =>
    obtain ⟨room, hr⟩ := hroom evs (by simp)
    obtain ⟨t'', he, hg⟩ := handle_spec hr hh
    cases he
    rw [hg tr, List.flatten_append, List.flatten_singleton, lastAbout_append]
    cases hl : lastAbout tr evs with
    | none => simp only [Option.none_or]; exact ih fun x hx => hroom x (by simp [hx])
    | some e => simp

/-- **C58.** After any number of calls, each with the events of a room, and for any order of the map entries,
a relation is in the table with this ordering and suggestion exactly if the last event about it had a via list
and this ordering and suggestion. -/
theorem C58_relation {bs : List (List Ev)} {t : Table} (h : Run bs t) (hroom : ∀ evs ∈ bs, ∃ room, ∀ e ∈ evs, e.room = room)
    (tr : Triple) (v : String × Bool) :
    Assoc.get t tr = some v ↔
      ∃ a e b, bs.flatten = a ++ e :: b ∧ About e tr ∧ (∀ x ∈ b, ¬ About x tr) ∧ e.via = true ∧ stored e = v := by
  rw [run_spec h hroom tr]
  cases hl : lastAbout tr bs.flatten with
  | none =>
    simp only [reduceCtorEq, false_iff]
    rintro ⟨a, e, b, he, h1, h2, _⟩
    rw [(lastAbout_iff _ _ _).2 ⟨a, b, he, h1, h2⟩] at hl; cases hl
  | some e =>
    obtain ⟨a, b, he, h1, h2⟩ := (lastAbout_iff _ _ _).1 hl
    constructor
    · intro hv
      by_cases hvia : e.via = true
      · simp only [hvia, if_true, Option.some.injEq] at hv
        exact ⟨a, e, b, he, h1, h2, hvia, hv⟩
      · simp [hvia] at hv
    · rintro ⟨a', e', b', he', h1', h2', hvia, hv⟩
      rw [(lastAbout_iff _ _ _).2 ⟨a', b', he', h1', h2'⟩] at hl; cases hl
      simp [hvia, hv]

theorem nodup_inserts (c : List Rel) : ∀ t : Table, (t.map (·.1)).Nodup →
    ((c.foldl (fun t r => Assoc.set t r.triple (r.ordering, r.suggested)) t).map (·.1)).Nodup := by
  induction c with
  | nil => intro t h; exact h
  | cons r c ih => intro t h; exact ih _ (Assoc.nodup_set h _ _)

theorem nodup_bulkInsert (cs : List (List Rel)) : ∀ t t' : Table, (t.map (·.1)).Nodup → bulkInsert t cs = some t' → (t'.map (·.1)).Nodup := by
  induction cs with
  | nil => intro t t' h hb; cases hb; exact h
  | cons c cs ih =>
    intro t t' h hb
    simp only [bulkInsert, insertChunk] at hb
    split at hb
    · exact ih _ _ (nodup_inserts c t h) hb
    · cases hb

theorem nodup_bulkDelete (l : List Rel) : ∀ t : Table, (t.map (·.1)).Nodup → ((bulkDelete t l).map (·.1)).Nodup := by
  induction l with
  | nil => intro t h; exact h
  | cons r l ih => intro t h; exact ih _ (Assoc.nodup_filter h _)

theorem run_nodup {bs : List (List Ev)} {t : Table} (h : Run bs t) : (t.map (·.1)).Nodup := by
  induction h with
  | nil => exact List.nodup_nil
  | @step bs t evs t' _ hh ih =>
    obtain ⟨order, _, chunks, _, he⟩ := hh
    cases hb : bulkInsert t chunks with
    | none => rw [hb] at he; cases he
    | some t1 =>
      rw [hb] at he; cases he
      exact nodup_bulkDelete _ _ (nodup_bulkInsert _ _ _ ih hb)

/-- **C58.** The children listed for a space are those whose last event says so. -/
theorem C58_children {bs : List (List Ev)} {t : Table} (h : Run bs t) (hroom : ∀ evs ∈ bs, ∃ room, ∀ e ∈ evs, e.room = room)
    (space child : String) :
    (∃ r ∈ children t space, r.child = child ∧ r.relation = 2) ↔
      ∃ a e b, bs.flatten = a ++ e :: b ∧ e.type = "m.space.child" ∧ e.room = space ∧ e.stateKey = some child ∧ e.via = true ∧
        ∀ x ∈ b, ¬ (x.type = "m.space.child" ∧ x.room = space ∧ x.stateKey = some child) := by
  have hab : ∀ x : Ev, About x (space, child, 2) ↔ (x.type = "m.space.child" ∧ x.room = space ∧ x.stateKey = some child) := by
    intro x; simp [About]
  have hget : (∃ r ∈ children t space, r.child = child ∧ r.relation = 2) ↔ ∃ v, Assoc.get t (space, child, 2) = some v := by
    simp only [children, List.mem_map, List.mem_filter, decide_eq_true_eq]
    constructor
    · rintro ⟨r, ⟨⟨⟨p, c, n⟩, v⟩, ⟨hm, hp⟩, rfl⟩, hc, hn⟩
      simp only at hp hc hn
      subst hp; subst hc; subst hn
      exact ⟨v, Assoc.get_of_mem (run_nodup h) hm⟩
    · rintro ⟨v, hv⟩
      exact ⟨_, ⟨((space, child, 2), v), ⟨Assoc.get_mem hv, rfl⟩, rfl⟩, rfl, rfl⟩
  rw [hget]
  constructor
  · rintro ⟨v, hv⟩
    obtain ⟨a, e, b, he, h1, h2, hvia, _⟩ := (C58_relation h hroom _ _).1 hv
    obtain ⟨h3, h4, h5⟩ := (hab e).1 h1
    exact ⟨a, e, b, he, h3, h4, h5, hvia, fun x hx hc => h2 x hx ((hab x).2 hc)⟩
  · rintro ⟨a, e, b, he, h3, h4, h5, hvia, h2⟩
    exact ⟨stored e, (C58_relation h hroom _ _).2
      ⟨a, e, b, he, (hab e).2 ⟨h3, h4, h5⟩, fun x hx hc => h2 x hx ((hab x).1 hc), hvia, rfl⟩⟩

/-! A concrete case: a child is added, removed and added again with an ordering in one batch. -/

def exEvs : List Ev :=
  [⟨"!s", "m.space.child", some "!c", true, "", false⟩, ⟨"!s", "m.space.child", some "!c", false, "", false⟩,
   ⟨"!s", "m.space.child", some "!c", true, "a", true⟩, ⟨"!s", "m.space.child", some "!d", false, "", false⟩]

example : (Handle [] exEvs (some [(("!s", "!c", 2), ("a", true))])) ∧ ∀ e ∈ exEvs, e.room = "!s" := by
  refine ⟨⟨relations exEvs, List.Perm.refl _, [[⟨"!s", "!c", 2, "a", true⟩]], by decide, by decide⟩, by decide⟩

end Verif.Spaces
