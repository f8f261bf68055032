import Verif.Txns
import Verif.Util
/-!
# C80: transaction ids reach the device that sent the event
-/
namespace Verif.Txns

open Verif

/-! ## Specification -/

/-- What upstream says: who sent an event, and the transaction id it gives it on the sync of a device. -/
structure Truth where
  sender : String → String
  tid : String → String → String → Option String

/-- Deliveries as upstream makes them: the transaction id depends on the event and the device, and is given to the sender only. -/
def Honest (tr : Truth) : Op → Prop
  | .deliver user dev _ evs _ => ∀ e ∈ evs, e.sender = tr.sender e.id ∧ e.tid = tr.tid user dev e.id
  | .clean _ => True

/-- A delivery to the device has the event with a transaction id. -/
def Gives (user dev id : String) : Op → Prop
  | .deliver u d _ evs _ => u = user ∧ d = dev ∧ ∃ e ∈ evs, e.id = id ∧ e.tid ≠ none
  | .clean _ => False

/-! ## The tables -/

theorem run_snoc (l : List Op) (o : Op) : run (l ++ [o]) = step (run l) o := by
  unfold run; rw [List.foldl_append]; rfl

theorem txnMap_snoc (l : List Ev) (e : Ev) : txnMap (l ++ [e]) = match e.tid with
    | none => txnMap l
    | some t => if (txnMap l).any (·.1 = e.id) then (txnMap l).map fun p => if p.1 = e.id then (e.id, t) else p else txnMap l ++ [(e.id, t)] := by
  unfold txnMap; rw [List.foldl_append]; rfl

theorem txnMap_keys (evs : List Ev) (id : String) : id ∈ (txnMap evs).map (·.1) ↔ ∃ e ∈ evs, e.id = id ∧ e.tid ≠ none := by
  induction evs using Verif.Util.snocRec with
  | nil => simp [txnMap]
  | append_singleton l a ih =>
    rw [txnMap_snoc]
    have hsplit : (∃ e ∈ l ++ [a], e.id = id ∧ e.tid ≠ none) ↔ (∃ e ∈ l, e.id = id ∧ e.tid ≠ none) ∨ (a.id = id ∧ a.tid ≠ none) := by
      constructor
      · rintro ⟨e, he, h⟩
        rcases List.mem_append.1 he with he | he
        · exact Or.inl ⟨e, he, h⟩
        · rw [List.mem_singleton.1 he] at h; exact Or.inr h
      · rintro (⟨e, he, h⟩ | h)
        · exact ⟨e, List.mem_append_left _ he, h⟩
        · exact ⟨a, by simp, h⟩
    rw [hsplit, ← ih]
    cases ht : a.tid with
    | none => simp
    | some t =>
      dsimp only
      split
      · rename_i hany
        have hk : ((txnMap l).map fun p => if p.1 = a.id then (a.id, t) else p).map (·.1) = (txnMap l).map (·.1) := by
          rw [List.map_map]
          apply List.map_congr_left
          intro p _
          simp only [Function.comp]
          split
          · rename_i h; exact h.symm
          · rfl
        rw [hk]
        constructor
        · exact Or.inl
        · rintro (h | ⟨h, _⟩)
          · exact h
          · obtain ⟨p, hp, hpe⟩ := List.any_eq_true.1 hany
            exact List.mem_map.2 ⟨p, hp, by rw [← h]; simpa using hpe⟩
      · rw [List.map_append, List.mem_append]
        simp only [List.map_cons, List.map_nil, List.mem_singleton]
        constructor
        · rintro (h | h)
          · exact Or.inl h
          · exact Or.inr ⟨h.symm, by simp⟩
        · rintro (h | ⟨h, _⟩)
          · exact Or.inl h
          · exact Or.inr h.symm

theorem txnMap_vals (evs : List Ev) : ∀ p ∈ txnMap evs, ∃ e ∈ evs, e.id = p.1 ∧ e.tid = some p.2 := by
  induction evs using Verif.Util.snocRec with
  | nil => simp [txnMap]
  | append_singleton l a ih =>
    intro p hp
    rw [txnMap_snoc] at hp
    have hl : p ∈ txnMap l → ∃ e ∈ l ++ [a], e.id = p.1 ∧ e.tid = some p.2 := by
      intro h
      obtain ⟨e, he, h'⟩ := ih p h
      exact ⟨e, List.mem_append_left _ he, h'⟩
    cases ht : a.tid with
    | none => rw [ht] at hp; exact hl hp
    | some t =>
      rw [ht] at hp
      dsimp only at hp
      split at hp
      · obtain ⟨q, hq, hqp⟩ := List.mem_map.1 hp
        split at hqp
        · rw [← hqp]; exact ⟨a, by simp, rfl, ht⟩
        · rw [← hqp] at hl ⊢; exact hl hq
      · rcases List.mem_append.1 hp with hp | hp
        · exact hl hp
        · rw [List.mem_singleton.1 hp]; exact ⟨a, by simp, rfl, ht⟩

theorem insert_mem {txns : List Row} {user dev : String} {ts : Nat} {m : List (String × String)} {r : Row} (h : r ∈ insert txns user dev ts m) :
    r ∈ txns ∨ (r.user = user ∧ r.dev = dev ∧ r.ts = ts ∧ (r.event, r.txn) ∈ m) := by
  unfold insert at h
  split at h
  · exact Or.inl h
  · rcases List.mem_append.1 h with h | h
    · exact Or.inl h
    · obtain ⟨p, hp, rfl⟩ := List.mem_map.1 h
      exact Or.inr ⟨rfl, rfl, rfl, hp⟩

theorem insert_sub {txns : List Row} {user dev : String} {ts : Nat} {m : List (String × String)} {r : Row} (h : r ∈ txns) :
    r ∈ insert txns user dev ts m := by
  unfold insert
  split
  · exact h
  · exact List.mem_append_left _ h

/-- Every row was delivered. -/
theorem rows_given (ops : List Op) : ∀ r ∈ (run ops).txns, ∃ o ∈ ops, Gives r.user r.dev r.event o := by
  induction ops using Verif.Util.snocRec with
  | nil => simp [run]
  | append_singleton l o ih =>
    intro r hr
    rw [run_snoc] at hr
    have hl : r ∈ (run l).txns → ∃ o' ∈ l ++ [o], Gives r.user r.dev r.event o' := by
      intro h
      obtain ⟨o', ho', h'⟩ := ih r h
      exact ⟨o', List.mem_append_left _ ho', h'⟩
    cases o with
    | clean b => exact hl (List.mem_filter.1 hr).1
    | deliver u d ts evs keep =>
      rcases insert_mem hr with hr | ⟨h1, h2, _, h4⟩
      · exact hl hr
      · obtain ⟨e, he, h5, h6⟩ := txnMap_vals evs _ h4
        exact ⟨Op.deliver u d ts evs keep, by simp, h1.symm, h2.symm, e, he, h5, by rw [h6]; simp⟩

/-- Every row is true. -/
theorem rows_true (tr : Truth) (ops : List Op) (hh : ∀ o ∈ ops, Honest tr o) : ∀ r ∈ (run ops).txns, tr.tid r.user r.dev r.event = some r.txn := by
  induction ops using Verif.Util.snocRec with
  | nil => simp [run]
  | append_singleton l o ih =>
    intro r hr
    rw [run_snoc] at hr
    have hl := ih fun o ho => hh o (List.mem_append_left _ ho)
    have ho := hh o (by simp)
    cases o with
    | clean b => exact hl r (List.mem_filter.1 hr).1
    | deliver u d ts evs keep =>
      rcases insert_mem hr with hr | ⟨h1, h2, _, h4⟩
      · exact hl r hr
      · obtain ⟨e, he, h5, h6⟩ := txnMap_vals evs _ h4
        have := (ho e he).2
        rw [h1, h2, ← h6, this]
        dsimp only at h5
        rw [h5]

theorem storeEvents_find (new : List Ev) : ∀ (events : List Ev) (id : String), (storeEvents events new).find? (·.id = id) =
    (events.find? (·.id = id)).or (new.find? (·.id = id)) := by
  induction new with
  | nil => intro events id; simp [storeEvents]
  | cons e es ih =>
    intro events id
    simp only [storeEvents]
    rw [ih]
    split
    · rename_i hany
      by_cases he : e.id = id
      · obtain ⟨q, hq, hqe⟩ := List.any_eq_true.1 hany
        cases hf : events.find? (fun x => decide (x.id = id)) with
        | none =>
          have := List.find?_eq_none.1 hf q hq
          simp only [decide_eq_true_eq] at hqe
          rw [he] at hqe
          simp [hqe] at this
        | some x => simp
      · rw [List.find?_cons]; simp [he]
    · rw [List.find?_append, List.find?_cons]
      by_cases he : e.id = id <;> simp [he]

/-- Stored events keep the form they were first stored with. -/
theorem step_find (s : State) (o : Op) (id : String) (e : Ev) (h : s.events.find? (·.id = id) = some e) :
    (step s o).events.find? (·.id = id) = some e := by
  cases o with
  | clean b => exact h
  | deliver u d ts evs keep => simp only [step]; rw [storeEvents_find, h]; rfl

theorem run_find (ops more : List Op) (id : String) (e : Ev) (h : (run ops).events.find? (·.id = id) = some e) :
    (run (ops ++ more)).events.find? (·.id = id) = some e := by
  induction more using Verif.Util.snocRec with
  | nil => rw [List.append_nil]; exact h
  | append_singleton l o ih => rw [← List.append_assoc, run_snoc]; exact step_find _ o id e ih

theorem stored_honest (tr : Truth) (ops : List Op) (hh : ∀ o ∈ ops, Honest tr o) (id : String) (e : Ev) (h : (run ops).events.find? (·.id = id) = some e) :
    e.id = id ∧ e.sender = tr.sender id ∧ ∃ u d ts evs keep, Op.deliver u d ts evs keep ∈ ops ∧ e ∈ evs ∧ e.tid = tr.tid u d id := by
  induction ops using Verif.Util.snocRec with
  | nil => simp [run] at h
  | append_singleton l o ih =>
    have hl := ih fun o ho => hh o (List.mem_append_left _ ho)
    have ho := hh o (by simp)
    cases hf : (run l).events.find? (fun x => decide (x.id = id)) with
    | some e' =>
      have := run_find l [o] id e' hf
      rw [this] at h
      simp only [Option.some.injEq] at h
      subst h
      obtain ⟨h1, h2, u, d, ts, evs, keep, hm, hr⟩ := hl hf
      exact ⟨h1, h2, u, d, ts, evs, keep, List.mem_append_left _ hm, hr⟩
    | none =>
      rw [run_snoc] at h
      cases o with
      | clean b => simp only [step] at h; rw [hf] at h; cases h
      | deliver u d ts evs keep =>
        simp only [step] at h
        rw [storeEvents_find, hf] at h
        simp only [Option.none_or] at h
        have hm := (List.mem_filter.1 (List.mem_of_find?_eq_some h)).1
        have hi : e.id = id := by simpa using List.find?_some h
        refine ⟨hi, ?_, u, d, ts, evs, keep, by simp, hm, ?_⟩
        · rw [← hi]; exact (ho e hm).1
        · rw [← hi]; exact (ho e hm).2

theorem select_some {s : State} {user dev id t : String} (h : select s user dev id = some t) :
    ∃ r ∈ s.txns, r.user = user ∧ r.dev = dev ∧ r.event = id ∧ r.txn = t := by
  obtain ⟨r, hr, ht⟩ := Option.map_eq_some_iff.1 h
  have := List.find?_some hr
  simp only [Bool.and_eq_true, decide_eq_true_eq] at this
  exact ⟨r, List.mem_of_find?_eq_some hr, this.1.1, this.1.2, this.2, ht⟩

theorem select_of_mem {s : State} {r : Row} (h : r ∈ s.txns) : ∃ t, select s r.user r.dev r.event = some t := by
  unfold select
  cases hf : s.txns.find? (fun q => decide (q.user = r.user) && decide (q.dev = r.dev) && decide (q.event = r.event)) with
  | none => have := List.find?_eq_none.1 hf r h; simp at this
  | some q => exact ⟨q.txn, rfl⟩

/-! ## C80 -/

/-- The device that sent an event is sent the event with its transaction id, if the poller got it in a timeline none of whose
transaction ids had been given to the device before, and they have not been cleaned since.  Missing: with one transaction id known
already all those of the timeline are lost (`C80_violated_batch`). -/
theorem C80_own_partial (tr : Truth) (hs : ∀ u d i t, tr.tid u d i = some t → tr.sender i = u) (pre post : List Op) (user dev : String) (ts : Nat)
    (evs : List Ev) (keep : String → Bool) (hh : ∀ o ∈ pre ++ .deliver user dev ts evs keep :: post, Honest tr o) (id t : String)
    (hi : ∃ e ∈ evs, e.id = id) (ht : tr.tid user dev id = some t)
    (hnew : ∀ e ∈ evs, e.tid ≠ none → ∀ o ∈ pre, ¬ Gives user dev e.id o)
    (hclean : ∀ b, Op.clean b ∈ post → b < ts) (hst : sent (run (pre ++ .deliver user dev ts evs keep :: post)) user dev id ≠ none) :
    sent (run (pre ++ .deliver user dev ts evs keep :: post)) user dev id = some (some t) := by
  -- the row
  have hrow : ∃ r ∈ (run (pre ++ .deliver user dev ts evs keep :: post)).txns, r.user = user ∧ r.dev = dev ∧ r.event = id ∧ r.ts = ts := by
    have hh' := hh (.deliver user dev ts evs keep) (by simp)
    have hsplit : pre ++ .deliver user dev ts evs keep :: post = (pre ++ [.deliver user dev ts evs keep]) ++ post := by simp
    rw [hsplit]
    clear hst hh
    induction post using Verif.Util.snocRec with
    | nil =>
      rw [List.append_nil, run_snoc]
      simp only [step]
      obtain ⟨e, he, hei⟩ := hi
      have hte : e.tid = some t := by rw [(hh' e he).2, hei, ht]
      have hk := (txnMap_keys evs id).2 ⟨e, he, hei, by rw [hte]; simp⟩
      obtain ⟨p, hp, hpi⟩ := List.mem_map.1 hk
      refine ⟨⟨user, dev, p.1, p.2, ts⟩, ?_, rfl, rfl, hpi, rfl⟩
      unfold insert
      rw [if_neg]
      · exact List.mem_append_right _ (List.mem_map.2 ⟨p, hp, rfl⟩)
      · intro hany
        obtain ⟨q, hq, hq'⟩ := List.any_eq_true.1 hany
        obtain ⟨r, hr, hr'⟩ := List.any_eq_true.1 hq'
        simp only [Bool.and_eq_true, decide_eq_true_eq] at hr'
        obtain ⟨o, ho, hg⟩ := rows_given pre r hr
        obtain ⟨e', he', h1, h2⟩ := txnMap_vals evs q hq
        rw [hr'.1.1, hr'.1.2, hr'.2, ← h1] at hg
        exact hnew e' he' (by rw [h2]; simp) o ho hg
    | append_singleton l o ih =>
      obtain ⟨r, hr, hr'⟩ := ih (fun b hb => hclean b (List.mem_append_left _ hb)) (by simp)
      refine ⟨r, ?_, hr'⟩
      rw [← List.append_assoc, run_snoc]
      cases o with
      | clean b => exact List.mem_filter.2 ⟨hr, by rw [hr'.2.2.2]; exact decide_eq_true (hclean b (by simp))⟩
      | deliver u d ts' evs' keep' => exact insert_sub hr
  obtain ⟨r, hr, h1, h2, h3, _⟩ := hrow
  obtain ⟨t', ht'⟩ := select_of_mem hr
  rw [h1, h2, h3] at ht'
  have htr : t' = t := by
    obtain ⟨q, hq, q1, q2, q3, q4⟩ := select_some ht'
    have := rows_true tr _ hh q hq
    rw [q1, q2, q3, ht, q4] at this
    simpa using this.symm
  unfold sent at hst ⊢
  cases hf : (run (pre ++ .deliver user dev ts evs keep :: post)).events.find? (fun x => decide (x.id = id)) with
  | none => rw [hf] at hst; simp at hst
  | some e =>
    dsimp only
    have hse := (stored_honest tr _ hh id e hf).2.1
    rw [if_neg (by rw [hse, hs _ _ _ _ ht]; simp), ht', htr]

/-- A transaction id sent with an event is never made up: it is the one upstream gave a device for that event. -/
theorem C80_true (tr : Truth) (ops : List Op) (hh : ∀ o ∈ ops, Honest tr o) (user dev id t : String)
    (h : sent (run ops) user dev id = some (some t)) : ∃ u d, tr.tid u d id = some t := by
  unfold sent at h
  cases hf : (run ops).events.find? (fun x => decide (x.id = id)) with
  | none => rw [hf] at h; cases h
  | some e =>
    rw [hf] at h
    dsimp only at h
    obtain ⟨_, _, u, d, _, _, _, _, _, hte⟩ := stored_honest tr ops hh id e hf
    have hst : (some e.tid = some (some t)) → ∃ u d, tr.tid u d id = some t := by
      intro h'
      simp only [Option.some.injEq] at h'
      exact ⟨u, d, by rw [← hte, h']⟩
    split at h
    · exact hst h
    · split at h
      · rename_i t' hsel
        simp only [Option.some.injEq] at h
        obtain ⟨q, hq, q1, q2, q3, q4⟩ := select_some hsel
        have := rows_true tr ops hh q hq
        rw [q1, q2, q3, q4, h] at this
        exact ⟨user, dev, this⟩
      · exact hst h

/-- What a device that did not send the event is sent: exactly the transaction id upstream gave to the device whose poller stored the
event first, so none if that is another device than the sending one.  Missing: if it is the sending one, everyone is sent its transaction
id (`C80_violated_leak`). -/
theorem C80_others_partial (tr : Truth) (pre post : List Op) (u d : String) (ts : Nat) (evs : List Ev) (keep : String → Bool)
    (hh : ∀ o ∈ pre ++ .deliver u d ts evs keep :: post, Honest tr o) (id : String) (hnew : ∀ v c, sent (run pre) v c id = none)
    (hi : ∃ e ∈ evs, e.id = id) (hk : keep id = true) (user dev : String) (hn : tr.tid user dev id = none) :
    sent (run (pre ++ .deliver u d ts evs keep :: post)) user dev id = some (tr.tid u d id) := by
  have hpre : (run pre).events.find? (fun x => decide (x.id = id)) = none := by
    cases hf : (run pre).events.find? (fun x => decide (x.id = id)) with
    | none => rfl
    | some e =>
      have := hnew (e.sender ++ "x") ""
      unfold sent at this
      rw [hf] at this
      dsimp only at this
      split at this
      · cases this
      · split at this <;> cases this
  have hfind : ∃ e, (run (pre ++ [.deliver u d ts evs keep])).events.find? (fun x => decide (x.id = id)) = some e ∧ e.tid = tr.tid u d id := by
    rw [run_snoc]
    simp only [step]
    rw [storeEvents_find, hpre]
    simp only [Option.none_or]
    cases hf : (evs.filter fun e => keep e.id).find? (fun x => decide (x.id = id)) with
    | none =>
      obtain ⟨e, he, hei⟩ := hi
      have := List.find?_eq_none.1 hf e (List.mem_filter.2 ⟨he, by rw [hei]; exact hk⟩)
      simp [hei] at this
    | some e =>
      refine ⟨e, rfl, ?_⟩
      have hm := (List.mem_filter.1 (List.mem_of_find?_eq_some hf)).1
      have hei : e.id = id := by simpa using List.find?_some hf
      rw [← hei]
      exact (hh (.deliver u d ts evs keep) (by simp) e hm).2
  obtain ⟨e, he, het⟩ := hfind
  have hall := run_find _ post id e he
  rw [List.append_assoc] at hall
  have hall : (run (pre ++ .deliver u d ts evs keep :: post)).events.find? (fun x => decide (x.id = id)) = some e := hall
  unfold sent
  rw [hall]
  dsimp only
  split
  · rw [het]
  · split
    · rename_i t hsel
      obtain ⟨q, hq, q1, q2, q3, q4⟩ := select_some hsel
      have := rows_true tr _ hh q hq
      rw [q1, q2, q3, hn] at this
      cases this
    · rw [het]

/-! ## Examples and violations -/

def exTruth : Truth where
  sender := fun _ => "@alice"
  tid := fun u d i => if u = "@alice" ∧ d = "phone" then some ("txn" ++ i) else none

def exOwn (i : String) : Ev := ⟨i, "@alice", some ("txn" ++ i)⟩
def exOther (i : String) : Ev := ⟨i, "@alice", none⟩

/-- Bob's poller is first, then that of the sending phone. -/
def exOps : List Op :=
  [.deliver "@bob" "tv" 1 [exOther "$1", exOther "$2"] fun _ => true, .deliver "@alice" "phone" 2 [exOwn "$1", exOwn "$2"] fun _ => true]

/-- Non-vacuity: the phone is sent its transaction id, nobody else is. -/
example : (∀ o ∈ exOps, Honest exTruth o) ∧ sent (run exOps) "@alice" "phone" "$1" = some (some "txn$1") ∧
    sent (run exOps) "@alice" "laptop" "$1" = some none ∧ sent (run exOps) "@bob" "tv" "$1" = some none := by
  refine ⟨?_, by decide, by decide, by decide⟩
  intro o ho
  simp only [exOps, List.mem_cons, List.not_mem_nil, or_false] at ho
  rcases ho with rfl | rfl <;> intro e he <;> simp only [List.mem_cons, List.not_mem_nil, or_false] at he <;>
    rcases he with rfl | rfl <;> decide

/-- **C80 fails when the sending device's poller is first**: its transaction id stays in the stored event (the code deletes
`unsigned.txn_id`) and other devices and other users are sent it. -/
theorem C80_violated_leak :
    sent (run [.deliver "@alice" "phone" 1 [exOwn "$1"] fun _ => true]) "@bob" "tv" "$1" = some (some "txn$1") ∧
    sent (run [.deliver "@alice" "phone" 1 [exOwn "$1"] fun _ => true]) "@alice" "laptop" "$1" = some (some "txn$1") := by decide

/-- **C80 fails when a timeline has a transaction id that is known already**, as after a failed attempt to store the timeline or a restart
before the since token was saved: the other transaction ids are lost and the sending device does not get them. -/
theorem C80_violated_batch :
    sent (run [.deliver "@alice" "phone" 1 [exOwn "$1"] fun _ => false, .deliver "@bob" "tv" 2 [exOther "$1", exOther "$2"] fun _ => true,
      .deliver "@alice" "phone" 3 [exOwn "$1", exOwn "$2"] fun _ => true]) "@alice" "phone" "$2" = some none := by decide

end Verif.Txns
