import Verif.TxnWaiter
/-! # C25: events wait for their transaction id without loss, duplication or reordering -/
namespace Verif.TxnWaiter

/-- The event updates of a room, in order. -/
def ofRoom (room : String) (us : List Upd) : List Ev :=
  us.filterMap fun u => match u with
    | .event e => if e.room = room then some e else none
    | .other _ => none

/-- The updates given to the waiter. -/
def given : List Op → List Upd
  | [] => []
  | .ingest u :: os => u :: given os
  | .release _ _ :: os => given os
  | .tick :: os => given os

/-- Events of the room still held back. -/
def held (s : State) (room : String) : List Ev := (s.queues room).getD []

theorem ofRoom_append (room : String) (a b : List Upd) : ofRoom room (a ++ b) = ofRoom room a ++ ofRoom room b := by
  simp [ofRoom]

theorem given_append (a b : List Op) : given (a ++ b) = given a ++ given b := by
  induction a with
  | nil => rfl
  | cons o a ih => cases o <;> simp [given, ih]

theorem run_snoc (user : String) (delay : Bool) (s : State) (ops : List Op) (o : Op) :
    run user delay s (ops ++ [o]) = step user delay (run user delay s ops) o := by
  simp [run]

theorem ofRoom_map (room : String) (q : List Ev) (h : ∀ e ∈ q, e.room = room) (r : String) :
    ofRoom r (q.map .event) = if r = room then q else [] := by
  induction q with
  | nil => simp [ofRoom]
  | cons e q ih =>
    have he := h e (by simp)
    have ih := ih fun x hx => h x (by simp [hx])
    unfold ofRoom at *
    rw [List.map_cons, List.filterMap_cons]
    simp only [he]
    by_cases hr : r = room
    · subst hr
      rw [if_pos rfl] at ih ⊢
      rw [if_pos rfl, ih]
    · rw [if_neg hr] at ih ⊢
      rw [if_neg (fun x => hr x.symm)]
      exact ih

structure Inv (s : State) (us : List Upd) : Prop where
  /-- queued events belong to the room -/
  rooms : ∀ room, ∀ e ∈ held s room, e.room = room
  nonempty : ∀ room, s.queues room ≠ some []
  conserve : ∀ room, ofRoom room (s.published.map (·.2)) ++ held s room = ofRoom room us
  timers : ∀ room, ∃ pre, ((s.timers.filter (·.1 = room)).map (·.2)) = pre ++ (held s room).map (·.nid)

theorem held_setQ (s : State) (room r : String) (v : Option (List Ev)) (t : List (String × Int)) (p : List (Bool × Upd)) :
    held ⟨setQ s.queues room v, t, p⟩ r = if r = room then v.getD [] else held s r := by
  unfold held setQ
  simp only
  split <;> rfl

theorem prefix_take_drop (nid : Int) (q : List Ev) : q.take (prefixLen nid q) ++ q.drop (prefixLen nid q) = q :=
  List.take_append_drop _ _

theorem inv_publish (s : State) (us : List Upd) (room : String) (nid : Int) (h : Inv s us) :
    Inv (publishUpTo s room nid) us := by
  unfold publishUpTo
  cases hq : s.queues room with
  | none => exact h
  | some q =>
    have hheld : held s room = q := by simp [held, hq]
    simp only
    have hv : (if (q.drop (prefixLen nid q)).length = 0 then none else some (q.drop (prefixLen nid q))).getD []
        = q.drop (prefixLen nid q) := by
      split
      · rename_i h0; simp [List.length_eq_zero_iff.1 h0]
      · rfl
    constructor
    · intro r e he
      rw [held_setQ, hv] at he
      split at he
      · rename_i hr
        subst hr
        exact h.rooms r e (by rw [hheld]; exact List.mem_of_mem_drop he)
      · exact h.rooms r e he
    · intro r
      simp only [setQ]
      split
      · split
        · intro x; cases x
        · rename_i h0; intro x
          simp only [Option.some.injEq] at x
          exact h0 (by simp [x])
      · exact h.nonempty r
    · intro r
      rw [held_setQ, hv]
      simp only [List.map_append, List.map_map, ofRoom_append]
      have e1 : List.map ((fun x : Bool × Upd => x.2) ∘ fun e => (true, Upd.event e)) (q.take (prefixLen nid q))
          = (q.take (prefixLen nid q)).map .event := rfl
      rw [e1, ofRoom_map room _ (fun e he => h.rooms room e (by rw [hheld]; exact List.mem_of_mem_take he))]
      rw [← h.conserve r]
      by_cases hr : r = room
      · subst hr
        rw [if_pos rfl, if_pos rfl, List.append_assoc, prefix_take_drop, hheld]
      · rw [if_neg hr, if_neg hr]; simp
    · intro r
      rw [held_setQ, hv]
      obtain ⟨pre, hp⟩ := h.timers r
      by_cases hr : r = room
      · subst hr
        rw [if_pos rfl]
        refine ⟨pre ++ (q.take (prefixLen nid q)).map (·.nid), ?_⟩
        rw [hp, hheld, List.append_assoc, ← List.map_append, prefix_take_drop]
      · rw [if_neg hr]; exact ⟨pre, hp⟩

theorem inv_tick (s : State) (us : List Upd) (room : String) (nid : Int) (ts : List (String × Int))
    (ht : s.timers = (room, nid) :: ts) (h : Inv s us) : Inv (publishUpTo { s with timers := ts } room nid) us := by
  -- the timer that fires may be the one of the first queued event of the room
  have htm := h.timers room
  rw [ht] at htm
  obtain ⟨pre, hp⟩ := htm
  rw [List.filter_cons_of_pos (by simp), List.map_cons] at hp
  simp only at hp
  cases pre with
  | cons x pre =>
    -- not the head: removing the timer keeps the invariant
    apply inv_publish
    simp only [List.cons_append, List.cons.injEq] at hp
    refine ⟨h.rooms, h.nonempty, h.conserve, ?_⟩
    intro r
    by_cases hr : r = room
    · subst hr; exact ⟨pre, hp.2⟩
    · obtain ⟨p, hp'⟩ := h.timers r
      rw [ht, List.filter_cons_of_neg (by simp; exact fun e => hr e.symm)] at hp'
      exact ⟨p, hp'⟩
  | nil =>
    -- the head of the queue: it is published
    simp only [List.nil_append] at hp
    unfold publishUpTo
    cases hq : s.queues room with
    | none =>
      simp [held, hq] at hp
    | some q =>
      have hheld : held s room = q := by simp [held, hq]
      rw [hheld] at hp
      cases q with
      | nil => simp at hp
      | cons e q =>
        simp only [List.map_cons, List.cons.injEq] at hp
        have hpl : prefixLen nid (e :: q) = prefixLen nid q + 1 := by
          simp only [prefixLen]
          rw [if_neg (by rw [← hp.1]; omega)]
        simp only [hpl, List.drop_succ_cons, List.take_succ_cons]
        have hv : (if (q.drop (prefixLen nid q)).length = 0 then none else some (q.drop (prefixLen nid q))).getD []
            = q.drop (prefixLen nid q) := by
          split
          · rename_i h0; simp [List.length_eq_zero_iff.1 h0]
          · rfl
        constructor
        · intro r x hx
          rw [held_setQ, hv] at hx
          split at hx
          · rename_i hr
            subst hr
            exact h.rooms r x (by rw [hheld]; exact List.mem_cons_of_mem _ (List.mem_of_mem_drop hx))
          · exact h.rooms r x hx
        · intro r
          simp only [setQ]
          split
          · split
            · intro x; cases x
            · rename_i h0; intro x
              simp only [Option.some.injEq] at x
              exact h0 (by simp [x])
          · exact h.nonempty r
        · intro r
          rw [held_setQ, hv]
          have e1 : ((s.published ++ (e :: q.take (prefixLen nid q)).map fun e => (true, Upd.event e)).map (·.2))
              = s.published.map (·.2) ++ (e :: q.take (prefixLen nid q)).map .event := by
            rw [List.map_append, List.map_map]; rfl
          rw [e1, ofRoom_append, ofRoom_map room _ (fun x hx => h.rooms room x (by
            rw [hheld]
            rcases List.mem_cons.1 hx with rfl | hx
            · simp
            · exact List.mem_cons_of_mem _ (List.mem_of_mem_take hx)))]
          rw [← h.conserve r]
          by_cases hr : r = room
          · subst hr
            rw [if_pos rfl, if_pos rfl, List.append_assoc, List.cons_append, prefix_take_drop, hheld]
          · rw [if_neg hr, if_neg hr]; simp
        · intro r
          rw [held_setQ, hv]
          by_cases hr : r = room
          · subst hr
            rw [if_pos rfl]
            refine ⟨(q.take (prefixLen nid q)).map (·.nid), ?_⟩
            rw [← List.map_append, prefix_take_drop]
            exact hp.2
          · rw [if_neg hr]
            obtain ⟨p, hp'⟩ := h.timers r
            rw [ht, List.filter_cons_of_neg (by simp; exact fun e => hr e.symm)] at hp'
            exact ⟨p, hp'⟩

theorem inv_pub (s : State) (us : List Upd) (b : Bool) (u : Upd) (h : Inv s us)
    (hu : ∀ e, u = .event e → held s e.room = []) : Inv { s with published := s.published ++ [(b, u)] } (us ++ [u]) := by
  refine ⟨h.rooms, h.nonempty, ?_, h.timers⟩
  intro room
  have hc := h.conserve room
  simp only [List.map_append, List.map_cons, List.map_nil, ofRoom_append]
  rw [← hc]
  show _ ++ held s room = _
  cases u with
  | other t => simp [ofRoom]
  | event e =>
    by_cases hr : e.room = room
    · have := hu e rfl
      rw [hr] at this
      simp [this]
    · simp [ofRoom, hr]

theorem inv_ingest (user : String) (delay : Bool) (s : State) (us : List Upd) (u : Upd) (h : Inv s us)
    (hd : delay = false → ∀ r, held s r = []) : Inv (ingest user delay s u) (us ++ [u]) := by
  unfold ingest
  cases delay with
  | false => exact inv_pub s us false u h fun e _ => hd rfl _
  | true =>
    simp only [Bool.not_true, Bool.false_eq_true, if_false]
    cases u with
    | other t => exact inv_pub s us false _ h nofun
    | event e =>
      simp only
      split
      · have hg : (s.queues e.room).getD [] = held s e.room := rfl
        rw [hg]
        constructor
        · intro r x hx
          rw [held_setQ] at hx
          split at hx
          · rename_i hr
            subst hr
            simp only [Option.getD_some, List.mem_append, List.mem_singleton] at hx
            rcases hx with hx | rfl
            · exact h.rooms _ x hx
            · rfl
          · exact h.rooms r x hx
        · intro r
          simp only [setQ]
          split
          · simp
          · exact h.nonempty r
        · intro r
          rw [held_setQ, ofRoom_append, ← h.conserve r]
          by_cases hr : r = e.room
          · subst hr
            rw [if_pos rfl]
            simp [ofRoom]
          · rw [if_neg hr]
            have hr' : ¬ e.room = r := fun x => hr x.symm
            simp [ofRoom, hr']
        · intro r
          rw [held_setQ]
          obtain ⟨p, hp⟩ := h.timers r
          by_cases hr : r = e.room
          · subst hr
            rw [if_pos rfl]
            refine ⟨p, ?_⟩
            simp only [List.filter_append, List.map_append, hp, Option.getD_some]
            simp
          · rw [if_neg hr]
            refine ⟨p, ?_⟩
            simp only [List.filter_append, List.map_append, hp]
            have hr' : ¬ e.room = r := fun x => hr x.symm
            simp [hr']
      · rename_i hc
        simp only [Bool.or_eq_true, not_or] at hc
        refine inv_pub s us false _ h ?_
        intro e' he
        cases he
        have : s.queues e.room = none := by
          cases hq : s.queues e.room with
          | none => rfl
          | some _ => rw [hq] at hc; simp at hc
        simp [held, this]

theorem inv_run (user : String) (delay : Bool) (ops : List Op) :
    Inv (run user delay {} ops) (given ops) ∧ (delay = false → ∀ r, held (run user delay {} ops) r = []) := by
  induction ops using Verif.Util.snocRec with
  | nil =>
    refine ⟨⟨?_, ?_, ?_, ?_⟩, ?_⟩
    · intro r e he; simp [held, run] at he
    · intro r; simp [run]
    · intro r; simp [run, held, ofRoom, given]
    · intro r; exact ⟨[], by simp [run, held]⟩
    · intro _ r; simp [run, held]
  | append_singleton ops o ih =>
    obtain ⟨ih, ihd⟩ := ih
    rw [run_snoc, given_append]
    have hrel : ∀ (s : State) room nid, (∀ r, held s r = []) → ∀ r, held (publishUpTo s room nid) r = [] := by
      intro s room nid h r
      unfold publishUpTo
      cases hq : s.queues room with
      | none => exact h r
      | some q =>
        have : q = [] := by have := h room; simpa [held, hq] using this
        subst this
        rw [held_setQ]
        split
        · simp
        · exact h r
    cases o with
    | ingest u =>
      refine ⟨inv_ingest user delay _ _ u ih ihd, ?_⟩
      intro hd r
      have := ihd hd r
      rw [hd] at this ⊢
      exact this
    | release room nid =>
      refine ⟨?_, ?_⟩
      · simp only [given, List.append_nil]; exact inv_publish _ _ _ _ ih
      · intro hd; exact hrel _ _ _ (ihd hd)
    | tick =>
      simp only [given, List.append_nil, step]
      cases ht : (run user delay {} ops).timers with
      | nil => exact ⟨ih, ihd⟩
      | cons t ts =>
        obtain ⟨room, nid⟩ := t
        exact ⟨inv_tick _ _ _ _ _ ht ih, fun hd => hrel _ _ _ (ihd hd)⟩

/-- C25: for every interleaving, the events of a room published so far, followed by the ones
still queued, are exactly the events given, in the order given: nothing is lost,
duplicated or reordered. -/
theorem C25_conserved (user : String) (delay : Bool) (ops : List Op) (room : String) :
    ofRoom room ((run user delay {} ops).published.map (·.2)) ++ held (run user delay {} ops) room
      = ofRoom room (given ops) :=
  (inv_run user delay ops).1.conserve room

/-- C25: once every timer has fired nothing is held back. -/
theorem C25_all_published (user : String) (delay : Bool) (ops : List Op) (h : (run user delay {} ops).timers = [])
    (room : String) : ofRoom room ((run user delay {} ops).published.map (·.2)) = ofRoom room (given ops) := by
  have hi := (inv_run user delay ops).1
  obtain ⟨p, hp⟩ := hi.timers room
  rw [h] at hp
  have : held (run user delay {} ops) room = [] := by
    have := congrArg List.length hp
    simp only [List.filter_nil, List.map_nil, List.length_nil, List.length_append, List.length_map] at this
    exact List.length_eq_zero_iff.1 (by omega)
  rw [← C25_conserved, this, List.append_nil]

/-- Firing all pending timers is always possible: as many ticks as there are timers. -/
theorem timers_drain (user : String) (delay : Bool) (ops : List Op) :
    (run user delay {} (ops ++ List.replicate (run user delay {} ops).timers.length .tick)).timers = [] := by
  have hpub : ∀ (s : State) room nid, (publishUpTo s room nid).timers = s.timers := by
    intro s room nid; unfold publishUpTo; split <;> rfl
  have : ∀ n (s : State), s.timers.length = n → (run user delay s (List.replicate n .tick)).timers = [] := by
    intro n
    induction n with
    | zero => intro s h; exact List.length_eq_zero_iff.1 h
    | succ n ih =>
      intro s h
      rw [List.replicate_succ]
      show (run user delay (step user delay s .tick) _).timers = []
      apply ih
      simp only [step]
      cases ht : s.timers with
      | nil => rw [ht] at h; simp at h
      | cons t ts =>
        simp only [hpub]
        rw [ht] at h; simpa using h
  unfold run at *
  rw [List.foldl_append]
  exact this _ _ rfl

/-- C25: an event is held back on arrival only if it was sent by this user without a
transaction id and is not a state event, or an earlier event of the room is held back. -/
theorem C25_queued_iff (user : String) (delay : Bool) (ops : List Op) (e : Ev) :
    held (run user delay {} (ops ++ [.ingest (.event e)])) e.room ≠ held (run user delay {} ops) e.room ↔
      delay = true ∧ ((e.state = false ∧ e.sender = user ∧ e.txnID = "") ∨ held (run user delay {} ops) e.room ≠ []) := by
  rw [run_snoc]
  obtain ⟨hi, _⟩ := inv_run user delay ops
  generalize run user delay {} ops = s at hi
  have hsome : (s.queues e.room).isSome = true ↔ held s e.room ≠ [] := by
    unfold held
    cases hq : s.queues e.room with
    | none => simp
    | some q =>
      have := hi.nonempty e.room
      rw [hq] at this
      simp only [Option.isSome_some, Option.getD_some, true_iff]
      intro e; exact this (by rw [e])
  have hmiss : missing user e = true ↔ e.state = false ∧ e.sender = user ∧ e.txnID = "" := by
    simp [missing, and_assoc]
  cases delay with
  | false => simp [step, ingest, held]
  | true =>
    simp only [step, ingest, Bool.not_true, Bool.false_eq_true, if_false, true_and]
    split
    · rename_i hc
      rw [Bool.or_eq_true, hmiss, hsome] at hc
      simp only [hc, iff_true]
      rw [held_setQ, if_pos rfl]
      intro x
      have := congrArg List.length x
      simp [held] at this
    · rename_i hc
      rw [Bool.or_eq_true, hmiss, hsome] at hc
      simp only [hc, iff_false]
      simp [held]

/-- C25, partial: releasing up to a position publishes every queued event of the room up to that
position if the room's queue is in ascending order of position.  Missing: queues out of
order, where the release stops at the first later event (`C25_release_violated`). -/
theorem C25_release_partial (s : State) (room : String) (nid : Int)
    (hs : (held s room).Pairwise fun a b => a.nid ≤ b.nid) :
    held (publishUpTo s room nid) room = (held s room).filter (fun e => decide (nid < e.nid)) := by
  unfold publishUpTo
  cases hq : s.queues room with
  | none => simp [held, hq]
  | some q =>
    have hh : held s room = q := by simp [held, hq]
    rw [hh] at hs ⊢
    rw [held_setQ, if_pos rfl]
    have hv : (if (q.drop (prefixLen nid q)).length = 0 then none else some (q.drop (prefixLen nid q))).getD []
        = q.drop (prefixLen nid q) := by
      split
      · rename_i h0; simp [List.length_eq_zero_iff.1 h0]
      · rfl
    rw [hv]
    clear hq hh hv
    induction q with
    | nil => rfl
    | cons e q ih =>
      rw [List.pairwise_cons] at hs
      simp only [prefixLen]
      split
      · rename_i hgt
        rw [List.drop_zero, List.filter_eq_self.2]
        intro x hx
        rcases List.mem_cons.1 hx with rfl | hx
        · simpa using hgt
        · have := hs.1 x hx; simp; omega
      · rename_i hle
        rw [List.drop_succ_cons, List.filter_cons_of_neg (by simpa using hle)]
        exact ih hs.2

/-- A release never publishes an event later than its position before an earlier one, and
publishes only a prefix of the queue. -/
theorem C25_release_prefix (s : State) (room : String) (nid : Int) :
    ∃ pre, held s room = pre ++ held (publishUpTo s room nid) room ∧ ∀ e ∈ pre, e.nid ≤ nid := by
  unfold publishUpTo
  cases hq : s.queues room with
  | none => exact ⟨[], by simp, nofun⟩
  | some q =>
    have hh : held s room = q := by simp [held, hq]
    rw [hh]
    rw [held_setQ, if_pos rfl]
    have hv : (if (q.drop (prefixLen nid q)).length = 0 then none else some (q.drop (prefixLen nid q))).getD []
        = q.drop (prefixLen nid q) := by
      split
      · rename_i h0; simp [List.length_eq_zero_iff.1 h0]
      · rfl
    rw [hv]
    refine ⟨q.take (prefixLen nid q), (prefix_take_drop _ _).symm, ?_⟩
    clear hq hh hv
    induction q with
    | nil => simp
    | cons e q ih =>
      simp only [prefixLen]
      split
      · simp
      · rename_i hle
        intro x hx
        rw [List.take_succ_cons] at hx
        rcases List.mem_cons.1 hx with rfl | hx
        · omega
        · exact ih x hx

def ev (tag : Nat) (nid : Int) (sender : String) : Ev := ⟨tag, "!r", nid, false, sender, ""⟩

/-- With events out of order (position 0 marks events that are always processed) a release does
not publish everything up to its position. -/
theorem C25_release_violated : ∃ (ops : List Op) (e : Ev),
    e ∈ held (run "@u" true {} ops) "!r" ∧ e.nid ≤ 5 ∧
    e ∈ held (publishUpTo (run "@u" true {} ops) "!r" 5) "!r" := by
  refine ⟨[.ingest (.event (ev 1 9 "@u")), .ingest (.event (ev 2 0 "@v"))], ev 2 0 "@v", ?_, by decide, ?_⟩ <;>
    decide +kernel

example :
    let ops := [Op.ingest (.event (ev 1 1 "@v")), .ingest (.event (ev 2 2 "@u")), .ingest (.event (ev 3 3 "@v")),
      .ingest (.other 4)]
    (run "@u" true {} ops).published.map (·.2) = [.event (ev 1 1 "@v"), .other 4] ∧
    held (run "@u" true {} ops) "!r" = [ev 2 2 "@u", ev 3 3 "@v"] ∧
    held (run "@u" true {} (ops ++ [.release "!r" 2])) "!r" = [ev 3 3 "@v"] ∧
    (run "@u" true {} (ops ++ [.tick, .tick])).published.map (·.2)
      = [.event (ev 1 1 "@v"), .other 4, .event (ev 2 2 "@u"), .event (ev 3 3 "@v")] := by
  decide +kernel

end Verif.TxnWaiter
