import Verif.OwnTimeline
/-!
# C99: the live timeline of a room has the room's own events, all of them

Specification: the events as they were dispatched, with ascending positions. Of those of a room that come after the initial data and were
not held back, each is in the room's timeline, once and in order, and nothing else is.
-/
namespace Verif.OwnTimeline

/-- The events dispatched. -/
def dispatched (ops : List Op) : List Ev := ops.filterMap fun o => match o with
  | .event e => some e
  | .release .. => none

/-- The positions ascend. -/
def Ascending (ops : List Op) : Prop := (dispatched ops).Pairwise fun a b => a.nid < b.nid

/-- No event is about a child that the user is joined to. -/
def NoSpace (joined : String → Bool) (ops : List Op) : Prop := ∀ e ∈ dispatched ops, ∀ c, e.child = some c → joined c = false

/-- What is held back of a room. -/
def held (w : Waiter) (room : String) : List Ev := ((Assoc.get w.queues room).getD []).map (·.ev)

/-! ## The waiter keeps everything, in order per room of the event -/

def heldU (w : Waiter) (k : String) : List Upd := (Assoc.get w.queues k).getD []

def keyed (k : String) (us : List Upd) : List Upd := us.filter fun u => decide (u.ev.room = k)

structure WInv (delay : Bool) (w : Waiter) (given : List Upd) : Prop where
  off : delay = false → w.queues = [] ∧ w.published = given
  conserve : ∀ k, keyed k w.published ++ heldU w k = keyed k given
  keys : ∀ k u, u ∈ heldU w k → u.ev.room = k

theorem ingest_inv {user : String} {delay : Bool} {w : Waiter} {given : List Upd} (h : WInv delay w given) (u : Upd) :
    WInv delay (ingest user delay w u) (given ++ [u]) := by
  have pub : (∀ k, u.ev.room = k → heldU w k = []) → WInv delay { w with published := w.published ++ [u] } (given ++ [u]) := by
    intro hn
    refine ⟨fun hd => ⟨(h.off hd).1, by show w.published ++ [u] = _; rw [(h.off hd).2]⟩, fun k => ?_, h.keys⟩
    show keyed k (w.published ++ [u]) ++ heldU w k = _
    have hc := h.conserve k
    unfold keyed at hc ⊢
    rw [List.filter_append, List.filter_append, ← hc]
    by_cases hk : u.ev.room = k
    · rw [hn k hk]; simp
    · simp [hk]
  have que : delay = true → WInv delay { w with queues := Assoc.set w.queues u.ev.room (heldU w u.ev.room ++ [u]) } (given ++ [u]) := by
    intro hd
    have hh : ∀ k, heldU { w with queues := Assoc.set w.queues u.ev.room (heldU w u.ev.room ++ [u]) } k =
        if k = u.ev.room then heldU w u.ev.room ++ [u] else heldU w k := by
      intro k
      show (Assoc.get (Assoc.set w.queues u.ev.room _) k).getD [] = _
      rw [Assoc.get_set]
      by_cases hk : k = u.ev.room
      · rw [if_pos hk, if_pos hk]; rfl
      · rw [if_neg hk, if_neg hk]; rfl
    refine ⟨fun hd' => absurd (hd.symm.trans hd') (by decide), fun k => ?_, fun k v hv => ?_⟩
    · rw [hh]
      show keyed k w.published ++ _ = _
      have hc := h.conserve k
      unfold keyed at hc ⊢
      rw [List.filter_append, ← hc]
      by_cases hk : k = u.ev.room
      · subst hk; simp
      · simp [hk, Ne.symm hk]
    · rw [hh] at hv
      by_cases hk : k = u.ev.room
      · rw [if_pos hk] at hv
        rcases List.mem_append.1 hv with hv | hv
        · rw [hk]; exact h.keys _ v hv
        · rw [List.mem_singleton.1 hv, hk]
      · rw [if_neg hk] at hv; exact h.keys k v hv
  unfold ingest
  cases delay with
  | false =>
    refine pub fun k _ => ?_
    simp [heldU, (h.off rfl).1, Assoc.get]
  | true =>
    have que := que rfl
    simp only [Bool.not_true]
    rw [if_neg (by decide)]
    cases hg : Assoc.get w.queues u.ev.room with
    | some q =>
      have : heldU w u.ev.room = q := by simp [heldU, hg]
      rw [this] at que; exact que
    | none =>
      have hn : heldU w u.ev.room = [] := by simp [heldU, hg]
      simp only
      split
      · rw [hn] at que; exact que
      · exact pub fun k hk => by rw [← hk]; exact hn

theorem publish_inv {delay : Bool} {w : Waiter} {given : List Upd} (h : WInv delay w given) (room : String) (nid : Nat) :
    WInv delay (publishUpTo w room nid) given := by
  unfold publishUpTo
  cases hg : Assoc.get w.queues room with
  | none => exact h
  | some q =>
    have hq : heldU w room = q := by simp [heldU, hg]
    have hsplit := List.takeWhile_append_dropWhile (p := fun u : Upd => decide (u.ev.nid ≤ nid)) (l := q)
    simp only
    generalize q.takeWhile (fun u => decide (u.ev.nid ≤ nid)) = out at *
    generalize q.dropWhile (fun u => decide (u.ev.nid ≤ nid)) = rest at *
    have hh : ∀ k, heldU { queues := if rest.isEmpty then Assoc.del w.queues room else Assoc.set w.queues room rest
                           published := w.published ++ out } k = if k = room then rest else heldU w k := by
      intro k
      show (Assoc.get (if rest.isEmpty then Assoc.del w.queues room else Assoc.set w.queues room rest) k).getD [] = _
      by_cases hr : rest.isEmpty = true
      · rw [if_pos hr, Assoc.get_del, List.isEmpty_iff.1 hr]
        by_cases hk : k = room
        · rw [if_pos hk, if_pos hk]; rfl
        · rw [if_neg hk, if_neg hk]; rfl
      · rw [if_neg hr, Assoc.get_set]
        by_cases hk : k = room
        · rw [if_pos hk, if_pos hk]; rfl
        · rw [if_neg hk, if_neg hk]; rfl
    have hroom : ∀ u, u ∈ q → u.ev.room = room := fun u hu => h.keys room u (by rw [hq]; exact hu)
    refine ⟨?_, fun k => ?_, fun k u hu => ?_⟩
    · intro hd
      have := (h.off hd).1
      rw [this] at hg; cases hg
    · rw [hh]
      have hc := h.conserve k
      unfold keyed at hc ⊢
      rw [← hc]
      show (w.published ++ out).filter _ ++ _ = _
      rw [List.filter_append]
      by_cases hk : k = room
      · subst hk
        rw [if_pos rfl, hq, ← hsplit]
        have : out.filter (fun u => decide (u.ev.room = k)) = out := by
          rw [List.filter_eq_self]; intro u hu
          simp [hroom u (by rw [← hsplit]; exact List.mem_append_left _ hu)]
        rw [this, List.append_assoc]
      · rw [if_neg hk]
        have : out.filter (fun u => decide (u.ev.room = k)) = [] := by
          rw [List.filter_eq_nil_iff]; intro u hu
          simp [hroom u (by rw [← hsplit]; exact List.mem_append_left _ hu), Ne.symm hk]
        rw [this, List.append_nil]
    · rw [hh] at hu
      by_cases hk : k = room
      · rw [if_pos hk] at hu
        rw [hk]; exact hroom u (by rw [← hsplit]; exact List.mem_append_right _ hu)
      · rw [if_neg hk] at hu; exact h.keys k u hu

theorem ingests_inv {user : String} {delay : Bool} {w : Waiter} {given : List Upd} (h : WInv delay w given) (us : List Upd) :
    WInv delay (us.foldl (ingest user delay) w) (given ++ us) := by
  induction us generalizing w given with
  | nil => simpa using h
  | cons u us ih => simpa using ih (ingest_inv (user := user) h u)

theorem dispatched_snoc (ops : List Op) (o : Op) : dispatched (ops ++ [o]) = dispatched ops ++ dispatched [o] := by
  simp [dispatched]

theorem run_snoc (user : String) (delay : Bool) (joined : String → Bool) (ops : List Op) (o : Op) :
    run user delay joined (ops ++ [o]) = step user delay joined (run user delay joined ops) o := by simp [run]

theorem run_inv (user : String) (delay : Bool) (joined : String → Bool) (ops : List Op) :
    WInv delay (run user delay joined ops) ((dispatched ops).flatMap (updates joined)) := by
  induction ops using Util.snocRec with
  | nil => exact ⟨fun _ => ⟨rfl, rfl⟩, fun k => rfl, fun k u hu => by simp [heldU, run, Assoc.get] at hu⟩
  | append_singleton ops o ih =>
    rw [run_snoc, dispatched_snoc]
    cases o with
    | event e =>
      have : (dispatched ops ++ dispatched [.event e]).flatMap (updates joined) =
          (dispatched ops).flatMap (updates joined) ++ updates joined e := by simp [dispatched]
      rw [this]; exact ingests_inv ih _
    | release room nid =>
      have : dispatched ops ++ dispatched [.release room nid] = dispatched ops := by simp [dispatched]
      rw [this]; exact publish_inv ih room nid

/-! ## The timeline of one room -/

theorem sent_append (room : String) (lp : Nat) (us vs : List Upd) :
    sent room lp (us ++ vs) = vs.foldl (process room) (sent room lp us) := by simp [sent]

/-- An update ahead of all others. -/
theorem process_new {room : String} {lp N : Nat} {r : Room} (h1 : lp ≤ r.lp) (h2 : r.lp ≤ max lp N) (u : Upd) (ht : u.target = room)
    (hN : N < u.ev.nid) : (process room r u).timeline = r.timeline ++ (if lp < u.ev.nid then [u.ev] else []) ∧
    lp ≤ (process room r u).lp ∧ (process room r u).lp ≤ max lp u.ev.nid ∧ u.ev.nid ≤ (process room r u).lp := by
  unfold process
  rw [if_neg (by simp [ht])]
  by_cases hlt : 0 < r.lp ∧ u.ev.nid < r.lp
  · rw [if_pos hlt]
    have : ¬ lp < u.ev.nid := by omega
    rw [if_neg this]
    refine ⟨by simp, h1, by omega, by omega⟩
  · rw [if_neg hlt]
    by_cases hle : u.ev.nid ≤ r.lp
    · have : ¬ lp < u.ev.nid := by omega
      simp only [if_pos hle, if_neg this]
      refine ⟨by simp, by omega, by omega, by omega⟩
    · have : lp < u.ev.nid := by omega
      simp only [if_neg hle, if_pos this]
      refine ⟨trivial, by omega, by omega, by omega⟩

/-- An update that is not ahead of the position changes nothing. -/
theorem process_old {room : String} {r : Room} (u : Upd) (h : u.ev.nid ≤ r.lp) : (process room r u).timeline = r.timeline ∧
    (process room r u).lp = r.lp := by
  unfold process
  by_cases h1 : u.target ≠ room
  · rw [if_pos h1]; exact ⟨rfl, rfl⟩
  · rw [if_neg h1]
    by_cases h2 : 0 < r.lp ∧ u.ev.nid < r.lp
    · rw [if_pos h2]; exact ⟨rfl, rfl⟩
    · rw [if_neg h2]
      simp only [if_pos h]
      exact ⟨trivial, by omega⟩

theorem process_lp (room : String) (r : Room) (u : Upd) : r.lp ≤ (process room r u).lp := by
  unfold process
  split
  · exact Nat.le_refl _
  · split
    · exact Nat.le_refl _
    · simp only; omega

/-- An event behind the position of a room does not get into its timeline any more. -/
theorem never_later (room : String) (r : Room) (us : List Upd) (e : Ev) (h : e.nid ≤ r.lp) (hn : e ∉ r.timeline) :
    e ∉ (us.foldl (process room) r).timeline := by
  induction us generalizing r with
  | nil => exact hn
  | cons u us ih =>
    refine ih _ (Nat.le_trans h (process_lp room r u)) ?_
    unfold process
    split
    · exact hn
    · split
      · exact hn
      · simp only
        split
        · exact hn
        · rename_i h1 h2 h3
          rw [List.mem_append, List.mem_singleton]
          rintro (h' | h')
          · exact hn h'
          · rw [h'] at h; exact h3 h

theorem skip_target {room : String} {r : Room} {u : Upd} (h : u.target ≠ room) : process room r u = r := by
  unfold process; rw [if_pos h]

/-- Strictly ascending updates are all appended. -/
theorem sent_strict (room : String) (lp : Nat) (us : List Upd) (hs : (us.filter fun u => decide (u.target = room)).Pairwise fun a b => a.ev.nid < b.ev.nid) :
    (sent room lp us).timeline = ((us.filter fun u => decide (u.target = room)).map (·.ev)).filter fun e => decide (lp < e.nid) := by
  have key : ∃ N, lp ≤ (sent room lp us).lp ∧ (sent room lp us).lp ≤ max lp N ∧
      (∀ v ∈ us, v.target = room → v.ev.nid ≤ N) ∧
      (N = 0 ∨ ∃ v ∈ us, v.target = room ∧ v.ev.nid = N) ∧
      (sent room lp us).timeline = ((us.filter fun u => decide (u.target = room)).map (·.ev)).filter fun e => decide (lp < e.nid) := by
    induction us using Util.snocRec with
    | nil => exact ⟨0, Nat.le_refl _, by simp [sent], by simp, Or.inl rfl, rfl⟩
    | append_singleton us u ih =>
      rw [List.filter_append] at hs
      obtain ⟨N, h1, h2, h3, h4, h5⟩ := ih (List.pairwise_append.1 hs).1
      rw [sent_append]
      simp only [List.foldl_cons, List.foldl_nil]
      by_cases ht : u.target = room
      · by_cases h0 : u.ev.nid = 0
        · -- position 0: nothing before it
          have hnil : us.filter (fun u => decide (u.target = room)) = [] := by
            rw [List.filter_eq_nil_iff]
            intro v hv hvt
            have := (List.pairwise_append.1 hs).2.2 v (List.mem_filter.2 ⟨hv, hvt⟩) u (by simp [ht])
            omega
          have ⟨p1, p2⟩ := process_old (room := room) (r := sent room lp us) u (by omega)
          refine ⟨N, by rw [p2]; exact h1, by rw [p2]; exact h2, ?_, ?_, ?_⟩
          · intro v hv hvt
            rcases List.mem_append.1 hv with hv | hv
            · exact h3 v hv hvt
            · rw [List.mem_singleton.1 hv]; omega
          · rcases h4 with h4 | ⟨v, hv, h4⟩
            · exact Or.inl h4
            · exact Or.inr ⟨v, List.mem_append_left _ hv, h4⟩
          · rw [p1, h5, List.filter_append, hnil]; simp [ht, h0]
        · have hN : N < u.ev.nid := by
            rcases h4 with h4 | ⟨v, hv, hvt, h4⟩
            · omega
            · rw [← h4]
              exact (List.pairwise_append.1 hs).2.2 v (List.mem_filter.2 ⟨hv, by simp [hvt]⟩) u (by simp [ht])
          obtain ⟨p1, p2, p3, _⟩ := process_new h1 h2 u ht hN
          refine ⟨u.ev.nid, p2, p3, ?_, Or.inr ⟨u, by simp, ht, rfl⟩, ?_⟩
          · intro v hv hvt
            rcases List.mem_append.1 hv with hv | hv
            · have := h3 v hv hvt; omega
            · rw [List.mem_singleton.1 hv]; exact Nat.le_refl _
          · rw [p1, h5, List.filter_append, List.map_append, List.filter_append]
            congr 1
            by_cases hl : lp < u.ev.nid <;> simp [ht, hl]
      · rw [skip_target ht]
        refine ⟨N, h1, h2, ?_, ?_, ?_⟩
        · intro v hv hvt
          rcases List.mem_append.1 hv with hv | hv
          · exact h3 v hv hvt
          · rw [List.mem_singleton.1 hv] at hvt; exact absurd hvt ht
        · rcases h4 with h4 | ⟨v, hv, h4⟩
          · exact Or.inl h4
          · exact Or.inr ⟨v, List.mem_append_left _ hv, h4⟩
        · rw [h5, List.filter_append]; simp [ht]
  obtain ⟨_, _, _, _, _, h⟩ := key
  exact h

/-! ## The theorems -/

/-- With no space events for rooms the user is in: the timeline of a room, followed by what is held back of it, is the room's events after
the initial data; each once and in order. Missing: with such events it is not so, see below. -/
theorem C99_partial (user : String) (delay : Bool) (joined : String → Bool) (ops : List Op) (ha : Ascending ops)
    (hn : NoSpace joined ops) (room : String) (lp : Nat) :
    (sent room lp (run user delay joined ops).published).timeline ++
        (held (run user delay joined ops) room).filter (fun e => decide (lp < e.nid)) =
      (dispatched ops).filter fun e => decide (e.room = room) && decide (lp < e.nid) := by
  have hi := run_inv user delay joined ops
  have hg : (dispatched ops).flatMap (updates joined) = (dispatched ops).map fun e => ⟨e.room, e⟩ := by
    have hall : ∀ e ∈ dispatched ops, updates joined e = [⟨e.room, e⟩] := by
      intro e he
      unfold updates
      cases hc : e.child with
      | none => rfl
      | some c => simp only; rw [hn e he c hc]; rfl
    clear ha hn hi
    generalize dispatched ops = l at *
    induction l with
    | nil => rfl
    | cons e l ih =>
      rw [List.flatMap_cons, hall e (by simp), ih (fun e he => hall e (List.mem_cons_of_mem _ he))]; rfl
  rw [hg] at hi
  generalize run user delay joined ops = w at *
  unfold Ascending at ha
  generalize dispatched ops = l at *
  have hc := hi.conserve room
  -- the updates published are for the room of their event
  have htarget : ∀ u ∈ w.published, u.target = u.ev.room := by
    intro u hu
    have : u ∈ keyed u.ev.room (l.map fun e => (⟨e.room, e⟩ : Upd)) := by
      rw [← hi.conserve]; exact List.mem_append_left _ (List.mem_filter.2 ⟨hu, by simp⟩)
    obtain ⟨e, _, rfl⟩ := List.mem_map.1 (List.mem_filter.1 this).1
    rfl
  have hf : w.published.filter (fun u => decide (u.target = room)) = keyed room w.published := by
    unfold keyed
    exact List.filter_congr fun u hu => by rw [htarget u hu]
  have hk : (keyed room (l.map fun e => (⟨e.room, e⟩ : Upd))).map (·.ev) = l.filter fun e => decide (e.room = room) := by
    unfold keyed
    rw [List.filter_map, List.map_map]
    exact List.map_id' _
  have hstrict : (keyed room w.published).Pairwise fun a b => a.ev.nid < b.ev.nid := by
    have h1 : ((keyed room w.published ++ heldU w room).map (·.ev)).Pairwise fun a b => a.nid < b.nid := by
      rw [hc, hk]; exact ha.filter _
    rw [List.map_append, List.pairwise_append] at h1
    exact (List.pairwise_map (f := fun u : Upd => u.ev) (R := fun a b : Ev => a.nid < b.nid)).1 h1.1
  rw [sent_strict room lp _ (by rw [hf]; exact hstrict), hf]
  show _ ++ ((heldU w room).map (·.ev)).filter _ = _
  rw [← List.filter_append, ← List.map_append, hc, hk, List.filter_filter]
  exact List.filter_congr fun e _ => Bool.and_comm _ _

/-- Without holding back, the exact timeline: the room's events, all of them, and those of spaces about the room. -/
theorem C99_immediate (user : String) (joined : String → Bool) (ops : List Op) (ha : Ascending ops) (room : String) (lp : Nat) :
    (sent room lp (run user false joined ops).published).timeline =
      (dispatched ops).filter fun e =>
        (decide (e.room = room) || (decide (e.child = some room) && joined room)) && decide (lp < e.nid) := by
  rw [((run_inv user false joined ops).off rfl).2]
  unfold Ascending at ha
  generalize dispatched ops = l at *
  have key : ∃ N, lp ≤ (sent room lp (l.flatMap (updates joined))).lp ∧ (sent room lp (l.flatMap (updates joined))).lp ≤ max lp N ∧
      (N = 0 ∨ ∃ e ∈ l, e.nid = N) ∧
      (sent room lp (l.flatMap (updates joined))).timeline = l.filter fun e =>
        (decide (e.room = room) || (decide (e.child = some room) && joined room)) && decide (lp < e.nid) := by
    induction l using Util.snocRec with
    | nil => exact ⟨0, Nat.le_refl _, by simp [sent], Or.inl rfl, rfl⟩
    | append_singleton l e ih =>
      obtain ⟨N, h1, h2, h3, h4⟩ := ih (List.pairwise_append.1 ha).1
      have hN : N < e.nid ∨ e.nid = 0 := by
        rcases h3 with h3 | ⟨v, hv, h3⟩
        · omega
        · rw [← h3]; exact Or.inl ((List.pairwise_append.1 ha).2.2 v hv e (by simp))
      rw [List.flatMap_append, sent_append, List.filter_append, ← h4]
      simp only [List.flatMap_cons, List.flatMap_nil, List.append_nil]
      generalize sent room lp (l.flatMap (updates joined)) = r at *
      have hlast : ∀ {N'}, N' = e.nid → (N' = 0 ∨ ∃ e' ∈ l ++ [e], e'.nid = N') := fun h => Or.inr ⟨e, by simp, h.symm⟩
      have hkeep : N = 0 ∨ ∃ e' ∈ l ++ [e], e'.nid = N := by
        rcases h3 with h3 | ⟨v, hv, h3⟩
        · exact Or.inl h3
        · exact Or.inr ⟨v, List.mem_append_left _ hv, h3⟩
      -- one relevant update, maybe twice
      have one : ∀ t, t = room → ∃ N', lp ≤ (process room r ⟨t, e⟩).lp ∧ (process room r ⟨t, e⟩).lp ≤ max lp N' ∧
          (N' = 0 ∨ ∃ e' ∈ l ++ [e], e'.nid = N') ∧ e.nid ≤ (process room r ⟨t, e⟩).lp ∧
          (process room r ⟨t, e⟩).timeline = r.timeline ++ (if lp < e.nid then [e] else []) := by
        intro t ht
        rcases hN with hN | hN
        · obtain ⟨p1, p2, p3, p4⟩ := process_new h1 h2 ⟨t, e⟩ ht hN
          exact ⟨e.nid, p2, p3, hlast rfl, p4, p1⟩
        · obtain ⟨p1, p2⟩ := process_old (room := room) (r := r) ⟨t, e⟩ (by show e.nid ≤ _; omega)
          refine ⟨N, by rw [p2]; exact h1, by rw [p2]; exact h2, hkeep, by rw [p2]; omega, ?_⟩
          rw [p1, if_neg (by omega)]; simp
      have fe : ∀ b : Bool, List.filter (fun e => (decide (e.room = room) || (decide (e.child = some room) && joined room)) && decide (lp < e.nid)) [e] =
          if (decide (e.room = room) || (decide (e.child = some room) && joined room)) = true then (if lp < e.nid then [e] else []) else [] := by
        intro _
        by_cases hb : (decide (e.room = room) || (decide (e.child = some room) && joined room)) = true
        · by_cases hl : lp < e.nid <;> simp [hb, hl]
        · simp only [List.filter_cons, hb, Bool.false_and]; simp
      rw [fe true]
      have finish : ∀ t, t = room → (decide (e.room = room) || (decide (e.child = some room) && joined room)) = true →
          ∃ N, lp ≤ (process room r ⟨t, e⟩).lp ∧ (process room r ⟨t, e⟩).lp ≤ max lp N ∧ (N = 0 ∨ ∃ e' ∈ l ++ [e], e'.nid = N) ∧
            (process room r ⟨t, e⟩).timeline = r.timeline ++
              if (decide (e.room = room) || (decide (e.child = some room) && joined room)) = true then (if lp < e.nid then [e] else []) else [] := by
        intro t ht hb
        obtain ⟨N', p1, p2, p3, _, p5⟩ := one t ht
        exact ⟨N', p1, p2, p3, by rw [p5, if_pos hb]⟩
      have none' : ¬ (decide (e.room = room) || (decide (e.child = some room) && joined room)) = true →
          ∃ N, lp ≤ r.lp ∧ r.lp ≤ max lp N ∧ (N = 0 ∨ ∃ e' ∈ l ++ [e], e'.nid = N) ∧
            r.timeline = r.timeline ++
              if (decide (e.room = room) || (decide (e.child = some room) && joined room)) = true then (if lp < e.nid then [e] else []) else [] := by
        intro hb
        exact ⟨N, h1, h2, hkeep, by rw [if_neg hb]; simp⟩
      have own : (∀ c, e.child = some c → joined c = false) → updates joined e = [⟨e.room, e⟩] := by
        intro h
        unfold updates
        cases hc : e.child with
        | none => rfl
        | some c => simp only; rw [h c hc]; rfl
      by_cases hown : ∀ c, e.child = some c → joined c = false
      · rw [own hown]
        simp only [List.foldl_cons, List.foldl_nil]
        by_cases hr : e.room = room
        · exact finish e.room hr (by simp [hr])
        · rw [skip_target (u := ⟨e.room, e⟩) hr]
          refine none' ?_
          simp only [hr, decide_false, Bool.false_or, Bool.and_eq_true, decide_eq_true_eq]
          rintro ⟨h, h'⟩; rw [hown room h] at h'; cases h'
      · obtain ⟨c, hc, hj⟩ : ∃ c, e.child = some c ∧ joined c = true := by
          cases hc : e.child with
          | none => exact absurd (fun c h => by rw [hc] at h; cases h) hown
          | some c =>
            refine ⟨c, rfl, ?_⟩
            cases hj : joined c with
            | true => rfl
            | false => exact absurd (fun c' h => by rw [hc] at h; cases h; exact hj) hown
        have hu : updates joined e = [⟨c, e⟩, ⟨e.room, e⟩] := by simp [updates, hc, hj]
        rw [hu]
        simp only [List.foldl_cons, List.foldl_nil]
        by_cases hcr : c = room
        · have hb : (decide (e.room = room) || (decide (e.child = some room) && joined room)) = true := by
            rw [hc, hcr] ; rw [hcr] at hj; simp [hj]
          obtain ⟨N', p1, p2, p3, p4, p5⟩ := one c hcr
          have hsame : (process room (process room r ⟨c, e⟩) ⟨e.room, e⟩).timeline = (process room r ⟨c, e⟩).timeline ∧
              (process room (process room r ⟨c, e⟩) ⟨e.room, e⟩).lp = (process room r ⟨c, e⟩).lp := process_old _ p4
          rw [hsame.1, hsame.2]
          exact ⟨N', p1, p2, p3, by rw [p5, if_pos hb]⟩
        · rw [skip_target (u := ⟨c, e⟩) hcr]
          by_cases hr : e.room = room
          · exact finish e.room hr (by simp [hr])
          · rw [skip_target (u := ⟨e.room, e⟩) hr]
            refine none' ?_
            simp [hr, hc, hcr]
  obtain ⟨_, _, _, _, h⟩ := key
  exact h

/-- The example: two rooms, a message held back and released, a state event of a space about a room the user is not in. -/
example : Ascending [.event { nid := 3, room := "!a", sender := "@u" }, .event { nid := 4, room := "!b", state := true, child := some "!x" },
      .release "!a" 3] ∧
    NoSpace (fun r => r = "!a" || r = "!b") [.event { nid := 3, room := "!a", sender := "@u" },
      .event { nid := 4, room := "!b", state := true, child := some "!x" }, .release "!a" 3] := by
  constructor
  · unfold Ascending; decide
  · intro e he c hc
    simp only [dispatched, List.filterMap_cons, List.filterMap_nil, List.mem_cons, List.not_mem_nil, or_false] at he
    rcases he with rfl | rfl
    · cases hc
    · cases hc; decide

/-- The event that puts a room into a space is in the timeline of the room, although it is an event of the space. -/
theorem C99_violated_foreign :
    ∃ e ∈ (sent "!c" 5 (run "@u" true (fun _ => true) [.event { nid := 6, room := "!s", state := true, child := some "!c" }]).published).timeline,
      e.room ≠ "!c" :=
  ⟨{ nid := 6, room := "!s", state := true, child := some "!c" }, by decide +kernel, by decide⟩

theorem published_grows (user : String) (delay : Bool) (joined : String → Bool) (ops ops' : List Op) :
    (run user delay joined ops).published <+: (run user delay joined (ops ++ ops')).published := by
  induction ops' using Util.snocRec with
  | nil => simp
  | append_singleton ops' o ih =>
    rw [← List.append_assoc, run_snoc]
    refine ih.trans ?_
    have hin : ∀ (us : List Upd) (w : Waiter), w.published <+: (us.foldl (ingest user delay) w).published := by
      intro us
      induction us with
      | nil => intro w; exact List.prefix_refl _
      | cons u us ih =>
        intro w
        refine List.IsPrefix.trans ?_ (ih _)
        unfold ingest
        split
        · exact List.prefix_append _ _
        · split
          · exact List.prefix_refl _
          · split
            · exact List.prefix_refl _
            · exact List.prefix_append _ _
    cases o with
    | event e => exact hin _ _
    | release room nid =>
      show _ <+: (publishUpTo _ room nid).published
      unfold publishUpTo
      split
      · exact List.prefix_refl _
      · exact List.prefix_append _ _

/-- What is at or behind the position of a room and was not sent is never in its timeline, whatever happens next. -/
theorem C99_lost (user : String) (delay : Bool) (joined : String → Bool) (room : String) (lp : Nat) (ops ops' : List Op) (e : Ev)
    (hp : e.nid ≤ (sent room lp (run user delay joined ops).published).lp)
    (hn : e ∉ (sent room lp (run user delay joined ops).published).timeline) :
    e ∉ (sent room lp (run user delay joined (ops ++ ops')).published).timeline := by
  obtain ⟨rest, hr⟩ := published_grows user delay joined ops ops'
  rw [← hr, sent_append]
  exact never_later _ _ _ _ hp hn

/-- A user's message is held back; meanwhile its room is put into a space, and this moves the position of the room past the message. So
the message is never in the timeline, whatever happens next. -/
theorem C99_violated_lost (ops : List Op) :
    ({ nid := 6, room := "!c", sender := "@u" } : Ev) ∉
      (sent "!c" 5 (run "@u" true (fun _ => true) ([.event { nid := 6, room := "!c", sender := "@u" },
        .event { nid := 7, room := "!s", state := true, child := some "!c" }] ++ ops)).published).timeline := by
  exact C99_lost _ _ _ _ _ [.event { nid := 6, room := "!c", sender := "@u" },
    .event { nid := 7, room := "!s", state := true, child := some "!c" }] ops _ (by decide +kernel) (by decide +kernel)

end Verif.OwnTimeline
