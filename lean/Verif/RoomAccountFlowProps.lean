import Verif.RoomAccountFlow
import Verif.AccountFlowProps
import Verif.ConnFlowProps
/-!
# C125: a client that is up to date has the account data of the rooms it was sent
-/
namespace Verif.RoomAccountFlow
open Verif ConnFlow
open Verif.AccountFlow (Data put view put_view put_append view_append view_nil last_filter last_mem put_some)

/-! ## Specification -/

/-- The client has got every response, and there is nothing left for the connection to do. -/
def CaughtUp (s : State) : Prop :=
  s.c.busy = none ∧ s.bus = [] ∧ s.queue = [] ∧ s.c.pos ≠ 0 ∧ ∃ k, s.c.conn = some k ∧ s.c.pos = k.lastPos

/-- C125 as stated: a client that has caught up and was sent the room has the account data of the room in the table. -/
def Arrives (hash : String → Nat) (user room : String) (ok : Mode) : Prop :=
  ∀ s, Run hash user room ok s → s.sent = true → CaughtUp s → ∀ t d, ⟨user, room, t, d⟩ ∈ s.ded.db → s.c.has t = some d

/-- A poller delivered this as account data of the user for the room. -/
def Delivered (user room : String) (tr : List (DedupAccount.Op × Bool)) (t d : String) : Prop :=
  ∃ es f ok, (DedupAccount.Op.deliver user room es f, ok) ∈ tr ∧ (t, d) ∈ es

/-! ## Rows -/

theorem view_rows (l : List AccountData.Row) (user room t : String) (hu : ∀ r ∈ l, r.user = user ∧ r.room = room) :
    view (l.map fun r => (r.type, r.data)) t = AccountData.last l (user, room, t) := by
  unfold view AccountData.last
  rw [List.filter_map, List.getLast?_map, Option.map_map]
  congr 1
  congr 1
  apply List.filter_congr
  intro r hr
  obtain ⟨h1, h2⟩ := hu r hr
  simp [AccountData.Row.triple, h1, h2]

theorem view_for (db : List AccountData.Row) (user room t : String) (types : List String) :
    view (rowsFor db user room types) t = if t ∈ types then AccountData.last db (user, room, t) else none := by
  unfold rowsFor AccountData.select
  rw [view_rows _ user room]
  · split
    · rename_i ht
      apply last_filter
      intro r _ h
      simp only [AccountData.Row.triple, Prod.mk.injEq] at h
      simp [h.1, h.2.1, h.2.2, ht]
    · rename_i ht
      unfold AccountData.last
      rw [List.filter_eq_nil_iff.2]
      · rfl
      · intro r hr h
        have hr := (List.mem_filter.1 hr).2
        simp only [AccountData.Row.triple, Prod.mk.injEq, decide_eq_true_eq] at h
        simp only [Bool.and_eq_true, List.contains_iff_mem] at hr
        exact ht (h.2.2 ▸ hr.1.2)
  · intro r hr
    have := (List.mem_filter.1 hr).2
    simp only [Bool.and_eq_true, decide_eq_true_eq] at this
    exact ⟨this.1.1, this.2⟩

theorem view_room (db : List AccountData.Row) (user room t : String) :
    view (roomRows db user room) t = AccountData.last db (user, room, t) := by
  unfold roomRows AccountData.selectMany
  rw [if_neg (by simp), view_rows _ user room]
  · apply last_filter
    intro r _ h
    simp only [AccountData.Row.triple, Prod.mk.injEq] at h
    simp [h.1, h.2.1]
  · intro r hr
    have := (List.mem_filter.1 hr).2
    simpa using this

theorem view_initial (db : List AccountData.Row) (user room t : String) {inScope : String → Bool} {rooms : List String}
    (hin : inScope room = true) (hr : room ∈ rooms) :
    view (initialRows db user room inScope rooms) t = AccountData.last db (user, room, t) := by
  have hm : room ∈ Extensions.queryRooms inScope rooms :=
    List.mem_append_left _ (List.mem_filter.2 ⟨hr, hin⟩)
  have hl : (Extensions.queryRooms inScope rooms).length > 0 := List.length_pos_of_mem hm
  unfold initialRows AccountData.selectMany
  simp only [hl, if_true]
  rw [if_neg (by omega), view_rows _ user room]
  · rw [last_filter, last_filter]
    · intro r _ h
      simp only [AccountData.Row.triple, Prod.mk.injEq] at h
      simp [h.1, h.2.1, hm]
    · intro r _ h
      simp only [AccountData.Row.triple, Prod.mk.injEq] at h
      simp [h.2.1]
  · intro r hr
    obtain ⟨h1, h2⟩ := List.mem_filter.1 hr
    have h3 := (List.mem_filter.1 h1).2
    simp only [Bool.and_eq_true, decide_eq_true_eq] at h2 h3
    exact ⟨h3.1, h2⟩

theorem rowsFor_mem {db : List AccountData.Row} {user room : String} {types : List String} {e : String × String}
    (h : e ∈ rowsFor db user room types) : ⟨user, room, e.1, e.2⟩ ∈ db := by
  unfold rowsFor AccountData.select at h
  obtain ⟨r, hr, rfl⟩ := List.mem_map.1 h
  obtain ⟨h1, h2⟩ := List.mem_filter.1 hr
  simp only [Bool.and_eq_true, decide_eq_true_eq] at h2
  obtain ⟨u, rm, t, d⟩ := r
  obtain ⟨⟨rfl, _⟩, rfl⟩ := h2
  exact h1

theorem roomRows_mem {db : List AccountData.Row} {user room : String} {e : String × String}
    (h : e ∈ roomRows db user room) : ⟨user, room, e.1, e.2⟩ ∈ db := by
  unfold roomRows AccountData.selectMany at h
  rw [if_neg (by simp)] at h
  obtain ⟨r, hr, rfl⟩ := List.mem_map.1 h
  obtain ⟨h1, h2⟩ := List.mem_filter.1 hr
  obtain ⟨u, rm, t, d⟩ := r
  simp only [Bool.and_eq_true, decide_eq_true_eq, List.contains_iff_mem, List.mem_singleton] at h2
  obtain ⟨rfl, rfl⟩ := h2
  exact h1

theorem initialRows_mem {db : List AccountData.Row} {user room : String} {inScope : String → Bool} {rooms : List String} {e : String × String}
    (h : e ∈ initialRows db user room inScope rooms) : ⟨user, room, e.1, e.2⟩ ∈ db := by
  unfold initialRows at h
  obtain ⟨r, hr, rfl⟩ := List.mem_map.1 h
  obtain ⟨h1, h2⟩ := List.mem_filter.1 hr
  obtain ⟨u, rm, t, d⟩ := r
  simp only [decide_eq_true_eq] at h2
  subst h2
  split at h1
  · rename_i hl
    unfold AccountData.selectMany at h1
    rw [if_neg (by omega)] at h1
    obtain ⟨h4, h3⟩ := List.mem_filter.1 h1
    simp only [Bool.and_eq_true, decide_eq_true_eq] at h3
    obtain ⟨rfl, _⟩ := h3
    exact h4
  · cases h1

/-! ## Invariant -/

/-- The account data in the channel, in order. -/
def data : List Item → Data
  | [] => []
  | .data d :: q => d ++ data q
  | .room :: q => data q
  | .other :: q => data q

theorem data_append (a b : List Item) : data (a ++ b) = data a ++ data b := by
  induction a with
  | nil => rfl
  | cons i a ih => cases i <;> simp [data, ih, List.append_assoc]

/-- The client will have the value of the type, unless another payload is on its way. -/
structure Due (s : State) (t v : String) : Prop where
  queue : view (data s.queue) t = none ∨ view (data s.queue) t = some v
  client : s.sent = true → s.c.Away ∨ ∃ k, s.c.conn = some k ∧ put (s.c.view put k) (data s.queue) t = some v

structure Inv (user room : String) (s : State) : Prop where
  ci : CI s.c
  keys : (s.ded.db.map AccountData.Row.triple).Nodup
  none : s.c.conn = none → s.queue = []
  due : ∀ t v, AccountData.last s.ded.db (user, room, t) = some v →
    (∃ p ∈ s.bus, p.1 = user ∧ p.2.1 = room ∧ t ∈ p.2.2) ∨ Due s t v

variable {hash : String → Nat} {user room : String}

theorem put_nil (h : String → Option String) : put h [] = h := rfl

/-- What is put into the response comes after what was there. -/
theorem view_out {c : Client Data (String → Option String)} {b : Busy Data} (hb : c.busy = some b) (x : Data) (k : Conn.State Nat Data) :
    ({ c with busy := c.busy.map fun b => { b with out := b.out ++ x } } : Client _ _).view put k = put (c.view put k) x := by
  unfold Client.view Client.doing
  rw [hb]
  simp only [Option.map_some, List.foldl_append, List.foldl_cons, List.foldl_nil, put_append]

theorem out_ci {c : Client Data (String → Option String)} (h : CI c) {b : Busy Data} (hb : c.busy = some b) (o : Data) :
    CI ({ c with busy := c.busy.map fun b => { b with out := o } } : Client _ _) := by
  rw [hb]
  exact swap_ci h hb o

theorem out_eq {c : Client Data (String → Option String)} {b : Busy Data} (hb : c.busy = some b) (x : Data) :
    ({ c with busy := c.busy.map fun b' => { b' with out := b.out ++ x } } : Client _ _) =
      { c with busy := c.busy.map fun b => { b with out := b.out ++ x } } := by
  rw [hb]; rfl

/-- What the extension does with an update is to add something at the end. -/
theorem live_app (db : List AccountData.Row) (user room : String) (there readOk loaded : Bool) (out : Data) (i : Item) :
    ∃ x, (live db user room there readOk out loaded i).1 = out ++ x ∧
      (x = data [i] ∨ (i = .room ∧ x = roomRows db user room)) := by
  cases i with
  | data d => exact ⟨d, rfl, Or.inl (by simp [data])⟩
  | other => exact ⟨[], by simp [live], Or.inl rfl⟩
  | room =>
    show ∃ x, (if !there then (out, loaded) else if loaded then (out, loaded) else if !readOk then (out, loaded)
      else if (roomRows db user room).length > 0 then (out ++ roomRows db user room, true) else (out, loaded) : Data × Bool).1 = out ++ x ∧ _
    by_cases h1 : (!there) = true
    · rw [if_pos h1]; exact ⟨[], by simp, Or.inl rfl⟩
    rw [if_neg h1]
    by_cases h2 : loaded = true
    · rw [if_pos h2]; exact ⟨[], by simp, Or.inl rfl⟩
    rw [if_neg h2]
    by_cases h3 : (!readOk) = true
    · rw [if_pos h3]; exact ⟨[], by simp, Or.inl rfl⟩
    rw [if_neg h3]
    by_cases h4 : (roomRows db user room).length > 0
    · rw [if_pos h4]; exact ⟨_, rfl, Or.inr ⟨rfl, rfl⟩⟩
    · rw [if_neg h4]; exact ⟨[], by simp, Or.inl rfl⟩

theorem live_plain {db : List AccountData.Row} {user room : String} {out : Data} {i : Item} {loaded : Bool} (h : plain i loaded = true) :
    i = .room ∧ (live db user room true true out loaded i).1 = out ++ roomRows db user room := by
  cases i with
  | data d => cases h
  | other => cases h
  | room =>
    have h : loaded = false := by simpa [plain] using h
    subst h
    refine ⟨rfl, ?_⟩
    unfold live
    simp only [Bool.not_true, Bool.false_eq_true, if_false]
    split
    · rfl
    · rename_i h
      have h : roomRows db user room = [] := List.eq_nil_of_length_eq_zero (by omega)
      rw [h]; simp

theorem handle_inv {s : State} (h : Inv user room s) {p : String × String × List String} {bus : List (String × String × List String)}
    (hb : s.bus = p :: bus) : Inv user room (handle user room { s with bus := bus } p true) := by
  have hold : ∀ t v, AccountData.last s.ded.db (user, room, t) = some v → ¬ (p.1 = user ∧ p.2.1 = room ∧ t ∈ p.2.2) →
      (∃ p ∈ bus, p.1 = user ∧ p.2.1 = room ∧ t ∈ p.2.2) ∨ Due s t v := by
    intro t v hv hp
    rcases h.due t v hv with ⟨p', hm, h1⟩ | h1
    · rw [hb] at hm
      rcases List.mem_cons.1 hm with rfl | hm
      · exact absurd h1 hp
      · exact Or.inl ⟨p', hm, h1⟩
    · exact Or.inr h1
  unfold handle
  dsimp only
  split
  · rename_i hc
    simp only [Bool.and_eq_true, decide_eq_true_eq, Bool.and_true] at hc
    obtain ⟨⟨⟨hconn, hu⟩, hr⟩, _⟩ := hc
    refine ⟨h.ci, h.keys, (fun hn => by have hn : s.c.conn = Option.none := hn; rw [hn] at hconn; cases hconn), ?_⟩
    intro t v hv
    have hx := view_for s.ded.db user room t p.2.2
    by_cases ht : t ∈ p.2.2
    · rw [if_pos ht] at hx
      right
      have hv : AccountData.last s.ded.db (user, room, t) = some v := hv
      rw [hv] at hx
      obtain ⟨k, hk⟩ := Option.isSome_iff_exists.1 hconn
      refine ⟨Or.inr ?_, fun _ => Or.inr ⟨k, hk, ?_⟩⟩
      · show view (data (s.queue ++ _)) t = _
        rw [data_append, view_append]
        simp only [data, List.append_nil, hx, Option.some_or]
      · show put _ (data (s.queue ++ _)) t = _
        rw [data_append, put_append, put_view]
        simp only [data, List.append_nil, hx, Option.some_or]
    · rw [if_neg ht] at hx
      rcases hold t v hv (fun hp => ht hp.2.2) with h1 | h1
      · exact Or.inl h1
      · right
        refine ⟨?_, fun hs => ?_⟩
        · show view (data (s.queue ++ _)) t = _ ∨ view (data (s.queue ++ _)) t = _
          rw [data_append, view_append]
          simp only [data, List.append_nil, hx, Option.none_or]
          exact h1.queue
        · rcases h1.client hs with h2 | ⟨k, hk, h2⟩
          · exact Or.inl h2
          · refine Or.inr ⟨k, hk, ?_⟩
            show put _ (data (s.queue ++ _)) t = _
            rw [data_append, put_append, put_view]
            simp only [data, List.append_nil, hx, Option.none_or]
            exact h2
  · rename_i hc
    refine ⟨h.ci, h.keys, h.none, ?_⟩
    intro t v hv
    by_cases hp : p.1 = user ∧ p.2.1 = room ∧ t ∈ p.2.2
    · right
      have hx := view_for s.ded.db user room t p.2.2
      have hv' : AccountData.last s.ded.db (user, room, t) = some v := hv
      rw [if_pos hp.2.2, hv'] at hx
      have hne : rowsFor s.ded.db user room p.2.2 ≠ [] := by
        intro h0; rw [h0] at hx; cases hx
      have hn : s.c.conn = Option.none := by
        rcases Option.eq_none_or_eq_some s.c.conn with h0 | ⟨k, h0⟩
        · exact h0
        · exfalso; apply hc; simp [h0, hp.1, hp.2.1, hne]
      refine ⟨Or.inl (by rw [show State.queue _ = s.queue from rfl, h.none hn]; rfl), fun _ => Or.inl ⟨?_, Or.inr hn⟩⟩
      rcases Option.eq_none_or_eq_some s.c.busy with h0 | ⟨b, h0⟩
      · exact h0
      · obtain ⟨k, hk, _⟩ := h.ci.busy b h0
        rw [hn] at hk; cases hk
    · rcases hold t v hv hp with h1 | h1
      · exact Or.inl h1
      · exact Or.inr ⟨h1.queue, h1.client⟩

theorem push_inv {s : State} (h : Inv user room s) (i : Item) (hc : s.c.conn.isSome = true) (hi : ∀ d, i ≠ .data d) :
    Inv user room { s with queue := s.queue ++ [i] } := by
  have hd : data (s.queue ++ [i]) = data s.queue := by
    rw [data_append]
    cases i with
    | data d => exact absurd rfl (hi d)
    | room => simp [data]
    | other => simp [data]
  refine ⟨h.ci, h.keys, (fun hn => by have hn : s.c.conn = Option.none := hn; rw [hn] at hc; cases hc), ?_⟩
  intro t v hv
  rcases h.due t v hv with h1 | h1
  · exact Or.inl h1
  · refine Or.inr ⟨?_, fun hs => ?_⟩
    · show view (data (s.queue ++ [i])) t = _ ∨ view (data (s.queue ++ [i])) t = _
      rw [hd]; exact h1.queue
    · show _ ∨ ∃ k, _ ∧ put _ (data (s.queue ++ [i])) t = _
      rw [hd]; exact h1.client hs

theorem ask_inv {s : State} (h : Inv user room s) (body : Nat) (on : Bool) (hb : s.c.busy = none) (hc : s.c.calls body = true) :
    Inv user room (ask s body on) := by
  have hci := serve_ci h.ci (b := ⟨body, on, []⟩) hc
  unfold ask
  dsimp only
  by_cases h0 : s.c.pos = 0
  · rw [if_pos h0]
    refine ⟨hci, h.keys, fun _ => rfl, ?_⟩
    intro t v hv
    rcases h.due t v hv with h1 | h1
    · exact Or.inl h1
    · exact Or.inr ⟨Or.inl rfl, by simp⟩
  · rw [if_neg h0]
    obtain ⟨k, hk, hk', hv'⟩ := serve_later (put := put) (b := ⟨body, on, []⟩) hc h0 hb
    rw [put_nil] at hv'
    refine ⟨hci, h.keys, (fun hn => ?_), ?_⟩
    · have hn : (s.c.serve ⟨body, on, []⟩).conn = Option.none := hn
      rw [hk'] at hn; cases hn
    · intro t v hv
      rcases h.due t v hv with h1 | h1
      · exact Or.inl h1
      · refine Or.inr ⟨h1.queue, fun hs => ?_⟩
        rcases h1.client hs with h2 | ⟨k', h2, h3⟩
        · rcases h2.2 with h2 | h2
          · exact absurd h2 h0
          · rw [hk] at h2; cases h2
        · rw [hk] at h2; cases h2
          refine Or.inr ⟨k, hk', ?_⟩
          show put ((s.c.serve ⟨body, on, []⟩).view put k) _ t = _
          rw [hv']
          exact h3

/-- The response has the value; what is in the channel does not undo it. -/
theorem put_then {has : String → Option String} {x q : Data} {t v : String} (hx : view x t = some v)
    (hq : view q t = none ∨ view q t = some v) : put (put has x) q t = some v := by
  rw [put_view, put_view, hx]
  rcases hq with hq | hq <;> rw [hq] <;> rfl

theorem load_inv {s : State} (h : Inv user room s) {b : Busy Data} {inScope : String → Bool} {rooms : List String} {loaded : Bool}
    (hb : s.c.busy = some b) (hin : inScope room = true) (hr : room ∈ rooms) :
    Inv user room ({ s with stage := true, shown := true, loaded := loaded, sent := true }.out (initialRows s.ded.db user room inScope rooms)) := by
  obtain ⟨k, hk, _⟩ := h.ci.busy b hb
  refine ⟨out_ci h.ci hb _, h.keys, h.none, ?_⟩
  intro t v hv
  rcases h.due t v hv with h1 | h1
  · exact Or.inl h1
  · refine Or.inr ⟨h1.queue, fun _ => Or.inr ⟨k, hk, ?_⟩⟩
    have e : (State.out { s with stage := true, shown := true, loaded := loaded, sent := true }
        (initialRows s.ded.db user room inScope rooms)).c.view put k =
        put ((unacked s.c.pos k.buf).foldl put s.c.has) (initialRows s.ded.db user room inScope rooms) := by
      unfold State.out Client.view Client.doing
      rw [hb]
      simp only [Option.map_some, List.foldl_append, List.foldl_cons, List.foldl_nil]
    rw [e]
    exact put_then ((view_initial _ _ _ _ hin hr).trans hv) h1.queue

theorem take_inv {s : State} (h : Inv user room s) {b : Busy Data} {i : Item} {q : List Item} (there : Bool)
    (hb : s.c.busy = some b) (hq : s.queue = i :: q) :
    Inv user room ({ s with
        queue := q
        shown := there
        loaded := (live s.ded.db user room there true b.out s.loaded i).2
        sent := s.sent || there && (false || plain i s.loaded) }.out
      (live s.ded.db user room there true b.out s.loaded i).1) := by
  obtain ⟨k, hk, _⟩ := h.ci.busy b hb
  have hd : data s.queue = data [i] ++ data q := by
    rw [hq, ← List.singleton_append, data_append]
  refine ⟨out_ci h.ci hb _, h.keys, (fun hn => by have hn : s.c.conn = Option.none := hn; rw [hk] at hn; cases hn), ?_⟩
  intro t v hv
  have hv : AccountData.last s.ded.db (user, room, t) = some v := hv
  rcases h.due t v hv with h1 | h1
  · exact Or.inl h1
  · right
    have hq2 : view (data q) t = none ∨ view (data q) t = some v := by
      have := h1.queue
      rw [hd, view_append] at this
      cases hc : view (data q) t with
      | none => exact Or.inl rfl
      | some w => rw [hc] at this; simpa using this
    refine ⟨hq2, fun hs => Or.inr ⟨k, hk, ?_⟩⟩
    have hs : (s.sent || there && (false || plain i s.loaded)) = true := hs
    have e : ∀ x, (State.out { s with
        queue := q
        shown := there
        loaded := (live s.ded.db user room there true b.out s.loaded i).2
        sent := s.sent || there && (false || plain i s.loaded) } (b.out ++ x)).c.view put k = put (s.c.view put k) x := by
      intro x
      unfold State.out
      dsimp only
      rw [out_eq hb, view_out hb]
    show put (Client.view put _ k) (data q) t = some v
    rw [Bool.or_eq_true] at hs
    by_cases hp : there = true ∧ plain i s.loaded = true
    · obtain ⟨h2, h3⟩ := live_plain (db := s.ded.db) (user := user) (room := room) (out := b.out) hp.2
      have ht := hp.1
      subst ht
      rw [h3, e]
      exact put_then ((view_room _ _ _ _).trans hv) hq2
    · have hs : s.sent = true := by
        rcases hs with hs | hs
        · exact hs
        · simp only [Bool.false_or, Bool.and_eq_true] at hs
          exact absurd hs hp
      obtain ⟨x, h2, h3⟩ := live_app s.ded.db user room there true s.loaded b.out i
      rw [h2, e]
      rcases h3 with h3 | ⟨rfl, h3⟩
      · rw [h3, ← put_append, ← hd]
        rcases h1.client hs with h4 | ⟨k', h4, h5⟩
        · rw [h4.1] at hb; cases hb
        · rw [hk] at h4; cases h4
          exact h5
      · rw [h3]
        exact put_then ((view_room _ _ _ _).trans hv) hq2

theorem drop_inv {s : State} (h : Inv user room s) {b : Busy Data} {i : Item} {q : List Item} (there : Bool)
    (hb : s.c.busy = some b) (hq : s.queue = i :: q) :
    Inv user room { s with queue := q, shown := there, sent := s.sent && !i.isData } := by
  obtain ⟨k, hk, _⟩ := h.ci.busy b hb
  have hd : data s.queue = data [i] ++ data q := by
    rw [hq, ← List.singleton_append, data_append]
  refine ⟨h.ci, h.keys, (fun hn => by have hn : s.c.conn = Option.none := hn; rw [hk] at hn; cases hn), ?_⟩
  intro t v hv
  rcases h.due t v hv with h1 | h1
  · exact Or.inl h1
  · right
    refine ⟨?_, fun hs => ?_⟩
    · show view (data q) t = _ ∨ view (data q) t = _
      have := h1.queue
      rw [hd, view_append] at this
      cases hc : view (data q) t with
      | none => exact Or.inl rfl
      | some w => rw [hc] at this; simpa using this
    · have hs : (s.sent && !i.isData) = true := hs
      have hq' : data s.queue = data q := by
        cases i with
        | data d => simp [Item.isData] at hs
        | room => rw [hd]; rfl
        | other => rw [hd]; rfl
      rw [Bool.and_eq_true] at hs
      have := h1.client hs.1
      rw [hq'] at this
      exact this

theorem again_inv {s : State} (h : Inv user room s) (body : Nat) (arrives : Bool) (hb : s.c.busy = none) (hc : s.c.calls body = false) :
    Inv user room { s with c := s.c.repeated put body arrives } := by
  have hr := repeated_cases (put := put) h.ci hb hc arrives
  refine ⟨repeated_ci h.ci hb hc arrives, h.keys, (fun hn => ?_), ?_⟩
  · apply h.none
    obtain ⟨_, ⟨_, _, h4⟩ | ⟨k, d, r, _, _, h4, _⟩⟩ := hr
    · exact h4.symm.trans hn
    · have hn : (s.c.repeated put body arrives).conn = Option.none := hn
      rw [h4] at hn; cases hn
  · intro t v hv
    rcases h.due t v hv with hd | hd
    · exact Or.inl hd
    · refine Or.inr ⟨hd.queue, fun hs => ?_⟩
      rcases repeated_view (put := put) h.ci hb hc arrives with h1 | ⟨k, k', h1, h2, h3⟩
      · exact Or.inl h1
      · rcases hd.client hs with h4 | ⟨k0, h4, h6⟩
        · left
          rcases h4.2 with h4 | h4
          · rcases hr with ⟨hbusy, ⟨_, h7, _⟩ | ⟨_, _, _, _, hp, _⟩⟩
            · refine ⟨hbusy, Or.inl ?_⟩
              rcases h7 with h7 | h7
              · exact h7
              · show (s.c.repeated put body arrives).pos = 0
                rw [h7]; exact h4
            · exact absurd h4 hp
          · rw [h4] at h1; cases h1
        · rw [h4] at h1; cases h1
          refine Or.inr ⟨k', h2, ?_⟩
          show put ((s.c.repeated put body arrives).view put k') _ t = _
          rw [h3]
          exact h6

theorem done_inv {s : State} (h : Inv user room s) {b : Busy Data} (hb : s.c.busy = some b) (fails arrives : Bool)
    (hf : fails = true → s.c.pos = 0 ∨ b.out = []) : Inv user room { s with c := s.c.finish put b fails arrives } := by
  have hci := finish_ci (put := put) h.ci hb fails arrives
  have hbusy := finish_busy (put := put) h.ci hb fails arrives
  obtain ⟨k, hk, _⟩ := h.ci.busy b hb
  have key : ((s.c.finish put b fails arrives).Away ∨
      ∃ k', (s.c.finish put b fails arrives).conn = some k' ∧ (s.c.finish put b fails arrives).view put k' = s.c.view put k) ∧
      (s.c.finish put b fails arrives).conn ≠ Option.none := by
    cases fails with
    | false =>
      obtain ⟨k0, k', h1, h2, h3⟩ := finish_view (put := put) h.ci hb arrives
      rw [hk] at h1; cases h1
      exact ⟨Or.inr ⟨k', h2, h3⟩, by rw [h2]; simp⟩
    | true =>
      obtain ⟨k0, k', h1, h2, h3, h4⟩ := finish_failed (put := put) h.ci hb arrives
      rw [hk] at h1; cases h1
      refine ⟨?_, by rw [h2]; simp⟩
      rcases hf rfl with h0 | h0
      · exact Or.inl ⟨hbusy, Or.inl (h3.trans h0)⟩
      · refine Or.inr ⟨k', h2, h4.trans ?_⟩
        unfold Client.view Client.doing
        rw [hb]
        simp only [List.foldl_append, List.foldl_cons, List.foldl_nil, h0, put_nil]
  obtain ⟨h1, h2⟩ := key
  refine ⟨hci, h.keys, (fun hn => absurd hn h2), ?_⟩
  intro t v hv
  rcases h.due t v hv with hd | hd
  · exact Or.inl hd
  · refine Or.inr ⟨hd.queue, fun hs => ?_⟩
    rcases h1 with h1 | ⟨k', h1, h3⟩
    · exact Or.inl h1
    · rcases hd.client hs with h4 | ⟨k0, h4, h6⟩
      · rw [h4.1] at hb; cases hb
      · rw [hk] at h4; cases h4
        refine Or.inr ⟨k', h1, ?_⟩
        show put ((s.c.finish put b fails arrives).view put k') _ t = _
        rw [h3]
        exact h6

theorem stored_inv {s : State} (h : Inv user room s) {u r : String} {kept : List (String × String)} {mem : List (String × Nat)}
    {db' out : List AccountData.Row} {tr : List (DedupAccount.Op × Bool)}
    (hi : AccountData.InsertAccountData s.ded.db u r kept (some (db', out))) :
    Inv user room { s with tr := tr, ded := { mem := mem, db := db' }, bus := s.bus ++ [(u, r, out.map (·.type))] } := by
  obtain ⟨d, o, e, h1, h2, _, h4⟩ := AccountData.insert_spec h.keys (AccountData.single_scope_inj u r _) hi
  cases e
  refine ⟨h.ci, h1, h.none, ?_⟩
  intro t v hv
  have hv : AccountData.last db' (user, room, t) = some v := hv
  rw [h2] at hv
  cases hl : AccountData.last (kept.map fun e => (⟨u, r, e.1, e.2⟩ : AccountData.Row)) (user, room, t) with
  | none =>
    rw [hl] at hv
    rcases h.due t v hv with ⟨p, hp, h⟩ | h
    · exact Or.inl ⟨p, List.mem_append_left _ hp, h⟩
    · exact Or.inr ⟨h.queue, h.client⟩
  | some w =>
    left
    obtain ⟨x, hx, hxt, _⟩ := last_mem hl
    obtain ⟨y, hy, hyt, _⟩ := last_mem ((h4 _).trans hl)
    obtain ⟨e, _, rfl⟩ := List.mem_map.1 hx
    simp only [AccountData.Row.triple, Prod.mk.injEq] at hxt hyt
    exact ⟨_, List.mem_append_right _ (List.mem_singleton.2 rfl), hxt.1, hxt.2.1, List.mem_map.2 ⟨y, hy, hyt.2.2⟩⟩

theorem run_inv {s : State} (h : Run hash user room Mode.good s) : Inv user room s := by
  induction h with
  | start => exact ⟨start_ci _, List.nodup_nil, fun _ => rfl, fun t v hv => by simp [AccountData.last] at hv⟩
  | @quiet s u r es f res d _ hd hn ih =>
    have e := AccountFlow.quiet_db hd hn
    refine ⟨ih.ci, by rw [show State.ded _ = d from rfl, e]; exact ih.keys, ih.none, ?_⟩
    intro t v hv
    rw [show State.ded _ = d from rfl, e] at hv
    rcases ih.due t v hv with h | h
    · exact Or.inl h
    · exact Or.inr ⟨h.queue, h.client⟩
  | stored _ hn hi ih => exact stored_inv ih hi
  | handle readOk _ hb hr ih =>
    rw [hr id]
    exact handle_inv ih hb
  | push i _ hc hi ih => exact push_inv ih i hc hi
  | again body arrives _ hb hc ih => exact again_inv ih body arrives hb hc
  | ask body on _ hb hc ih => exact ask_inv ih body on hb hc
  | pass shown _ hb _ ih =>
    refine ⟨ih.ci, ih.keys, ih.none, fun t v hv => ?_⟩
    rcases ih.due t v hv with h | h
    · exact Or.inl h
    · exact Or.inr ⟨h.queue, h.client⟩
  | load inScope rooms readOk _ hb _ _ hin hr hk ih =>
    rw [hk id]
    exact load_inv ih hb hin hr
  | take there readOk odd _ hb _ hq _ _ hk ho ih =>
    rw [hk id, ho id]
    exact take_inv ih there hb hq
  | drop there _ hb _ hq _ ih => exact drop_inv ih there hb hq
  | done fails arrives _ hb _ hf ih => exact done_inv ih hb fails arrives (hf id)
  | @lose s _ ih =>
    refine ⟨lose_ci ih.ci, ih.keys, fun _ => rfl, fun t v hv => ?_⟩
    rcases ih.due t v hv with h | h
    · exact Or.inl h
    · exact Or.inr ⟨Or.inl rfl, by simp⟩
  | @restart s _ ih =>
    exact ⟨lose_ci ih.ci, ih.keys, fun _ => rfl, fun t v hv => Or.inr ⟨Or.inl rfl, by simp⟩⟩

/-- **C125** (partial). Once the connection has sent the room, and the room has been in scope whenever account data of it was taken from
the channel, a client that has got every response has the account data of the room in the table – if the table can be read and
later requests do not fail. Whatever is lost on the way to the client or repeated, however deliveries, requests, reconnections and restarts
interleave. A room that is sent because of an update counts only if the update is one of the room, is not account data, and
no account data of the room is in the response before. Missing: the cases of the violations below. -/
theorem C125_partial (hash : String → Nat) (user room : String) : Arrives hash user room Mode.good := by
  intro s h hs ⟨hb, hbus, hq, h0, k, hk, hp⟩ t d hrow
  have hi := run_inv h
  have hl : AccountData.last s.ded.db (user, room, t) = some d := (AccountData.last_iff hi.keys _ _).2 ⟨_, hrow, rfl, rfl⟩
  rcases hi.due t d hl with ⟨p, hm, _⟩ | h1
  · rw [hbus] at hm; cases hm
  · rcases h1.client hs with h2 | ⟨k', h2, h3⟩
    · rcases h2.2 with h2 | h2
      · exact absurd h2 h0
      · rw [hk] at h2; cases h2
    · rw [hk] at h2; cases h2
      unfold Client.view Client.doing at h3
      rw [unacked_last (hi.ci.conn k hk) (by omega), hb, hq] at h3
      exact h3

theorem ded_run {ok : Mode} {s : State} (h : Run hash user room ok s) : DedupAccount.Run hash s.tr s.ded := by
  induction h with
  | start => exact .nil
  | quiet _ h1 _ ih => exact ih.snoc h1
  | stored _ hn hi ih => exact ih.snoc (.stored hn hi)
  | restart _ ih => exact ih.snoc .restart
  | @handle s p bus readOk _ hb _ ih =>
    unfold handle
    split <;> exact ih
  | ask body on _ hb hc ih =>
    unfold ask
    dsimp only
    split <;> exact ih
  | _ => assumption

/-- **C125** (partial, as above, and as C52 is): with what the pollers delivered. The client has the value delivered last by a call that
reported success. -/
theorem C125_delivered_partial (hash : String → Nat) (user room : String) (s : State) (h : Run hash user room Mode.good s)
    (hs : s.sent = true) (hc : CaughtUp s) (t d : String) (hr : DedupAccount.Restarts user room t s.tr)
    (hk : DedupAccount.OwnKey user room t s.tr) (hn : DedupAccount.NoCollision hash user room t s.tr)
    (hl : AccountData.LastWritten (DedupAccount.acked s.tr) user room t d) : s.c.has t = some d :=
  C125_partial hash user room s h hs hc t d ((DedupAccount.C52_stored_partial (ded_run h) user room t hr hk hn d).2 hl)

/-! ## Nothing else -/

/-- All of this was delivered. -/
def From (user room : String) (tr : List (DedupAccount.Op × Bool)) (x : Data) : Prop := ∀ e ∈ x, Delivered user room tr e.1 e.2

structure Auth (user room : String) (s : State) : Prop where
  ci : CI s.c
  keys : (s.ded.db.map AccountData.Row.triple).Nodup
  db : ∀ t d, ⟨user, room, t, d⟩ ∈ s.ded.db → Delivered user room s.tr t d
  queue : From user room s.tr (data s.queue)
  all : s.c.All (From user room s.tr)
  has : ∀ t d, s.c.has t = some d → Delivered user room s.tr t d

theorem Delivered.more {tr : List (DedupAccount.Op × Bool)} {t d : String} (h : Delivered user room tr t d)
    (o : DedupAccount.Op × Bool) : Delivered user room (tr ++ [o]) t d := by
  obtain ⟨es, f, ok, h, he⟩ := h
  exact ⟨es, f, ok, List.mem_append_left _ h, he⟩

theorem has_put {tr : List (DedupAccount.Op × Bool)} {h h' : String → Option String} (hd : ∀ t d, h t = some d → Delivered user room tr t d)
    (hh : h' = h ∨ ∃ x, From user room tr x ∧ h' = put h x) : ∀ t d, h' t = some d → Delivered user room tr t d := by
  rcases hh with rfl | ⟨x, hx, rfl⟩
  · exact hd
  · intro t d ht
    rcases put_some ht with ht | ht
    · exact hx _ ht
    · exact hd t d ht

theorem out_all {c : Client Data (String → Option String)} {P : Data → Prop} (h : c.All P) {o : Data} (ho : P o) :
    ({ c with busy := c.busy.map fun b => { b with out := o } } : Client _ _).All P := by
  refine ⟨h.1, ?_⟩
  intro b hb
  obtain ⟨b', _, rfl⟩ := Option.map_eq_some_iff.1 hb
  exact ho

theorem Auth.more {s : State} (h : Auth user room s) (o : DedupAccount.Op × Bool) (mem : List (String × Nat))
    (bus : List (String × String × List String)) :
    Auth user room { s with tr := s.tr ++ [o], ded := { s.ded with mem := mem }, bus := bus } :=
  ⟨h.ci, h.keys, fun t d hh => (h.db t d hh).more o, fun e he => (h.queue e he).more o,
    h.all.mono fun _ hx e he => (hx e he).more o, fun t d hh => (h.has t d hh).more o⟩

theorem run_auth {ok : Mode} {s : State} (h : Run hash user room ok s) : Auth user room s := by
  induction h with
  | start => exact ⟨start_ci _, List.nodup_nil, by simp, (by intro e he; cases he), start_all _ _, by simp⟩
  | @quiet s u r es f res d _ hd hn ih =>
    have e : d = { s.ded with mem := d.mem } := by
      have := AccountFlow.quiet_db hd hn
      cases d; simp only at this; rw [this]
    rw [e]
    exact ih.more _ _ _
  | @stored s u r es db' out _ hn hi ih =>
    have hm := ih.more (.deliver u r es false, true) (es.foldl (DedupAccount.keep hash u r) (s.ded.mem, [])).1 (s.bus ++ [(u, r, out.map (·.type))])
    obtain ⟨d', o, e, h1, h2, _⟩ := AccountData.insert_spec ih.keys (AccountData.single_scope_inj u r _) hi
    cases e
    refine ⟨hm.ci, h1, ?_, hm.queue, hm.all, hm.has⟩
    intro t d hd
    have hl : AccountData.last db' (user, room, t) = some d := (AccountData.last_iff h1 _ _).2 ⟨_, hd, rfl, rfl⟩
    rw [h2] at hl
    rcases Option.or_eq_some_iff.1 hl with hl | ⟨_, hl⟩
    · obtain ⟨x, hx, hxt, hxd⟩ := last_mem hl
      obtain ⟨e, he, rfl⟩ := List.mem_map.1 hx
      simp only [AccountData.Row.triple, Prod.mk.injEq] at hxt hxd
      obtain ⟨rfl, rfl, rfl⟩ := hxt
      subst hxd
      exact ⟨es, false, true, List.mem_append_right _ (List.mem_singleton.2 rfl), DedupAccount.mem_foldl_keep hash _ _ es _ e he⟩
    · obtain ⟨⟨u', r', t', d''⟩, hx, hxt, hxd⟩ := last_mem hl
      simp only [AccountData.Row.triple, Prod.mk.injEq] at hxt hxd
      obtain ⟨rfl, rfl, rfl⟩ := hxt
      subst hxd
      exact hm.db _ _ hx
  | @handle s p bus readOk _ hb _ ih =>
    unfold handle
    dsimp only
    split
    · refine ⟨ih.ci, ih.keys, ih.db, ?_, ih.all, ih.has⟩
      intro e he
      have he : e ∈ data (s.queue ++ [.data (rowsFor s.ded.db user room p.2.2)]) := he
      rw [data_append] at he
      rcases List.mem_append.1 he with he | he
      · exact ih.queue e he
      · simp only [data, List.append_nil] at he
        exact ih.db _ _ (rowsFor_mem he)
    · exact ⟨ih.ci, ih.keys, ih.db, ih.queue, ih.all, ih.has⟩
  | @push s i _ hc hi ih =>
    refine ⟨ih.ci, ih.keys, ih.db, ?_, ih.all, ih.has⟩
    intro e he
    have he : e ∈ data (s.queue ++ [i]) := he
    rw [data_append] at he
    rcases List.mem_append.1 he with he | he
    · exact ih.queue e he
    · cases i with
      | data d => exact absurd rfl (hi d)
      | room => cases he
      | other => cases he
  | again body arrives _ hb hc ih =>
    obtain ⟨h1, h2⟩ := repeated_all (put := put) ih.ci hb hc arrives ih.all
    exact ⟨repeated_ci ih.ci hb hc arrives, ih.keys, ih.db, ih.queue, h1, has_put ih.has h2⟩
  | @ask s body on _ hb hc ih =>
    have h1 := serve_ci ih.ci (b := ⟨body, on, []⟩) hc
    have h2 : (s.c.serve ⟨body, on, []⟩).All (From user room s.tr) := serve_all ih.all (by intro e he; cases he)
    unfold ask
    dsimp only
    split
    · exact ⟨h1, ih.keys, ih.db, (by intro e he; cases he), h2, ih.has⟩
    · exact ⟨h1, ih.keys, ih.db, ih.queue, h2, ih.has⟩
  | pass shown _ hb _ ih => exact ⟨ih.ci, ih.keys, ih.db, ih.queue, ih.all, ih.has⟩
  | load inScope rooms readOk _ hb _ _ hin hr hk ih =>
    refine ⟨out_ci ih.ci hb _, ih.keys, ih.db, ih.queue, out_all ih.all ?_, ih.has⟩
    intro e he
    split at he
    · exact ih.db _ _ (initialRows_mem he)
    · cases he
  | @take s b i q there readOk odd _ hb _ hq _ _ hk ho ih =>
    have hd : data s.queue = data [i] ++ data q := by
      rw [hq, ← List.singleton_append, data_append]
    refine ⟨out_ci ih.ci hb _, ih.keys, ih.db, ?_, out_all ih.all ?_, ih.has⟩
    · intro e he
      apply ih.queue e
      rw [hd]
      exact List.mem_append_right _ he
    · obtain ⟨x, h1, h2⟩ := live_app s.ded.db user room there readOk s.loaded b.out i
      rw [h1]
      intro e he
      rcases List.mem_append.1 he with he | he
      · exact ih.all.2 b hb e he
      · rcases h2 with h2 | ⟨_, h2⟩
        · apply ih.queue e
          rw [hd]
          exact List.mem_append_left _ (h2 ▸ he)
        · rw [h2] at he
          exact ih.db _ _ (roomRows_mem he)
  | @drop s b i q there _ hb _ hq _ ih =>
    refine ⟨ih.ci, ih.keys, ih.db, ?_, ih.all, ih.has⟩
    intro e he
    apply ih.queue e
    rw [hq, ← List.singleton_append, data_append]
    exact List.mem_append_right _ he
  | done fails arrives _ hb _ hf ih =>
    obtain ⟨h1, h2⟩ := finish_all (put := put) ih.ci hb fails arrives ih.all
    exact ⟨finish_ci ih.ci hb fails arrives, ih.keys, ih.db, ih.queue, h1, has_put ih.has h2⟩
  | lose _ ih => exact ⟨lose_ci ih.ci, ih.keys, ih.db, (by intro e he; cases he), lose_all _, ih.has⟩
  | @restart s _ ih =>
    have hm := ih.more (.restart, true) [] []
    exact ⟨lose_ci ih.ci, hm.keys, hm.db, (by intro e he; cases he), lose_all _, hm.has⟩

/-- **C125**: whatever fails, the client has only what a poller delivered as this user's account data for this room. -/
theorem C125_authentic (hash : String → Nat) (user room : String) (ok : Mode) (s : State) (h : Run hash user room ok s) (t d : String)
    (hh : s.c.has t = some d) : Delivered user room s.tr t d := (run_auth h).has t d hh

end Verif.RoomAccountFlow
