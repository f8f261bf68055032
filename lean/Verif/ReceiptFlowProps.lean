import Verif.ReceiptFlow
import Verif.ReceiptsStore
import Verif.ConnFlowProps
/-!
# C124: a client that is up to date has the user's own read receipts
-/
namespace Verif.ReceiptFlow
open Verif ConnFlow Receipts

/-! ## Specification -/

/-- The client has got every response, and there is nothing left for the connection to do. -/
def CaughtUp (s : State) : Prop :=
  s.c.busy = none ∧ s.bus = [] ∧ s.queue = [] ∧ s.c.pos ≠ 0 ∧ ∃ k, s.c.conn = some k ∧ s.c.pos = k.lastPos

/-- The table of public or private receipts. -/
def table (db : DB) (priv : Bool) : List Receipt := if priv then db.priv else db.pub

/-- The event and timestamp of the user's read receipt for the room, not for a thread of it. -/
def current (db : DB) (user room : String) (priv : Bool) : Option (String × Int) := held (table db priv) (room, user, "")

/-! ## Receipts -/

/-- The receipts of the user for the room. -/
def mine (user room : String) (priv : Bool) (l : List Receipt) : List Receipt :=
  l.filter fun r => decide (r.ukey = (room, user, "") ∧ r.priv = priv)

theorem mine_append (user room : String) (priv : Bool) (a b : List Receipt) :
    mine user room priv (a ++ b) = mine user room priv a ++ mine user room priv b := List.filter_append ..

theorem mine_mem {user room : String} {priv : Bool} {l : List Receipt} {r : Receipt} :
    r ∈ mine user room priv l ↔ r ∈ l ∧ r.ukey = (room, user, "") ∧ r.priv = priv := by
  simp [mine, List.mem_filter]

theorem mine_handed (user room : String) (priv : Bool) (p : List Receipt) :
    mine user room priv (handed user p) = mine user room priv p := by
  unfold handed onReceipt mine
  have h2 : ∀ l : List Receipt, (((l.flatMap fun r => [user].map (·, r)).filter fun x : String × Receipt => decide (x.1 = user)).map (·.2)) = l := by
    intro l
    induction l with
    | nil => rfl
    | cons a l ih => simpa using ih
  dsimp only
  rw [List.filter_append, List.map_append, h2, List.filter_append]
  cases priv with
  | true =>
    have e2 : ((p.filter (! ·.priv)).filter fun r => decide (r.ukey = (room, user, "") ∧ r.priv = true)) = [] := by
      rw [List.filter_filter, List.filter_eq_nil_iff]
      intro r _
      cases r.priv <;> simp
    rw [e2, List.append_nil]
    induction p with
    | nil => rfl
    | cons a p ih =>
      by_cases hp : a.priv = true
      · by_cases hu : a.user = user
        · by_cases hk : a.ukey = (room, user, "")
          · simp only [List.filter_cons, hp, if_true, hu, decide_true, List.map_cons, hk, and_self]
            simpa using ih
          · simp only [List.filter_cons, hp, if_true, hu, decide_true, List.map_cons, hk, false_and, decide_false, Bool.false_eq_true, if_false]
            simpa using ih
        · have hk : a.ukey ≠ (room, user, "") := by
            intro h
            exact hu (congrArg (fun x => x.2.1) h)
          simp only [List.filter_cons, hp, if_true, hu, decide_false, Bool.false_eq_true, if_false, hk, false_and]
          simpa using ih
      · simp only [List.filter_cons, hp, Bool.false_eq_true, if_false, and_false, decide_false]
        simpa using ih
  | false =>
    have e1 : ((((((p.filter (·.priv)).filter fun r => decide (r.user = user)).map fun r => (r.user, r)).filter fun x => decide (x.1 = user)).map (·.2)).filter
        fun r => decide (r.ukey = (room, user, "") ∧ r.priv = false)) = [] := by
      rw [List.filter_eq_nil_iff]
      intro r hr
      simp only [List.mem_map, List.mem_filter, decide_eq_true_eq] at hr
      obtain ⟨x, ⟨⟨y, ⟨⟨_, hy⟩, _⟩, rfl⟩, _⟩, rfl⟩ := hr
      simp [hy]
    rw [e1, List.nil_append, List.filter_filter]
    apply List.filter_congr
    intro r _
    cases r.priv <;> simp

/-! ### The tables -/

/-- After some rows: what is held is the last row that was new. -/
theorem upsertAll_last (isPriv : Bool) {t : List Receipt} (ht : Table t) (rs : List Receipt) (k : UKey) :
    Table (upsertAll isPriv t rs).1 ∧ (∀ r ∈ (upsertAll isPriv t rs).2, r.priv = isPriv) ∧
    held (upsertAll isPriv t rs).1 k =
      (match ((upsertAll isPriv t rs).2.filter fun r => decide (r.ukey = k)).getLast? with
        | some r => some (r.event, r.ts)
        | none => held t k) := by
  induction rs using Verif.Util.snocRec with
  | nil => exact ⟨ht, (fun r hr => by cases hr), rfl⟩
  | append_singleton rs r ih =>
    obtain ⟨h1, h2, h3⟩ := ih
    obtain ⟨u1, u2, u3⟩ := upsert_spec isPriv h1 r
    rw [upsertAll_snoc]
    refine ⟨u1, ?_, ?_⟩
    · intro x hx
      rcases List.mem_append.1 hx with hx | hx
      · exact h2 x hx
      · rw [u3] at hx
        split at hx
        · simp only [Option.toList_some, List.mem_singleton] at hx
          rw [hx]
        · cases hx
    · dsimp only
      rw [u2, u3]
      by_cases hn : News (upsertAll isPriv t rs).1 r
      · rw [if_pos hn]
        by_cases hk : r.ukey = k
        · rw [if_pos ⟨hk, hn⟩]
          have : (({ r with priv := isPriv } : Receipt)).ukey = k := hk
          simp [List.filter_append, this]
        · rw [if_neg (fun h => hk h.1), h3]
          have : ¬ (({ r with priv := isPriv } : Receipt)).ukey = k := hk
          simp [List.filter_append, this]
      · rw [if_neg (fun h => hn h.2), if_neg hn, h3]
        simp

theorem execs_some (isPriv : Bool) {t new : List Receipt} {chunks : List (List Receipt)} {res : List Receipt × List Receipt}
    (h : chunks.foldl (fun a c => a.bind (exec isPriv · c)) (some (t, new)) = some res) :
    res = ((upsertAll isPriv t chunks.flatten).1, new ++ (upsertAll isPriv t chunks.flatten).2) := by
  induction chunks generalizing t new with
  | nil => cases h; simp [upsertAll]
  | cons c chunks ih =>
    rw [List.foldl_cons, Option.bind_some] at h
    cases he : exec isPriv (t, new) c with
    | none =>
      rw [he] at h
      have hno : ∀ l : List (List Receipt), l.foldl (fun a c => a.bind (exec isPriv · c)) none = none := by
        intro l
        induction l with
        | nil => rfl
        | cons a l ih => exact ih
      rw [hno] at h; cases h
    | some x =>
      rw [he] at h
      have hx : x = ((upsertAll isPriv t c).1, new ++ (upsertAll isPriv t c).2) := by
        simp only [exec] at he
        split at he
        · cases he; rfl
        · cases he
      subst hx
      rw [ih h, List.flatten_cons, upsertAll_append]
      simp

theorem bulkInsert_some {isPriv : Bool} {t rs : List Receipt} {res : List Receipt × List Receipt} (h : bulkInsert isPriv t rs = some res) :
    res = upsertAll isPriv t rs := by
  unfold bulkInsert at h
  by_cases h0 : rs.length = 0
  · rw [if_pos h0] at h
    cases h
    rw [List.length_eq_zero_iff.1 h0]; rfl
  · rw [if_neg h0] at h
    obtain ⟨cs, h1, h2, _, _⟩ := SqlUtil.C47_chunks (n := 5) (m := SqlUtil.maxPostgresParameters) (by decide) rs
    rw [h1, Option.bind_some] at h
    rw [execs_some _ h, h2]
    simp

/-- A delivery: the receipt of the user that is held is the last one reported, if any is. -/
theorem insert_last {db db' : DB} {user room : String} {edu : Edu} {new : List Receipt} (hp : Table db.pub) (hq : Table db.priv)
    (h : Insert db room edu (some (db', new))) : Table db'.pub ∧ Table db'.priv ∧
    ∀ priv, current db' user room priv = (match (mine user room priv new).getLast? with
      | some r => some (r.event, r.ts)
      | none => current db user room priv) := by
  obtain ⟨pub, pr, _, hres⟩ := h
  cases h1 : bulkInsert false db.pub pub with
  | none => rw [h1] at hres; cases hres
  | some x =>
    rw [h1] at hres
    cases h2 : bulkInsert true db.priv pr with
    | none => rw [h2] at hres; cases hres
    | some y =>
      rw [h2] at hres
      cases hres
      have e1 := bulkInsert_some h1
      have e2 := bulkInsert_some h2
      obtain ⟨a1, a2, a3⟩ := upsertAll_last false hp pub (room, user, "")
      obtain ⟨b1, b2, b3⟩ := upsertAll_last true hq pr (room, user, "")
      rw [← e1] at a1 a2 a3
      rw [← e2] at b1 b2 b3
      refine ⟨a1, b1, ?_⟩
      intro priv
      rw [mine_append]
      cases priv with
      | false =>
        have m1 : mine user room false x.2 = x.2.filter fun r => decide (r.ukey = (room, user, "")) := by
          apply List.filter_congr
          intro r hr
          simp [a2 r hr]
        have m2 : mine user room false y.2 = [] := by
          apply List.filter_eq_nil_iff.2
          intro r hr
          simp [b2 r hr]
        rw [m1, m2, List.append_nil]
        exact a3
      | true =>
        have m1 : mine user room true y.2 = y.2.filter fun r => decide (r.ukey = (room, user, "")) := by
          apply List.filter_congr
          intro r hr
          simp [b2 r hr]
        have m2 : mine user room true x.2 = [] := by
          apply List.filter_eq_nil_iff.2
          intro r hr
          simp [a2 r hr]
        rw [m1, m2, List.nil_append]
        exact b3

theorem table_unique {t : List Receipt} (h : Table t) {a b : Receipt} (ha : a ∈ t) (hb : b ∈ t) (he : a.ukey = b.ukey) : a = b := by
  induction t with
  | nil => cases ha
  | cons x t ih =>
    obtain ⟨h1, h2⟩ := List.nodup_cons.1 h
    rcases List.mem_cons.1 ha with rfl | ha
    · rcases List.mem_cons.1 hb with rfl | hb
      · rfl
      · exact absurd (he ▸ List.mem_map_of_mem hb) h1
    · rcases List.mem_cons.1 hb with hbx | hb
      · exact absurd (hbx ▸ he ▸ List.mem_map_of_mem ha) h1
      · exact ih h2 ha hb

/-- The entry for the user's receipt. -/
abbrev entry (user : String) (priv : Bool) (p : String × Int) : Key × Info := ((p.1, priv, user), ⟨p.2, ""⟩)

/-- A room that is sent comes with the receipts of the user. -/
theorem initial_has {db : DB} (hp : Table db.pub) (hq : Table db.priv) {user room : String} {inScope : String → Bool}
    {rooms : List (String × List String)} (hin : inScope room = true) (hr : ∃ t, (room, t) ∈ rooms) (priv : Bool) (p : String × Int)
    (hc : current db user room priv = some p) :
    ∃ edu, processInitial db user inScope rooms room = some edu ∧ Good edu ∧ entry user priv p ∈ edu.content := by
  -- the row
  have htab : Table (table db priv) := by unfold table; cases priv <;> simp [hp, hq]
  unfold current held at hc
  obtain ⟨x, hx, rfl⟩ := Option.map_eq_some_iff.1 hc
  have hxm := List.mem_of_find?_eq_some hx
  have hxk : x.ukey = (room, user, "") := by simpa using List.find?_some hx
  have hxr : x.room = room := congrArg (·.1) hxk
  have hxu : x.user = user := congrArg (fun y => y.2.1) hxk
  have hxt : x.thread = "" := congrArg (fun y => y.2.2) hxk
  have hint : ((rooms.filter fun r => inScope r.1).map (·.1)).contains room = true := by
    obtain ⟨t, ht⟩ := hr
    rw [List.contains_eq_mem]
    simp only [List.mem_map, List.mem_filter, decide_eq_true_eq]
    exact ⟨(room, t), ⟨ht, hin⟩, rfl⟩
  have hmem : ({ x with priv := priv } : Receipt) ∈ gathered db user inScope rooms room := by
    unfold gathered
    apply List.mem_append_right
    unfold forUser
    dsimp only
    rw [List.mem_filter]
    refine ⟨?_, by simpa using hxr⟩
    unfold table at hxm
    cases priv with
    | false =>
      apply List.mem_append_left
      rw [List.mem_map]
      refine ⟨x, List.mem_filter.2 ⟨by simpa using hxm, ?_⟩, rfl⟩
      rw [hxr, hint]; simp [hxu]
    | true =>
      apply List.mem_append_right
      rw [List.mem_map]
      refine ⟨x, List.mem_filter.2 ⟨by simpa using hxm, ?_⟩, rfl⟩
      rw [hxr, hint]; simp [hxu]
  -- every other one of the user for the room is the same
  have huniq : ∀ r ∈ gathered db user inScope rooms room, r.key = (x.event, priv, user) → r.thread = "" → r.ts = x.ts := by
    intro r hr hk ht
    have hrp : r.priv = priv := congrArg (fun y => y.2.1) hk
    have hru : r.user = user := congrArg (fun y => y.2.2) hk
    have key : ∃ y ∈ table db priv, y.room = room ∧ y.user = r.user ∧ y.thread = r.thread ∧ y.ts = r.ts := by
      unfold gathered at hr
      rcases List.mem_append.1 hr with hr | hr
      · split at hr
        · rw [if_pos hin] at hr
          · unfold forEvents at hr
            obtain ⟨y, hy, rfl⟩ := List.mem_map.1 hr
            have hy := List.mem_filter.1 hy
            have hrp : false = priv := hrp
            subst hrp
            simp only [Bool.and_eq_true, decide_eq_true_eq] at hy
            exact ⟨y, by simpa [table] using hy.1, hy.2.1, rfl, rfl, rfl⟩
        · cases hr
      · unfold forUser at hr
        dsimp only at hr
        obtain ⟨hr, hroom⟩ := List.mem_filter.1 hr
        have hroom : r.room = room := by simpa using hroom
        rcases List.mem_append.1 hr with hr | hr
        · obtain ⟨y, hy, rfl⟩ := List.mem_map.1 hr
          have hrp : false = priv := hrp
          subst hrp
          exact ⟨y, by simpa [table] using (List.mem_filter.1 hy).1, hroom, rfl, rfl, rfl⟩
        · obtain ⟨y, hy, rfl⟩ := List.mem_map.1 hr
          have hrp : true = priv := hrp
          subst hrp
          exact ⟨y, by simpa [table] using (List.mem_filter.1 hy).1, hroom, rfl, rfl, rfl⟩
    obtain ⟨y, hy, h1, h2, h3, h4⟩ := key
    have : y = x := table_unique htab hy hxm (by rw [hxk]; unfold Receipt.ukey; rw [h1, h2, hru, h3, ht])
    rw [← h4, this]
  have hne : (gathered db user inScope rooms room).length ≠ 0 := by
    intro h
    rw [List.length_eq_zero_iff.1 h] at hmem; cases hmem
  refine ⟨_, by unfold processInitial; rw [if_neg hne], ⟨rfl, pack_distinct _⟩, ?_⟩
  apply (get_iff (pack_distinct _) _ _).1
  have hkey : ({ x with priv := priv } : Receipt).key = (x.event, priv, user) := by unfold Receipt.key; rw [hxu]
  cases hg : get (pack (gathered db user inScope rooms room)).content (x.event, priv, user) with
  | none => exact absurd hkey ((pack_none _ _).1 hg _ hmem)
  | some i =>
    obtain ⟨r, hch, rfl⟩ := pack_get _ _ _ hg
    have hm := chosen_mem hch
    rcases hch with ⟨_, _, _, _, h3, _⟩ | ⟨h0, _⟩
    · rw [h3, huniq r hm.1 hm.2 h3]
    · exact absurd hxt (h0 { x with priv := priv } hmem hkey)

theorem initial_good {db : DB} {user room : String} {inScope : String → Bool} {rooms : List (String × List String)} {edu : Edu}
    (h : processInitial db user inScope rooms room = some edu) : Good edu := by
  unfold processInitial at h
  split at h
  · cases h
  · cases h
    exact ⟨rfl, pack_distinct _⟩

/-! ## The invariant -/

/-- What is on its way to the connection. -/
def State.pending (user : String) (s : State) : List Receipt := s.queue ++ s.bus.flatMap (handed user)

structure Inv (user room : String) (s : State) : Prop where
  ci : CI s.c
  pub : Table s.db.pub
  priv : Table s.db.priv
  none : s.c.conn = none → s.queue = []
  good : ∀ b, s.c.busy = some b → ∀ edu, b.out = some edu → Good edu
  last : ∀ priv r, (mine user room priv (s.pending user)).getLast? = some r → current s.db user room priv = some (r.event, r.ts)
  client : s.sent = true → s.c.Away ∨ ∃ k, s.c.conn = some k ∧ ∀ priv p, mine user room priv (s.pending user) = [] →
    current s.db user room priv = some p → entry user priv p ∈ s.c.view put k

theorem put_none (h : Told) : put h none = h := rfl

theorem mem_puts {x : Key × Info} {h : Told} {l : List (Option Edu)} :
    x ∈ l.foldl put h ↔ x ∈ h ∨ ∃ edu, some edu ∈ l ∧ x ∈ edu.content := by
  induction l generalizing h with
  | nil => simp
  | cons o l ih =>
    rw [List.foldl_cons, ih]
    cases o with
    | none => simp [put]
    | some e =>
      simp only [put, List.mem_append, List.mem_cons, Option.some.injEq]
      constructor
      · rintro ((h1 | h1) | ⟨e', h1, h2⟩)
        · exact Or.inl h1
        · exact Or.inr ⟨e, Or.inl rfl, h1⟩
        · exact Or.inr ⟨e', Or.inr h1, h2⟩
      · rintro (h1 | ⟨e', rfl | h1, h2⟩)
        · exact Or.inl (Or.inl h1)
        · exact Or.inl (Or.inr h2)
        · exact Or.inr ⟨e', h1, h2⟩

/-- Receipts are put into the response in place of those that are there. -/
theorem view_out {c : Client (Option Edu) Told} {b : Busy (Option Edu)} (hb : c.busy = some b) (o : Option Edu) (k : Conn.State Nat (Option Edu))
    (x : Key × Info) (h : (x ∈ c.view put k ∧ ∀ edu, b.out = some edu → x ∈ edu.content → ∃ edu', o = some edu' ∧ x ∈ edu'.content) ∨
      ∃ edu, o = some edu ∧ x ∈ edu.content) :
    x ∈ ({ c with busy := c.busy.map fun b => { b with out := o } } : Client _ _).view put k := by
  unfold Client.view Client.doing at h ⊢
  rw [hb] at h ⊢
  simp only [Option.map_some] at h ⊢
  rw [mem_puts] at h ⊢
  rcases h with ⟨h1 | ⟨edu, h1, h2⟩, h3⟩ | ⟨edu, h1, h2⟩
  · exact Or.inl h1
  · rcases List.mem_append.1 h1 with h1 | h1
    · exact Or.inr ⟨edu, List.mem_append_left _ h1, h2⟩
    · obtain ⟨e', h4, h5⟩ := h3 edu (List.mem_singleton.1 h1).symm h2
      exact Or.inr ⟨e', List.mem_append_right _ (by rw [h4]; exact List.mem_singleton.2 rfl), h5⟩
  · exact Or.inr ⟨edu, List.mem_append_right _ (by rw [h1]; exact List.mem_singleton.2 rfl), h2⟩

theorem out_ci {c : Client (Option Edu) Told} (h : CI c) {b : Busy (Option Edu)} (hb : c.busy = some b) (o : Option Edu) :
    CI ({ c with busy := c.busy.map fun b => { b with out := o } } : Client _ _) := by
  rw [hb]
  exact swap_ci h hb o

variable {user room : String}

theorem deliver_inv {s : State} (h : Inv user room s) {edu : Edu} {db : DB} {new : List Receipt} (hi : Insert s.db room edu (some (db, new))) :
    Inv user room { s with db := db, edus := s.edus ++ [edu], bus := if new.length = 0 then s.bus else s.bus ++ [new] } := by
  obtain ⟨h1, h2, h3⟩ := insert_last (user := user) h.pub h.priv hi
  have hpend : ∀ priv, mine user room priv (State.pending user { s with db := db, edus := s.edus ++ [edu], bus := if new.length = 0 then s.bus else s.bus ++ [new] }) =
      mine user room priv (s.pending user) ++ mine user room priv new := by
    intro priv
    unfold State.pending
    by_cases hn : new.length = 0
    · simp only [hn, if_true]
      rw [List.length_eq_zero_iff.1 hn]
      simp [mine]
    · simp only [hn, if_false, List.flatMap_append, List.flatMap_cons, List.flatMap_nil, List.append_nil]
      simp only [mine_append, mine_handed, List.append_assoc]
  refine ⟨h.ci, h1, h2, h.none, h.good, ?_, ?_⟩
  · intro priv r hr
    rw [hpend] at hr
    show current db user room priv = _
    rw [h3]
    rcases List.eq_nil_or_concat (mine user room priv new) with hn | ⟨l, x, hn⟩
    · rw [hn, List.append_nil] at hr
      rw [hn]
      exact h.last priv r hr
    · rw [hn] at hr ⊢
      rw [List.concat_eq_append, ← List.append_assoc, List.getLast?_concat] at hr
      rw [List.concat_eq_append, List.getLast?_concat]
      cases hr
      rfl
  · intro hs
    rcases h.client hs with h4 | ⟨k, h4, h5⟩
    · exact Or.inl h4
    · refine Or.inr ⟨k, h4, ?_⟩
      intro priv p hp hc
      rw [hpend] at hp
      have hp := List.append_eq_nil_iff.1 hp
      have hc : current db user room priv = some p := hc
      rw [h3, hp.2] at hc
      exact h5 priv p hp.1 hc

theorem handle_inv {s : State} (h : Inv user room s) {p : List Receipt} {bus : List (List Receipt)} (hb : s.bus = p :: bus) :
    Inv user room (handle user { s with bus := bus } p) := by
  unfold handle
  cases hc : s.c.conn with
  | none =>
    simp only [Option.isSome_none, Bool.false_eq_true, if_false]
    have hq := h.none hc
    refine ⟨h.ci, h.pub, h.priv, h.none, h.good, ?_, ?_⟩
    · intro priv r hr
      apply h.last priv r
      unfold State.pending at hr ⊢
      rw [hb, hq]
      have hr : (mine user room priv (s.queue ++ bus.flatMap (handed user))).getLast? = some r := hr
      rw [hq] at hr
      rw [List.flatMap_cons]
      rw [List.nil_append] at hr ⊢
      rw [mine_append, List.getLast?_append, hr]; rfl
    · intro hs
      rcases h.client hs with h4 | ⟨k, h4, _⟩
      · exact Or.inl h4
      · rw [hc] at h4; cases h4
  | some k =>
    simp only [Option.isSome_some, if_true]
    have hp : State.pending user { s with bus := bus, queue := s.queue ++ handed user p } = s.pending user := by
      unfold State.pending
      rw [hb, List.flatMap_cons, List.append_assoc]
    refine ⟨h.ci, h.pub, h.priv, (fun hn => by rw [show _ = s.c.conn from rfl, hc] at hn; cases hn), h.good, ?_, ?_⟩
    · intro priv r hr; rw [hp] at hr; exact h.last priv r hr
    · intro hs
      rw [hp]
      exact h.client hs

theorem ask_inv {s : State} (h : Inv user room s) (body : Nat) (on : Bool) (hb : s.c.busy = none) (hc : s.c.calls body = true) :
    Inv user room (ask s body on) := by
  have hci := serve_ci h.ci (b := ⟨body, on, none⟩) hc
  have hgood : ∀ b, (s.c.serve ⟨body, on, none⟩).busy = some b → ∀ edu, b.out = some edu → Good edu := by
    intro b hb edu he; cases hb; cases he
  unfold ask
  dsimp only
  by_cases h0 : s.c.pos = 0
  · rw [if_pos h0]
    refine ⟨hci, h.pub, h.priv, fun _ => rfl, hgood, ?_, by simp⟩
    intro priv r hr
    apply h.last priv r
    unfold State.pending at hr ⊢
    rw [List.nil_append] at hr
    rw [mine_append, List.getLast?_append, hr]; rfl
  · rw [if_neg h0]
    obtain ⟨k, hk, hk', hv⟩ := serve_later (put := put) (b := ⟨body, on, none⟩) hc h0 hb
    rw [put_none] at hv
    refine ⟨hci, h.pub, h.priv, (fun hn => ?_), hgood, h.last, fun hs => ?_⟩
    · have hn : (s.c.serve ⟨body, on, none⟩).conn = none := hn
      rw [hk'] at hn; cases hn
    · rcases h.client hs with h1 | ⟨k', h1, h2⟩
      · rcases h1.2 with h1 | h1
        · exact absurd h1 h0
        · rw [hk] at h1; cases h1
      · rw [hk] at h1
        cases h1
        refine Or.inr ⟨k, hk', ?_⟩
        intro priv p hp hcur
        show _ ∈ (s.c.serve ⟨body, on, none⟩).view put k
        rw [hv]
        exact h2 priv p hp hcur

theorem load_inv {s : State} (h : Inv user room s) {b : Busy (Option Edu)} {inScope : String → Bool} {rooms : List (String × List String)}
    (hb : s.c.busy = some b) (hin : inScope room = true) (hr : ∃ t, (room, t) ∈ rooms) :
    Inv user room ({ s with stage := true, sent := true }.out (processInitial s.db user inScope rooms room)) := by
  obtain ⟨k, hk, _⟩ := h.ci.busy b hb
  refine ⟨out_ci h.ci hb _, h.pub, h.priv, h.none, ?_, h.last, fun _ => Or.inr ⟨k, hk, ?_⟩⟩
  · intro b' hb' edu he
    obtain ⟨_, _, rfl⟩ := Option.map_eq_some_iff.1 hb'
    exact initial_good he
  · intro priv p _ hc
    obtain ⟨edu, h1, _, h2⟩ := initial_has h.pub h.priv hin hr priv p hc
    exact view_out hb _ k _ (Or.inr ⟨edu, h1, h2⟩)

theorem mine_cons (priv : Bool) (r : Receipt) (l : List Receipt) :
    mine user room priv (r :: l) = (if r.ukey = (room, user, "") ∧ r.priv = priv then [r] else []) ++ mine user room priv l := by
  unfold mine
  rw [List.filter_cons]
  by_cases h : r.ukey = (room, user, "") ∧ r.priv = priv
  · simp [h]
  · simp only [h, decide_false, Bool.false_eq_true, if_false, List.nil_append]

/-- The last one stays the last one when the first is taken. -/
theorem last_cons {priv : Bool} {r x : Receipt} {l : List Receipt} (h : (mine user room priv l).getLast? = some x) :
    (mine user room priv (r :: l)).getLast? = some x := by
  rw [mine_cons, List.getLast?_append, h]; rfl

theorem take_inv {s : State} (h : Inv user room s) {b : Busy (Option Edu)} {r : Receipt} {q : List Receipt} {res : Resp}
    (hb : s.c.busy = some b) (hq : s.queue = r :: q)
    (ha : AppendLive (fun _ => true) (fun x => if x = room then b.out else Option.none) r res) :
    Inv user room ({ s with queue := q }.out (res room)) := by
  obtain ⟨k, hk, _⟩ := h.ci.busy b hb
  have hgood : ∀ x edu, (if x = room then b.out else Option.none) = some edu → Good edu := by
    intro x edu he
    split at he
    · exact h.good b hb edu he
    · cases he
  obtain ⟨g1, g2, _, g4⟩ := C45_live hgood ha
  obtain ⟨edu', e1, e2⟩ := g4 rfl
  have hp : s.pending user = r :: State.pending user ({ s with queue := q }.out (res room)) := by
    show s.queue ++ _ = _
    rw [hq]; rfl
  refine ⟨out_ci h.ci hb _, h.pub, h.priv, (fun hn => by have hn : s.c.conn = Option.none := hn; rw [hk] at hn; cases hn), ?_, ?_, ?_⟩
  · intro b' hb' edu he
    obtain ⟨_, _, rfl⟩ := Option.map_eq_some_iff.1 hb'
    exact g1 room edu he
  · intro priv x hx
    apply h.last priv x
    rw [hp]
    exact last_cons hx
  · intro hs
    rcases h.client hs with h1 | ⟨k', h1, h2⟩
    · rw [h1.1] at hb; cases hb
    · rw [hk] at h1; cases h1
      refine Or.inr ⟨k, hk, ?_⟩
      intro priv p hmt hc
      apply view_out hb
      by_cases hr : r.ukey = (room, user, "") ∧ r.priv = priv
      · -- it is the receipt of the user
        right
        have hl := h.last priv r (by rw [hp, mine_cons, if_pos hr, hmt]; rfl)
        have hc : current s.db user room priv = some p := hc
        rw [hc] at hl
        cases hl
        have hroom : r.room = room := congrArg (·.1) hr.1
        have hu : r.user = user := congrArg (fun y => y.2.1) hr.1
        have ht : r.thread = "" := congrArg (fun y => y.2.2) hr.1
        have hkey : r.key = (r.event, priv, user) := by unfold Receipt.key; rw [hu, hr.2]
        rw [hroom] at e1
        refine ⟨edu', e1, ?_⟩
        apply (get_iff (g1 room edu' e1).2 _ _).1
        rw [e2]
        dsimp only
        rw [if_pos ⟨hkey, Or.inr ht⟩, ht]
      · -- it is another one
        left
        refine ⟨h2 priv p (by rw [hp, mine_cons, if_neg hr, hmt]; rfl) hc, ?_⟩
        intro edu he hmem
        by_cases hroom : r.room = room
        · rw [hroom] at e1
          refine ⟨edu', e1, ?_⟩
          apply (get_iff (g1 room edu' e1).2 _ _).1
          rw [e2]
          have hold : ((if r.room = room then b.out else Option.none).bind fun e => get e.content (p.1, priv, user)) = some ⟨p.2, ""⟩ := by
            rw [if_pos hroom, he]
            exact (get_iff (h.good b hb edu he).2 _ _).2 hmem
          dsimp only
          rw [hold, if_neg]
          rintro ⟨hkey, h3 | h3⟩
          · cases h3
          · apply hr
            have hu : r.user = user := congrArg (fun y => y.2.2) hkey
            have hpv : r.priv = priv := congrArg (fun y => y.2.1) hkey
            exact ⟨by unfold Receipt.ukey; rw [hroom, hu, h3], hpv⟩
        · refine ⟨edu, ?_, hmem⟩
          rw [g2 room (fun h => hroom h.symm), if_pos rfl, he]

theorem drop_inv {s : State} (h : Inv user room s) {b : Busy (Option Edu)} {r : Receipt} {q : List Receipt}
    (hb : s.c.busy = some b) (hq : s.queue = r :: q) :
    Inv user room { s with queue := q, sent := s.sent && decide (r.user ≠ user) } := by
  obtain ⟨k, hk, _⟩ := h.ci.busy b hb
  have hp : s.pending user = r :: State.pending user { s with queue := q, sent := s.sent && decide (r.user ≠ user) } := by
    show s.queue ++ _ = _
    rw [hq]; rfl
  refine ⟨h.ci, h.pub, h.priv, (fun hn => by rw [show _ = s.c.conn from rfl, hk] at hn; cases hn), h.good, ?_, ?_⟩
  · intro priv x hx
    apply h.last priv x
    rw [hp]
    exact last_cons hx
  · intro hs
    have hs : (s.sent && decide (r.user ≠ user)) = true := hs
    rw [Bool.and_eq_true] at hs
    have hu : r.user ≠ user := by simpa using hs.2
    rcases h.client hs.1 with h1 | ⟨k', h1, h2⟩
    · exact Or.inl h1
    · refine Or.inr ⟨k', h1, ?_⟩
      intro priv p hmt hc
      apply h2 priv p _ hc
      rw [hp, mine_cons, if_neg (fun hr => hu (congrArg (fun y => y.2.1) hr.1)), hmt]; rfl

theorem again_inv {s : State} (h : Inv user room s) (body : Nat) (arrives : Bool) (hb : s.c.busy = none) (hc : s.c.calls body = false) :
    Inv user room { s with c := s.c.repeated put body arrives } := by
  have hr := repeated_cases (put := put) h.ci hb hc arrives
  refine ⟨repeated_ci h.ci hb hc arrives, h.pub, h.priv, (fun hn => ?_), ?_, h.last, fun hs => ?_⟩
  · apply h.none
    obtain ⟨_, ⟨_, _, h4⟩ | ⟨k, d, r, _, _, h4, _⟩⟩ := hr
    · exact h4.symm.trans hn
    · have hn : (s.c.repeated put body arrives).conn = Option.none := hn
      rw [h4] at hn; cases hn
  · intro b hb'
    rw [show _ = Option.none from hr.1] at hb'; cases hb'
  · rcases repeated_view (put := put) h.ci hb hc arrives with h1 | ⟨k, k', h1, h2, h3⟩
    · exact Or.inl h1
    · rcases h.client hs with h4 | ⟨k0, h4, h6⟩
      · left
        rcases h4.2 with h4 | h4
        · rcases hr with ⟨hbusy, ⟨_, h7, _⟩ | ⟨_, _, _, _, hp, _⟩⟩
          · refine ⟨hbusy, Or.inl ?_⟩
            rcases h7 with h7 | h7
            · exact h7
            · show (s.c.repeated put body arrives).pos = 0
              rw [h7]; exact h4
          · exact absurd h4 hp
        · rw [h4] at h1; cases h1
      · rw [h4] at h1; cases h1
        refine Or.inr ⟨k', h2, ?_⟩
        intro priv p hm hcur
        show _ ∈ (s.c.repeated put body arrives).view put k'
        rw [h3]
        exact h6 priv p hm hcur

theorem done_inv {s : State} (h : Inv user room s) {b : Busy (Option Edu)} (hb : s.c.busy = some b) (fails arrives : Bool)
    (hf : fails = true → s.c.pos = 0 ∨ b.out = none) : Inv user room { s with c := s.c.finish put b fails arrives } := by
  have hci := finish_ci (put := put) h.ci hb fails arrives
  have hbusy := finish_busy (put := put) h.ci hb fails arrives
  obtain ⟨k, hk, _⟩ := h.ci.busy b hb
  have key : ((s.c.finish put b fails arrives).Away ∨
      ∃ k', (s.c.finish put b fails arrives).conn = some k' ∧ (s.c.finish put b fails arrives).view put k' = s.c.view put k) ∧
      (s.c.finish put b fails arrives).conn ≠ none := by
    cases fails with
    | false =>
      obtain ⟨k0, k', h1, h2, h3⟩ := finish_view (put := put) h.ci hb arrives
      rw [hk] at h1; cases h1
      exact ⟨Or.inr ⟨k', h2, h3⟩, by rw [h2]; simp⟩
    | true =>
      obtain ⟨k0, k', h1, h2, h3, h4⟩ := finish_failed (put := put) h.ci hb arrives
      rw [hk] at h1; cases h1
      refine ⟨?_, by rw [h2]; simp⟩
      rcases hf rfl with h0 | h0
      · exact Or.inl ⟨hbusy, Or.inl (h3.trans h0)⟩
      · refine Or.inr ⟨k', h2, h4.trans ?_⟩
        unfold Client.view Client.doing
        rw [hb]
        simp only [List.foldl_append, List.foldl_cons, List.foldl_nil, h0, put_none]
  obtain ⟨h1, h2⟩ := key
  refine ⟨hci, h.pub, h.priv, (fun hn => absurd hn h2), ?_, h.last, fun hs => ?_⟩
  · intro b' hb'
    rw [show _ = Option.none from hbusy] at hb'; cases hb'
  · rcases h1 with h1 | ⟨k', h1, h3⟩
    · exact Or.inl h1
    · rcases h.client hs with h4 | ⟨k0, h4, h6⟩
      · rw [h4.1] at hb; cases hb
      · rw [hk] at h4; cases h4
        refine Or.inr ⟨k', h1, ?_⟩
        intro priv p hm hcur
        show _ ∈ (s.c.finish put b fails arrives).view put k'
        rw [h3]
        exact h6 priv p hm hcur

theorem run_inv {s : State} (h : Run user room Mode.good s) : Inv user room s := by
  induction h with
  | start =>
    refine ⟨start_ci _, List.nodup_nil, List.nodup_nil, fun _ => rfl, by simp, ?_, by simp⟩
    intro priv r hr; cases hr
  | deliver _ hi ih => exact deliver_inv ih hi
  | handle _ hb ih => exact handle_inv ih hb
  | again body arrives _ hb hc ih => exact again_inv ih body arrives hb hc
  | ask body on _ hb hc ih => exact ask_inv ih body on hb hc
  | pass _ hb _ ih => exact ⟨ih.ci, ih.pub, ih.priv, ih.none, ih.good, ih.last, ih.client⟩
  | load inScope rooms readOk _ hb _ _ hin hr hk ih =>
    rw [hk id]
    exact load_inv ih hb hin hr
  | come _ _ _ hl _ => exact absurd hl id
  | take _ hb _ hq _ ha ih => exact take_inv ih hb hq ha
  | drop _ hb _ hq ih => exact drop_inv ih hb hq
  | done fails arrives _ hb _ hf ih => exact done_inv ih hb fails arrives (hf id)
  | @lose s _ ih =>
    refine ⟨lose_ci ih.ci, ih.pub, ih.priv, fun _ => rfl, by simp [Client.lose], ?_, by simp⟩
    intro priv r hr
    apply ih.last priv r
    unfold State.pending at hr ⊢
    rw [List.nil_append] at hr
    rw [mine_append, List.getLast?_append, hr]; rfl
  | @restart s _ ih =>
    refine ⟨lose_ci ih.ci, ih.pub, ih.priv, fun _ => rfl, by simp [Client.lose], ?_, by simp⟩
    intro priv r hr
    cases hr

/-- **C124.** Once a request has sent the room with its receipts, and the room has been in scope whenever a receipt of the user was
taken from the channel, a client that has got every response has been told the user's current public and private read receipts of the
room – if later requests do not fail and the tables can be read. A room that is sent because of an update does not count: see
`C124_violated_live`. -/
theorem C124_partial {s : State} (h : Run user room Mode.good s) (hs : s.sent = true) (hu : CaughtUp s) (priv : Bool) (event : String) (ts : Int)
    (hc : current s.db user room priv = some (event, ts)) : ((event, priv, user), (⟨ts, ""⟩ : Info)) ∈ s.c.has := by
  have hi := run_inv h
  obtain ⟨hb, hbus, hq, h0, k, hk, hp⟩ := hu
  rcases hi.client hs with h1 | ⟨k', h1, h2⟩
  · rcases h1.2 with h1 | h1
    · exact absurd h1 h0
    · rw [hk] at h1; cases h1
  · rw [hk] at h1; cases h1
    have := h2 priv (event, ts) (by unfold State.pending; rw [hq, hbus]; rfl) hc
    unfold Client.view Client.doing at this
    rw [unacked_last (hi.ci.conn k hk) (by omega), hb] at this
    exact this

end Verif.ReceiptFlow
