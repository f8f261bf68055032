import Verif.DedupAccount
import Verif.AccountDataProps
/-! C52: a failed write of account data is retried. -/
namespace Verif.DedupAccount
open Verif
open Verif.AccountData (Row last LastWritten)

/-! ### Specification -/

def rows (user room : String) (events : List (String × String)) : List Row := events.map fun e => ⟨user, room, e.1, e.2⟩

/-- Everything delivered by calls that reported success, in order. -/
def acked : List (Op × Bool) → List Row
  | [] => []
  | (.deliver u r es _, true) :: tr => rows u r es ++ acked tr
  | _ :: tr => acked tr

/-- C52 as stated: what was delivered by calls that reported success is in the table (last write wins), whatever the failures in
between. The hash is free of collisions. -/
def Retried : Prop := ∀ (hash : String → Nat), Function.Injective hash → ∀ tr s, Run hash tr s → ∀ u r t d,
  LastWritten (acked tr) u r t d → ⟨u, r, t, d⟩ ∈ s.db

/-! ### It fails -/

/-- A failure, and the same delivery again: it is taken for a duplicate, reports success, and nothing is stored. -/
theorem lost (hash : String → Nat) : Run hash
    [(.deliver "@a" "" [("m.direct", "{1}")] true, false), (.deliver "@a" "" [("m.direct", "{1}")] false, true)]
    { mem := [("@a||m.direct", hash "{1}")], db := [] } := by
  have h1 : Run hash [(.deliver "@a" "" [("m.direct", "{1}")] true, false)] { mem := [("@a||m.direct", hash "{1}")], db := [] } := by
    have := Run.snoc (hash := hash) Run.nil (Step.failed (hash := hash) (s := {}) (user := "@a") (room := "")
      (events := [("m.direct", "{1}")]) (by simp [keep, Assoc.get]))
    simpa [keep, Assoc.get, Assoc.set, Assoc.del, key] using this
  have h2 := Run.snoc (hash := hash) h1 (Step.nothing (hash := hash) (user := "@a") (room := "") (fails := false)
      (events := [("m.direct", "{1}")]) (by simp [keep, Assoc.get, key]))
  simpa [keep, Assoc.get, key] using h2

theorem exists_hash : ∃ hash : String → Nat, Function.Injective hash := by
  have enc : ∀ l : List Char, ∀ l' : List Char,
      l.foldr (fun c n => 2 ^ c.toNat * (2 * n + 1)) 0 = l'.foldr (fun c n => 2 ^ c.toNat * (2 * n + 1)) 0 → l = l' := by
    have pw : ∀ (a b m n : Nat), 2 ^ a * (2 * m + 1) = 2 ^ b * (2 * n + 1) → a = b ∧ m = n := by
      intro a
      induction a with
      | zero =>
        intro b m n h
        cases b with
        | zero => simp at h; omega
        | succ b =>
          rw [Nat.pow_succ, Nat.mul_comm (2 ^ b) 2, Nat.mul_assoc] at h
          generalize 2 ^ b * (2 * n + 1) = x at h
          omega
      | succ a ih =>
        intro b m n h
        cases b with
        | zero =>
          rw [Nat.pow_succ, Nat.mul_comm (2 ^ a) 2, Nat.mul_assoc] at h
          generalize 2 ^ a * (2 * m + 1) = x at h
          omega
        | succ b =>
          rw [Nat.pow_succ, Nat.pow_succ, Nat.mul_comm (2 ^ a) 2, Nat.mul_comm (2 ^ b) 2, Nat.mul_assoc, Nat.mul_assoc] at h
          obtain ⟨h1, h2⟩ := ih b m n (by omega)
          exact ⟨by omega, h2⟩
    have pos : ∀ (a m : Nat), 2 ^ a * (2 * m + 1) ≠ 0 := by
      intro a m h
      rcases Nat.mul_eq_zero.1 h with h | h
      · exact absurd h (Nat.pos_iff_ne_zero.1 (Nat.two_pow_pos a))
      · omega
    intro l
    induction l with
    | nil =>
      intro l' h
      cases l' with
      | nil => rfl
      | cons c l' => exact absurd h.symm (pos _ _)
    | cons c l ih =>
      intro l' h
      cases l' with
      | nil => exact absurd h (pos _ _)
      | cons c' l' =>
        obtain ⟨h1, h2⟩ := pw _ _ _ _ h
        rw [ih l' h2, Char.toNat_inj.1 h1]
  exact ⟨fun s => s.toList.foldr (fun c n => 2 ^ c.toNat * (2 * n + 1)) 0, fun a b h => String.toList_inj.1 (enc _ _ h)⟩

/-- C52 is violated when storing fails: the entry is remembered as handled before it is stored, so when upstream sends it
again it is dropped. -/
theorem C52_violated : ¬ Retried := by
  intro h
  obtain ⟨hash, hinj⟩ := exists_hash
  have := h hash hinj _ _ (lost hash) "@a" "" "m.direct" "{1}" ⟨[], [], rfl, by simp⟩
  cases this

/-! ### Where it holds -/

/-- The last delivery of this type for this user and room, if there was one since the last restart, failed. -/
def dirty (u r t : String) : List (Op × Bool) → Bool :=
  List.foldl (fun d o => match o with
    | (.restart, _) => false
    | (.deliver u' r' es _, ok) => if u' = u ∧ r' = r ∧ t ∈ es.map (·.1) then !ok else d) false

/-- After a failed delivery, this type is delivered again for this user and room only after a restart. -/
def Restarts (u r t : String) (tr : List (Op × Bool)) : Prop := ∀ a es f ok b, tr = a ++ (.deliver u r es f, ok) :: b →
  t ∈ es.map (·.1) → dirty u r t a = false

/-- Nothing else delivered has the same key in the map. -/
def OwnKey (u r t : String) (tr : List (Op × Bool)) : Prop := ∀ u' r' es f ok, (Op.deliver u' r' es f, ok) ∈ tr →
  ∀ e ∈ es, key u' r' e.1 = key u r t → u' = u ∧ r' = r ∧ e.1 = t

/-- No two values delivered for this type have the same hash. -/
def NoCollision (hash : String → Nat) (u r t : String) (tr : List (Op × Bool)) : Prop :=
  ∀ es f ok es' f' ok', (Op.deliver u r es f, ok) ∈ tr → (Op.deliver u r es' f', ok') ∈ tr →
    ∀ d d', (t, d) ∈ es → (t, d') ∈ es' → hash d = hash d' → d = d'

theorem dirty_snoc (u r t : String) (tr : List (Op × Bool)) (o : Op × Bool) :
    dirty u r t (tr ++ [o]) = match o with
      | (.restart, _) => false
      | (.deliver u' r' es _, ok) => if u' = u ∧ r' = r ∧ t ∈ es.map (·.1) then !ok else dirty u r t tr := by
  simp only [dirty, List.foldl_append, List.foldl_cons, List.foldl_nil]

theorem acked_append (a b : List (Op × Bool)) : acked (a ++ b) = acked a ++ acked b := by
  induction a with
  | nil => rfl
  | cons o a ih =>
    obtain ⟨o, ok⟩ := o
    cases o with
    | restart => cases ok <;> exact ih
    | deliver u r es f =>
      cases ok
      · exact ih
      · simp only [List.cons_append, acked, ih, List.append_assoc]

/-- The loop does not touch other keys. -/
theorem keep_other (hash : String → Nat) (user room : String) (events : List (String × String)) (mem : List (String × Nat))
    (k : String) (hk : ∀ e ∈ events, key user room e.1 ≠ k) :
    Assoc.get (events.foldl (keep hash user room) (mem, [])).1 k = Assoc.get mem k := by
  induction events using Verif.Util.snocRec with
  | nil => rfl
  | append_singleton l e ih =>
    rw [List.foldl_append]
    simp only [List.foldl_cons, List.foldl_nil, keep]
    split
    · exact ih fun e he => hk e (by simp [he])
    · simp only
      rw [Assoc.get_set, if_neg (Ne.symm (hk e (by simp)))]
      exact ih fun e he => hk e (by simp [he])

/-- The loop keeps, for the type, what changes the value. -/
theorem keep_spec (hash : String → Nat) (u r t : String) (D : String → Prop)
    (hc : ∀ d d', D d → D d' → hash d = hash d' → d = d') (events : List (String × String)) (mem : List (String × Nat))
    (v : Option String) (hk : ∀ e ∈ events, key u r e.1 = key u r t → e.1 = t) (hD : ∀ d, (t, d) ∈ events → D d)
    (hm : ∀ h, Assoc.get mem (key u r t) = some h → ∃ d, v = some d ∧ hash d = h ∧ D d) :
    (last (rows u r (events.foldl (keep hash u r) (mem, [])).2) (u, r, t)).or v =
      (last (rows u r events) (u, r, t)).or v ∧
    (∀ h, Assoc.get (events.foldl (keep hash u r) (mem, [])).1 (key u r t) = some h →
      ∃ d, (last (rows u r events) (u, r, t)).or v = some d ∧ hash d = h ∧ D d) := by
  induction events using Verif.Util.snocRec with
  | nil => exact ⟨rfl, by simpa [rows, last] using hm⟩
  | append_singleton l e ih =>
    obtain ⟨ih1, ih2⟩ := ih (fun e he => hk e (by simp [he])) (fun d hd => hD d (by simp [hd]))
    rw [List.foldl_append]
    simp only [List.foldl_cons, List.foldl_nil]
    generalize hacc : l.foldl (keep hash u r) (mem, []) = acc at ih1 ih2
    have hrows : ∀ x : List (String × String), rows u r (x ++ [e]) = rows u r x ++ [⟨u, r, e.1, e.2⟩] := by simp [rows]
    rw [hrows, AccountData.last_snoc]
    by_cases het : e.1 = t
    · have htr : Row.triple ⟨u, r, e.1, e.2⟩ = (u, r, t) := by simp [Row.triple, het]
      rw [if_pos htr]
      have hDe : D e.2 := hD e.2 (by rw [← het]; simp)
      simp only [keep]
      split
      · rename_i hs
        rw [het] at hs
        obtain ⟨d, h1, h2, h3⟩ := ih2 _ hs
        have : d = e.2 := hc d e.2 h3 hDe h2
        subst this
        rw [ih1, h1]
        refine ⟨rfl, ?_⟩
        intro h hh
        rw [hs] at hh
        exact ⟨e.2, rfl, Option.some.inj hh, hDe⟩
      · simp only
        rw [hrows, AccountData.last_snoc, if_pos htr]
        refine ⟨rfl, ?_⟩
        intro h hh
        rw [het, Assoc.get_set, if_pos rfl] at hh
        exact ⟨e.2, rfl, Option.some.inj hh, hDe⟩
    · have htr : ¬ Row.triple ⟨u, r, e.1, e.2⟩ = (u, r, t) := by simp [Row.triple, het]
      have hke : ¬ key u r t = key u r e.1 := fun h => het (hk e (by simp) h.symm)
      rw [if_neg htr]
      simp only [keep]
      split
      · exact ⟨ih1, ih2⟩
      · simp only
        rw [hrows, AccountData.last_snoc, if_neg htr, Assoc.get_set, if_neg hke]
        exact ⟨ih1, ih2⟩

theorem last_rows_none (u' r' u r t : String) (es : List (String × String))
    (h : ¬ (u' = u ∧ r' = r ∧ t ∈ es.map (·.1))) : last (rows u' r' es) (u, r, t) = none := by
  have : (rows u' r' es).filter (fun x => decide (x.triple = (u, r, t))) = [] := by
    rw [List.filter_eq_nil_iff]
    intro x hx
    obtain ⟨e, he, rfl⟩ := List.mem_map.1 hx
    simp only [Row.triple, Prod.mk.injEq, decide_eq_true_eq]
    rintro ⟨h1, h2, h3⟩
    exact h ⟨h1, h2, List.mem_map.2 ⟨e, he, h3⟩⟩
  simp [last, this]

theorem mem_foldl_keep (hash : String → Nat) (user room : String) (events : List (String × String)) (mem : List (String × Nat)) :
    ∀ e ∈ (events.foldl (keep hash user room) (mem, [])).2, e ∈ events := by
  induction events using Verif.Util.snocRec with
  | nil => intro e he; cases he
  | append_singleton l a ih =>
    rw [List.foldl_append]
    simp only [List.foldl_cons, List.foldl_nil, keep]
    intro e he
    split at he
    · exact List.mem_append_left _ (ih e he)
    · rcases List.mem_append.1 he with he | he
      · exact List.mem_append_left _ (ih e he)
      · exact List.mem_append_right _ he

theorem spec {hash : String → Nat} {tr : List (Op × Bool)} {s : State} (h : Run hash tr s) (u r t : String)
    (hr : Restarts u r t tr) (hk : OwnKey u r t tr) (hc : NoCollision hash u r t tr) :
    (s.db.map Row.triple).Nodup ∧ last s.db (u, r, t) = last (acked tr) (u, r, t) ∧
    (dirty u r t tr = false → ∀ h, Assoc.get s.mem (key u r t) = some h →
      ∃ d, last s.db (u, r, t) = some d ∧ hash d = h ∧ ∃ es f ok, (Op.deliver u r es f, ok) ∈ tr ∧ (t, d) ∈ es) := by
  induction h with
  | nil => exact ⟨by simp, rfl, by intro _ h hh; cases hh⟩
  | @snoc tr s s' op ok hrun hstep ih =>
    obtain ⟨ih0, ih1, ih2⟩ := ih
      (fun a es f ok' b he ht => hr a es f ok' (b ++ [(op, ok)]) (by rw [he]; simp) ht)
      (fun u' r' es f ok' hm => hk u' r' es f ok' (by simp [hm]))
      (fun es f ok' es' f' ok'' hm hm' => hc es f ok' es' f' ok'' (by simp [hm]) (by simp [hm']))
    cases op with
    | restart =>
      cases hstep
      refine ⟨ih0, ?_, ?_⟩
      · rw [acked_append]; simpa [acked] using ih1
      · intro _ h hh; cases hh
    | deliver u' r' es f =>
      -- what the loop does for this key
      have hmono : ∀ {d}, (∃ es0 f0 ok0, (Op.deliver u r es0 f0, ok0) ∈ tr ∧ (t, d) ∈ es0) →
          ∃ es0 f0 ok0, (Op.deliver u r es0 f0, ok0) ∈ tr ++ [(.deliver u' r' es f, ok)] ∧ (t, d) ∈ es0 := by
        rintro d ⟨es0, f0, ok0, h1, h2⟩
        exact ⟨es0, f0, ok0, by simp [h1], h2⟩
      by_cases hin : u' = u ∧ r' = r ∧ t ∈ es.map (·.1)
      · obtain ⟨rfl, rfl, ht⟩ := hin
        have hdirty : dirty u' r' t tr = false := hr tr es f ok [] rfl ht
        have hkeep := keep_spec hash u' r' t
          (fun d => ∃ es0 f0 ok0, (Op.deliver u' r' es0 f0, ok0) ∈ tr ++ [(.deliver u' r' es f, ok)] ∧ (t, d) ∈ es0)
          (fun d d' hd hd' hh => by
            obtain ⟨e1, f1, o1, h1, h2⟩ := hd
            obtain ⟨e2, f2, o2, h3, h4⟩ := hd'
            exact hc e1 f1 o1 e2 f2 o2 h1 h3 d d' h2 h4 hh)
          es s.mem (last s.db (u', r', t))
          (fun e he hkk => (hk u' r' es f ok (by simp) e he hkk).2.2)
          (fun d hd => ⟨es, f, ok, by simp, hd⟩)
          (fun h hh => by
            obtain ⟨d, h1, h2, h3⟩ := ih2 hdirty h hh
            exact ⟨d, h1, h2, hmono h3⟩)
        rw [dirty_snoc]
        simp only [ht, and_self, if_true]
        rw [acked_append, AccountData.last_append]
        cases hstep with
        | nothing hnil =>
          rw [hnil] at hkeep
          refine ⟨ih0, ?_, ?_⟩
          · simp only [acked, List.append_nil]
            rw [← ih1, ← hkeep.1]
            simp [rows, last]
          · intro _ h hh
            obtain ⟨d, h1, h2, h3⟩ := hkeep.2 h hh
            refine ⟨d, ?_, h2, h3⟩
            rw [← h1, ← hkeep.1]; simp [rows, last]
        | failed hne =>
          refine ⟨ih0, ?_, fun hb => by simp at hb⟩
          simp only [acked]
          rw [ih1]; simp [last]
        | stored hne hins =>
          obtain ⟨d', o', h1, h2, h3, _⟩ := AccountData.insert_spec ih0 (AccountData.single_scope_inj _ _ _) hins
          cases h1
          have hlast := h3 (u', r', t)
          refine ⟨h2, ?_, ?_⟩
          · simp only [acked, List.append_nil]
            rw [hlast, ← ih1]
            exact hkeep.1
          · intro _ h hh
            obtain ⟨d, h4, h5, h6⟩ := hkeep.2 h hh
            refine ⟨d, ?_, h5, h6⟩
            rw [hlast, ← h4]; exact hkeep.1
      · have hmem := keep_other hash u' r' es s.mem (key u r t) (fun e he hkk => by
          obtain ⟨h1, h2, h3⟩ := hk u' r' es f ok (by simp) e he hkk
          exact hin ⟨h1, h2, List.mem_map.2 ⟨e, he, h3⟩⟩)
        have hacked : last (acked [(Op.deliver u' r' es f, ok)]) (u, r, t) = none := by
          cases ok
          · rfl
          · simp only [acked, List.append_nil]; exact last_rows_none u' r' u r t es hin
        rw [dirty_snoc]
        simp only [if_neg hin]
        rw [acked_append, AccountData.last_append, hacked, Option.none_or]
        cases hstep with
        | nothing hnil =>
          refine ⟨ih0, ih1, ?_⟩
          intro hd h hh
          simp only at hh
          rw [hmem] at hh
          obtain ⟨d, h1, h2, h3⟩ := ih2 hd h hh
          exact ⟨d, h1, h2, hmono h3⟩
        | failed hne =>
          refine ⟨ih0, ih1, ?_⟩
          intro hd h hh
          simp only at hh
          rw [hmem] at hh
          obtain ⟨d, h1, h2, h3⟩ := ih2 hd h hh
          exact ⟨d, h1, h2, hmono h3⟩
        | @stored _ _ _ db' out hne hins =>
          obtain ⟨d', o', h1, h2, h3, _⟩ := AccountData.insert_spec ih0 (AccountData.single_scope_inj _ _ _) hins
          cases h1
          have hlast := h3 (u, r, t)
          have hsame : last db' (u, r, t) = last s.db (u, r, t) := by
            rw [hlast]
            have := last_rows_none u' r' u r t (es.foldl (keep hash u' r') (s.mem, [])).2 (by
              rintro ⟨h1, h2, h3⟩
              obtain ⟨e, he, h4⟩ := List.mem_map.1 h3
              exact hin ⟨h1, h2, List.mem_map.2 ⟨e, mem_foldl_keep _ _ _ _ _ e he, h4⟩⟩)
            simp only [rows] at this
            rw [this, Option.none_or]
          refine ⟨h2, hsame.trans ih1, ?_⟩
          intro hd h hh
          simp only at hh
          rw [hmem] at hh
          obtain ⟨d, h1, h2, h3⟩ := ih2 hd h hh
          exact ⟨d, hsame.trans h1, h2, hmono h3⟩

/-- For a user, room and type: if after a failed delivery the type is delivered again only after a restart (or never failed), no two
values delivered for it have the same hash, and no other user, room and type have the same key, then the table has
exactly what the successful deliveries wrote. Missing from C52: the retry within the same process, which is what it
is about. -/
theorem C52_stored_partial {hash : String → Nat} {tr : List (Op × Bool)} {s : State} (h : Run hash tr s) (u r t : String)
    (hr : Restarts u r t tr) (hk : OwnKey u r t tr) (hc : NoCollision hash u r t tr) (d : String) :
    ⟨u, r, t, d⟩ ∈ s.db ↔ LastWritten (acked tr) u r t d := by
  obtain ⟨h1, h2, _⟩ := spec h u r t hr hk hc
  rw [← AccountData.last_writes_iff, ← h2, AccountData.last_iff h1]
  constructor
  · intro hm; exact ⟨_, hm, rfl, rfl⟩
  · rintro ⟨⟨u', r', t', d'⟩, hm, h3, h4⟩
    simp only [Row.triple, Prod.mk.injEq] at h3
    obtain ⟨rfl, rfl, rfl⟩ := h3
    simp only at h4
    subst h4
    exact hm

/-! ### The key -/

/-- Text before the first separator. -/
theorem sep_inj {c : Char} : ∀ {a a' b b' : List Char}, c ∉ a → c ∉ a' → a ++ c :: b = a' ++ c :: b' → a = a' ∧ b = b'
  | [], [], _, _, _, _, h => ⟨rfl, (List.cons.inj h).2⟩
  | [], x :: a', _, _, _, h', h => absurd (by rw [(List.cons.inj h).1]; simp) h'
  | x :: a, [], _, _, h', _, h => absurd (by rw [← (List.cons.inj h).1]; simp) h'
  | x :: a, y :: a', b, b', ha, ha', h => by
    obtain ⟨h1, h2⟩ := List.cons.inj h
    obtain ⟨h3, h4⟩ := sep_inj (fun hh => ha (by simp [hh])) (fun hh => ha' (by simp [hh])) h2
    exact ⟨by rw [h1, h3], h4⟩

/-- Different users, rooms or types have different keys, if no user or room has a bar in it; the type may be anything. -/
theorem C52_key {u r t u' r' t' : String} (hu : '|' ∉ u.toList) (hu' : '|' ∉ u'.toList) (hr : '|' ∉ r.toList)
    (hr' : '|' ∉ r'.toList) (h : key u r t = key u' r' t') : u = u' ∧ r = r' ∧ t = t' := by
  have h := congrArg String.toList h
  simp only [key, String.toList_append, show "|".toList = ['|'] from rfl, List.append_assoc, List.cons_append,
    List.nil_append] at h
  obtain ⟨h1, h2⟩ := sep_inj hu hu' h
  obtain ⟨h3, h4⟩ := sep_inj hr hr' h2
  exact ⟨String.toList_inj.1 h1, String.toList_inj.1 h3, String.toList_inj.1 h4⟩

/-- No user or room delivered has a bar in it. -/
def NoBar (tr : List (Op × Bool)) : Prop := ∀ u r es f ok, (Op.deliver u r es f, ok) ∈ tr → '|' ∉ u.toList ∧ '|' ∉ r.toList

/-- So with such identifiers nothing of another user, room or type is taken for a repetition: the table has what the
successful deliveries wrote. -/
theorem C52_separate_partial {hash : String → Nat} {tr : List (Op × Bool)} {s : State} (h : Run hash tr s) (u r t : String)
    (hr : Restarts u r t tr) (hb : NoBar tr) (hu : '|' ∉ u.toList) (hv : '|' ∉ r.toList) (hc : NoCollision hash u r t tr)
    (d : String) : ⟨u, r, t, d⟩ ∈ s.db ↔ LastWritten (acked tr) u r t d :=
  C52_stored_partial h u r t hr (fun u' r' es f ok hm e _ hk => by
    obtain ⟨h1, h2⟩ := hb u' r' es f ok hm
    exact C52_key h1 hu h2 hv hk) hc d

example : NoBar [(.deliver "@a:h" "!r:h" [("m.tag", "{1}")] true, false), (.deliver "@a:h" "" [("m|x", "{1}")] false, true)] := by
  intro u r es f ok hm
  simp at hm
  rcases hm with hm | hm
  all_goals
    obtain ⟨⟨rfl, rfl, _⟩, _⟩ := hm
    decide +kernel

/-- A failure never reports success, and a success that suppressed something did so because the map had its hash. -/
theorem C52_success {hash : String → Nat} {s s' : State} {user room : String} {events : List (String × String)} {fails ok : Bool}
    (h : Step hash s (.deliver user room events fails) s' ok) :
    (ok = false → s'.db = s.db ∧ fails = true) ∧
    (fails = true → ok = true → s'.db = s.db ∧
      ∀ t, (∀ e ∈ events, e.1 = t) → ∀ e ∈ events, Assoc.get s.mem (key user room t) = some (hash e.2)) := by
  cases h with
  | nothing hnil =>
    refine ⟨by simp, fun _ _ => ⟨rfl, ?_⟩⟩
    intro t ht
    have : ∀ (l : List (String × String)), (∀ e ∈ l, e.1 = t) → (l.foldl (keep hash user room) (s.mem, [])).2 = [] →
        (l.foldl (keep hash user room) (s.mem, [])).1 = s.mem ∧
        ∀ e ∈ l, Assoc.get s.mem (key user room t) = some (hash e.2) := by
      intro l
      induction l using Verif.Util.snocRec with
      | nil => intro _ _; exact ⟨rfl, by simp⟩
      | append_singleton l e ih =>
        intro hl hn
        rw [List.foldl_append] at hn ⊢
        simp only [List.foldl_cons, List.foldl_nil, keep] at hn ⊢
        split at hn
        · rename_i hs
          obtain ⟨h1, h2⟩ := ih (fun e he => hl e (by simp [he])) hn
          rw [if_pos hs]
          refine ⟨h1, ?_⟩
          intro x hx
          rcases List.mem_append.1 hx with hx | hx
          · exact h2 x hx
          · rw [List.mem_singleton.1 hx, ← hl e (by simp), ← h1]; exact hs
        · simp at hn
    exact (this events ht hnil).2
  | failed hne => exact ⟨fun _ => ⟨rfl, rfl⟩, by simp⟩
  | stored hne hins => exact ⟨by simp, by simp⟩

/-- The hypotheses hold of a failure, a restart, and the retry. -/
example : ∃ s, Run (fun _ => 0) [(.deliver "@a" "" [("m.direct", "{1}")] true, false), (.restart, true),
      (.deliver "@a" "" [("m.direct", "{1}")] false, true)] s ∧ ⟨"@a", "", "m.direct", "{1}"⟩ ∈ s.db := by
  have h1 : Run (fun _ => 0) [(.deliver "@a" "" [("m.direct", "{1}")] true, false)] { mem := [("@a||m.direct", 0)], db := [] } := by
    have := Run.snoc (hash := fun _ => 0) Run.nil (Step.failed (hash := fun _ => 0) (s := {}) (user := "@a") (room := "")
      (events := [("m.direct", "{1}")]) (by simp [keep, Assoc.get]))
    simpa [keep, Assoc.get, Assoc.set, Assoc.del, key] using this
  have h2 := Run.snoc h1 Step.restart
  have hins : AccountData.InsertAccountData [] "@a" "" [("m.direct", "{1}")]
      (some ([⟨"@a", "", "m.direct", "{1}"⟩], [⟨"@a", "", "m.direct", "{1}"⟩])) :=
    ⟨[⟨"@a", "", "m.direct", "{1}"⟩], by simp [AccountData.dedupe], by decide +kernel⟩
  have h3 := Run.snoc h2 (Step.stored (hash := fun _ => 0) (user := "@a") (room := "") (events := [("m.direct", "{1}")])
    (by simp [keep, Assoc.get]) (by simpa [keep, Assoc.get] using hins))
  refine ⟨_, h3, (C52_stored_partial h3 "@a" "" "m.direct" ?_ ?_ ?_ "{1}").2 ⟨[], [], rfl, by simp⟩⟩
  · intro a es f ok b he ht
    match a, he with
    | [], he => rfl
    | [_], he => simp at he
    | [x, y], he => simp at he; rw [← he.1, ← he.2.1]; decide
    | _ :: _ :: _ :: _, he => simp at he
  · intro u' r' es f ok hm e he hk
    simp at hm
    rcases hm with hm | hm
    all_goals
      obtain ⟨⟨rfl, rfl, rfl, _⟩, _⟩ := hm
      simp at he
      simp [he]
  · intro es f ok es' f' ok' hm hm' d d' hd hd' _
    simp at hm hm'
    have h1 : es = [("m.direct", "{1}")] := by rcases hm with hm | hm <;> exact hm.1.1
    have h2 : es' = [("m.direct", "{1}")] := by rcases hm' with hm | hm <;> exact hm.1.1
    subst h1; subst h2
    simp at hd hd'
    rw [hd, hd']

end Verif.DedupAccount
