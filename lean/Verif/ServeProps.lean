import Verif.Serve
/-!
# C111: what a client is told; C112: what a refused request has done
-/
namespace Verif.Serve

/-! ## Numbers -/

/-- The decimal digits of a number. -/
def dec (n : Nat) : List Char :=
  if n < 10 then [Char.ofNat (48 + n)] else dec (n / 10) ++ [Char.ofNat (48 + n % 10)]
termination_by n

def addDigit (a : Option Nat) (c : Char) : Option Nat :=
  a.bind fun n => if '0' ≤ c ∧ c ≤ '9' then some (10 * n + (c.toNat - '0'.toNat)) else none

theorem digits_eq (cs : List Char) : digits cs = if cs = [] then none else cs.foldl addDigit (some 0) := by
  cases cs <;> rfl

theorem addDigit_digit (n : Nat) : ∀ k, k < 10 → addDigit (some n) (Char.ofNat (48 + k)) = some (10 * n + k) := by
  intro k hk
  have : k = 0 ∨ k = 1 ∨ k = 2 ∨ k = 3 ∨ k = 4 ∨ k = 5 ∨ k = 6 ∨ k = 7 ∨ k = 8 ∨ k = 9 := by omega
  rcases this with rfl | rfl | rfl | rfl | rfl | rfl | rfl | rfl | rfl | rfl <;> rfl

theorem dec_ne (n : Nat) : dec n ≠ [] := by
  unfold dec; split <;> simp

theorem fold_dec (n : Nat) : (dec n).foldl addDigit (some 0) = some n := by
  induction n using Nat.strongRecOn with
  | _ n ih =>
    unfold dec
    split
    · rename_i h
      show addDigit (some 0) _ = _
      rw [addDigit_digit 0 n h]; simp
    · rename_i h
      rw [List.foldl_append, ih (n / 10) (by omega), List.foldl_cons, List.foldl_nil]
      rw [addDigit_digit _ _ (Nat.mod_lt _ (by omega))]
      congr 1; omega

theorem digits_dec (n : Nat) : digits (dec n) = some n := by
  rw [digits_eq, if_neg (dec_ne n), fold_dec]

/-- Text of a number: an optional sign and decimal digits, leading zeros allowed. -/
def Denotes (s : List Char) (n : Int) : Prop :=
  ∃ (neg : Bool) (sign ds : List Char), s = sign ++ ds ∧ sign ∈ (if neg then [['-']] else [[], ['+']]) ∧ ds ≠ [] ∧
    (∀ c ∈ ds, '0' ≤ c ∧ c ≤ '9') ∧ n = (if neg then -1 else 1) * (ds.foldl (fun (a : Int) c => 10 * a + (c.toNat - 48)) 0)

theorem fold_none (cs : List Char) : cs.foldl addDigit none = none := by
  induction cs with
  | nil => rfl
  | cons c cs ih => exact ih

theorem fold_some {cs : List Char} {a n : Nat} (h : cs.foldl addDigit (some a) = some n) :
    (∀ c ∈ cs, '0' ≤ c ∧ c ≤ '9') ∧ (n : Int) = cs.foldl (fun (a : Int) c => 10 * a + (c.toNat - 48)) a := by
  induction cs generalizing a with
  | nil => cases h; exact ⟨by simp, rfl⟩
  | cons c cs ih =>
    rw [List.foldl_cons] at h
    by_cases hc : '0' ≤ c ∧ c ≤ '9'
    · have e : addDigit (some a) c = some (10 * a + (c.toNat - 48)) := by simp [addDigit, hc]
      rw [e] at h
      obtain ⟨h1, h2⟩ := ih h
      refine ⟨fun x hx => ?_, ?_⟩
      · rcases List.mem_cons.1 hx with h3 | h3
        · rw [h3]; exact hc
        · exact h1 x h3
      · rw [h2, List.foldl_cons]
        have h48 : 48 ≤ c.toNat := by
          have := hc.1
          exact this
        congr 1
        omega
    · have e : addDigit (some a) c = none := by simp [addDigit, hc]
      rw [e, fold_none] at h; cases h

theorem fold_conv {cs : List Char} (a : Nat) (h : ∀ c ∈ cs, '0' ≤ c ∧ c ≤ '9') : ∃ n, cs.foldl addDigit (some a) = some n := by
  induction cs generalizing a with
  | nil => exact ⟨a, rfl⟩
  | cons c cs ih =>
    have e : addDigit (some a) c = some (10 * a + (c.toNat - 48)) := by simp [addDigit, h c (by simp)]
    rw [List.foldl_cons, e]
    exact ih _ (fun x hx => h x (by simp [hx]))

theorem digits_iff (ds : List Char) (n : Nat) : digits ds = some n ↔ ds ≠ [] ∧ (∀ c ∈ ds, '0' ≤ c ∧ c ≤ '9') ∧
    (n : Int) = ds.foldl (fun (a : Int) c => 10 * a + (c.toNat - 48)) 0 := by
  rw [digits_eq]
  constructor
  · intro h
    split at h
    · cases h
    · rename_i hne
      obtain ⟨h1, h2⟩ := fold_some h
      exact ⟨hne, h1, h2⟩
  · rintro ⟨hne, h1, h2⟩
    rw [if_neg hne]
    obtain ⟨m, hm⟩ := fold_conv 0 h1
    have := (fold_some hm).2
    rw [hm]
    congr 1
    have : (m : Int) = n := by rw [this, h2]; rfl
    omega

theorem digit_ne {c : Char} (h : '0' ≤ c ∧ c ≤ '9') : c ≠ '-' ∧ c ≠ '+' := by
  constructor <;> (rintro rfl; revert h; decide)

/-- A parameter is taken to be a number exactly if it is one, of 64 bits. -/
theorem parseInt_iff (s : List Char) (n : Int) : parseInt s = some n ↔ Denotes s n ∧ -(2 ^ 63) ≤ n ∧ n < 2 ^ 63 := by
  constructor
  · intro h
    unfold parseInt at h
    split at h
    · rename_i cs
      rw [Option.bind_eq_some_iff] at h
      obtain ⟨m, h1, h2⟩ := h
      split at h2
      · cases h2
        obtain ⟨a, b, c⟩ := (digits_iff _ _).1 h1
        refine ⟨⟨true, ['-'], cs, rfl, by simp, a, b, by rw [c]; simp⟩, by omega, by omega⟩
      · cases h2
    · rename_i cs
      rw [Option.bind_eq_some_iff] at h
      obtain ⟨m, h1, h2⟩ := h
      split at h2
      · cases h2
        obtain ⟨a, b, c⟩ := (digits_iff _ _).1 h1
        refine ⟨⟨false, ['+'], cs, rfl, by simp, a, b, by rw [c]; simp⟩, by omega, by omega⟩
      · cases h2
    · rw [Option.bind_eq_some_iff] at h
      obtain ⟨m, h1, h2⟩ := h
      split at h2
      · cases h2
        obtain ⟨a, b, c⟩ := (digits_iff _ _).1 h1
        refine ⟨⟨false, [], s, rfl, by simp, a, b, by rw [c]; simp⟩, by omega, by omega⟩
      · cases h2
  · rintro ⟨⟨neg, sign, ds, rfl, hs, hne, hd, hn⟩, hlo, hhi⟩
    obtain ⟨m, hm⟩ := fold_conv 0 hd
    have hm' := (fold_some hm).2
    have hdig : digits ds = some m := (digits_iff ds m).2 ⟨hne, hd, hm'⟩
    have hn' : n = (if neg then -1 else 1) * (m : Int) := by rw [hn, hm']; rfl
    cases neg with
    | true =>
      simp only [if_true, List.mem_singleton] at hs hn'
      subst hs
      show (digits ds).bind _ = _
      rw [hdig]
      show (if m ≤ 2 ^ 63 then _ else _) = _
      rw [if_pos (by omega), hn']
      congr 1; omega
    | false =>
      simp only [Bool.false_eq_true, if_false, List.mem_cons, List.not_mem_nil, or_false] at hs hn'
      rcases hs with rfl | rfl
      · obtain ⟨c, cs, rfl⟩ : ∃ c cs, ds = c :: cs := by
          cases ds with
          | nil => exact absurd rfl hne
          | cons c cs => exact ⟨c, cs, rfl⟩
        obtain ⟨h1, h2⟩ := digit_ne (hd c (by simp))
        have : parseInt ([] ++ c :: cs) = (digits (c :: cs)).bind fun n => if n < 2 ^ 63 then some (n : Int) else none := by
          unfold parseInt
          split
          · rename_i heq; simp only [List.nil_append, List.cons.injEq] at heq; exact absurd heq.1 h1
          · rename_i heq; simp only [List.nil_append, List.cons.injEq] at heq; exact absurd heq.1 h2
          · rfl
        rw [this, hdig]
        show (if m < 2 ^ 63 then _ else _) = _
        rw [if_pos (by omega), hn']
        congr 1; omega
      · show (digits ds).bind _ = _
        rw [hdig]
        show (if m < 2 ^ 63 then _ else _) = _
        rw [if_pos (by omega), hn']
        congr 1; omega

/-- The text of a position the server gave, `sync3/conn.go:239`, is read as that position. -/
theorem parseInt_dec (n : Nat) (h : n < 2 ^ 63) : parseInt (dec n) = some (n : Int) := by
  obtain ⟨a, b, c⟩ := (digits_iff _ _).1 (digits_dec n)
  exact (parseInt_iff _ _).2 ⟨⟨false, [], dec n, rfl, by simp, a, b, by rw [c]; simp⟩, by omega, by omega⟩

/-! ## Specification -/

/-- A parameter is absent or a number of 64 bits. -/
def IntParam (s : String) : Prop := s = "" ∨ ∃ n, Denotes s.toList n ∧ -(2 ^ 63) ≤ n ∧ n < 2 ^ 63

/-- A request the server can read, and its connection id. -/
def Readable (r : Req) (cid : String) : Prop :=
  r.post = true ∧ ((r.body = .none ∧ cid = "") ∨
    ∃ b, r.body = .some b ∧ b.connId.utf8ByteSize ≤ 16 ∧ b.txnId.utf8ByteSize ≤ 64 ∧ b.badRanges = false ∧ cid = b.connId)

/-- The token of a request: what follows `Bearer `, or the whole header. -/
def Token (r : Req) (tok : String) : Prop :=
  r.auth ≠ "" ∧ (r.auth = "Bearer " ++ tok ∨ (r.auth = tok ∧ ∀ t, r.auth ≠ "Bearer " ++ t))

/-- The device of a token is known, or the homeserver tells it and it is stored. -/
def Known (e : Env) (tok : String) (d : Dev) : Prop :=
  e.lookup tok = .row d ∨ (e.lookup tok = .noRow ∧ e.whoami tok = .dev d ∧ e.insertOk = true)

/-- The request gets to a connection. -/
def Reaches (s : State) (e : Env) (r : Req) (d : Dev) (cid : String) : Prop :=
  if r.pos = "" then e.expired = false ∧ e.gone = false ∧ e.cacheOk = true else (Assoc.get s.conns (d, cid)).isSome

theorem extract_iff (r : Req) (tok : String) : extract r.auth = some tok ↔ Token r tok := by
  unfold extract Token
  by_cases h0 : r.auth = ""
  · simp [h0]
  · rw [if_neg h0]
    have hpre : ∀ t : String, r.auth = "Bearer " ++ t ↔ r.auth.toList = "Bearer ".toList ++ t.toList := fun t => by
      rw [← String.toList_append, String.toList_inj]
    simp only [Option.some.injEq, ne_eq, h0, not_false_eq_true, true_and]
    unfold trimPrefix
    cases hp : "Bearer ".toList.isPrefixOf r.auth.toList with
    | true =>
      obtain ⟨t, ht⟩ := List.isPrefixOf_iff_prefix.1 hp
      have hd : r.auth.toList.drop "Bearer ".toList.length = t := by rw [← ht, List.drop_left]
      have ha : r.auth = "Bearer " ++ String.ofList t := (hpre _).2 (by rw [show (String.ofList t).toList = t from String.toList_ofList]; exact ht.symm)
      rw [if_pos rfl, hd]
      constructor
      · rintro rfl; exact Or.inl ha
      · rintro (h | ⟨_, h⟩)
        · rw [hpre, ← ht] at h
          have := List.append_cancel_left h
          rw [this, String.ofList_toList]
        · exact absurd ha (h _)
    | false =>
      rw [if_neg (by simp), String.ofList_toList]
      have hno : ∀ t, r.auth ≠ "Bearer " ++ t := by
        intro t h
        rw [hpre] at h
        have : "Bearer ".toList.isPrefixOf r.auth.toList = true := List.isPrefixOf_iff_prefix.2 ⟨_, h.symm⟩
        rw [hp] at this; cases this
      constructor
      · intro h; exact Or.inr ⟨h, hno⟩
      · rintro (h | ⟨h, _⟩)
        · exact absurd h (hno _)
        · exact h

theorem token_unique {r : Req} {a b : String} (ha : Token r a) (hb : Token r b) : a = b := by
  have h1 := (extract_iff r a).2 ha
  have h2 := (extract_iff r b).2 hb
  rw [h1] at h2; exact Option.some.inj h2

theorem known_unique {e : Env} {t : String} {a b : Dev} (ha : Known e t a) (hb : Known e t b) : a = b := by
  rcases ha with h | ⟨h, h', _⟩ <;> rcases hb with g | ⟨g, g', _⟩
  · rw [h] at g; cases g; rfl
  · rw [h] at g; cases g
  · rw [h] at g; cases g
  · rw [h'] at g'; cases g'; rfl

theorem parseQuery_ok (s : String) : (∃ n, parseQuery s = .ok n) ↔ IntParam s := by
  unfold parseQuery IntParam
  by_cases h : s = ""
  · simp [h]
  · simp only [h, if_false, false_or]
    cases hp : parseInt s.toList with
    | none =>
      constructor
      · rintro ⟨n, hn⟩; cases hn
      · rintro ⟨n, hn⟩; rw [(parseInt_iff _ _).2 hn] at hp; cases hp
    | some n => exact ⟨fun _ => ⟨n, (parseInt_iff _ _).1 hp⟩, fun _ => ⟨n, rfl⟩⟩

theorem parseQuery_cases (s : String) : (∃ n, parseQuery s = .ok n ∧ IntParam s) ∨ (parseQuery s = .error { status := 400 } ∧ ¬ IntParam s) := by
  cases h : parseQuery s with
  | ok n => exact Or.inl ⟨n, rfl, (parseQuery_ok s).1 ⟨n, h⟩⟩
  | error x =>
    right
    refine ⟨?_, fun hi => ?_⟩
    · unfold parseQuery at h
      split at h
      · cases h
      · split at h <;> cases h; rfl
    · obtain ⟨n, hn⟩ := (parseQuery_ok s).2 hi; rw [h] at hn; cases hn

theorem readBody_cases (r : Req) (hp : r.post = true) : (∃ b, readBody r.body = .ok b ∧ Readable r b.connId ∧ ∀ c, Readable r c → c = b.connId) ∨
    (readBody r.body = .error { status := 400 } ∧ ∀ c, ¬ Readable r c) := by
  unfold readBody Readable
  cases hb : r.body with
  | none => left; exact ⟨{}, rfl, ⟨hp, Or.inl ⟨rfl, rfl⟩⟩, fun c hc => by simpa using hc.2⟩
  | undecodable => right; exact ⟨rfl, fun c hc => by simpa using hc.2⟩
  | some b =>
    simp only [reduceCtorEq, false_and, BodyIn.some.injEq, false_or, exists_eq_left', hp, true_and]
    by_cases h1 : 16 < b.connId.utf8ByteSize
    · rw [if_pos h1]; right; exact ⟨rfl, fun c hc => by omega⟩
    · rw [if_neg h1]
      by_cases h2 : 64 < b.txnId.utf8ByteSize
      · rw [if_pos h2]; right; exact ⟨rfl, fun c hc => by omega⟩
      · rw [if_neg h2]
        by_cases h3 : b.badRanges = true
        · rw [if_pos h3]; right; exact ⟨rfl, fun c hc => by simp [h3] at hc⟩
        · rw [if_neg h3]; left
          exact ⟨b, rfl, ⟨by omega, by omega, by simpa using h3, rfl⟩, fun c hc => hc.2.2.2⟩

/-- All the ways a request can go. -/
inductive Outcome (s : State) (n : Nat) (e : Env) (r : Req) : State × Reply → Prop
  | method : r.post = false → Outcome s n e r (s, .reply 405 "")
  | body : r.post = true → (∀ c, ¬ Readable r c) → Outcome s n e r (s, .reply 400 "")
  | noHeader (cid : String) : Readable r cid → r.auth = "" → Outcome s n e r (s, .reply 401 "")
  | noToken (cid : String) : Readable r cid → Token r "" → Outcome s n e r (s, .crash)
  | lookup (cid tok : String) : Readable r cid → Token r tok → tok ≠ "" → e.lookup tok = .fail → Outcome s n e r (s, .reply 500 "")
  | rejected (cid tok : String) : Readable r cid → Token r tok → tok ≠ "" → e.lookup tok = .noRow → e.whoami tok = .rejected →
      Outcome s n e r (s, .reply 401 "M_UNKNOWN_TOKEN")
  | gateway (cid tok : String) : Readable r cid → Token r tok → tok ≠ "" → e.lookup tok = .noRow → e.whoami tok = .fail →
      Outcome s n e r (s, .reply 502 "")
  | insert (cid tok : String) (d : Dev) : Readable r cid → Token r tok → tok ≠ "" → e.lookup tok = .noRow → e.whoami tok = .dev d →
      e.insertOk = false → Outcome s n e r (s, .reply 500 "")
  | stopped (cid tok : String) (d : Dev) (s' : State) (x : Nat × String) : Readable r cid → Token r tok → tok ≠ "" → Known e tok d →
      ¬ Reaches s e r d cid → s'.conns = s.conns →
      x = (if r.pos = "" then (if e.expired then (401, "M_UNKNOWN_TOKEN") else if e.gone then (400, "") else (500, ""))
        else (400, "M_UNKNOWN_POS")) → Outcome s n e r (s', .reply x.1 x.2)
  | reached (cid tok : String) (d : Dev) (s' : State) (b : Nat) (y : Reply) : Readable r cid → Token r tok → tok ≠ "" → Known e tok d →
      Reaches s e r d cid → s'.conns = Assoc.set s.conns (d, cid) ⟨b, n⟩ →
      (r.pos = "" → b = n) → (r.pos ≠ "" → ∃ c, Assoc.get s.conns (d, cid) = some c ∧ c.born = b) →
      (IntParam r.pos → IntParam r.timeout → y = match e.answer, e.encode with
        | .unknownPos, _ => .reply 400 "M_UNKNOWN_POS"
        | .err, _ => .reply 500 ""
        | .resp, .ok => .reply 200 ""
        | .resp, _ => .broken) →
      (¬ (IntParam r.pos ∧ IntParam r.timeout) → y = .reply 400 "") → Outcome s n e r (s', y)

/-- What `ServeHTTP` makes of an error. -/
def toReply (h : Option HErr) : Reply :=
  match h with
  | none => .reply 200 ""
  | some h => if h.nilErr then .crash else if h.sent then .broken else .reply h.status h.code

theorem serveHTTP_eq (s : State) (n : Nat) (e : Env) (r : Req) (hp : r.post = true) :
    serveHTTP s n e r = ((serve s n e r).1, toReply (serve s n e r).2) := by
  unfold serveHTTP toReply
  rw [hp]
  simp only [Bool.not_true, Bool.false_eq_true, if_false]
  rcases serve s n e r with ⟨s', h⟩
  cases h with
  | none => rfl
  | some h =>
    simp only
    split
    · rfl
    · split <;> rfl

theorem finish_spec (e : Env) (r : Req) :
    (IntParam r.pos → IntParam r.timeout → toReply (finish e r) = match e.answer, e.encode with
        | .unknownPos, _ => .reply 400 "M_UNKNOWN_POS"
        | .err, _ => .reply 500 ""
        | .resp, .ok => .reply 200 ""
        | .resp, _ => .broken) ∧
      (¬ (IntParam r.pos ∧ IntParam r.timeout) → toReply (finish e r) = .reply 400 "") := by
  have ht : (if r.timeout = "" then Except.ok 0 else parseQuery r.timeout) = parseQuery r.timeout := by
    by_cases h : r.timeout = ""
    · rw [if_pos h, h]; rfl
    · rw [if_neg h]
  unfold finish
  rw [ht]
  rcases parseQuery_cases r.pos with ⟨a, ha, ia⟩ | ⟨ha, ia⟩
  · rcases parseQuery_cases r.timeout with ⟨b, hb, ib⟩ | ⟨hb, ib⟩
    · rw [ha, hb]
      refine ⟨fun _ _ => ?_, fun h => absurd ⟨ia, ib⟩ h⟩
      cases e.answer <;> cases e.encode <;> rfl
    · rw [ha, hb]
      exact ⟨fun _ h => absurd h ib, fun _ => rfl⟩
  · rw [ha]
    exact ⟨fun h => absurd h ia, fun _ => rfl⟩

theorem connect_spec (s0 s : State) (n : Nat) (e : Env) (r : Req) (d : Dev) (cid : String) (hs : s.conns = s0.conns) :
    (¬ Reaches s0 e r d cid ∧ (connect s n e d cid r.pos).1.conns = s0.conns ∧ ∃ h, (connect s n e d cid r.pos).2 = .error h ∧ h.nilErr = false ∧
      h.sent = false ∧ (h.status, h.code) = (if r.pos = "" then (if e.expired then (401, "M_UNKNOWN_TOKEN") else if e.gone then (400, "") else (500, ""))
        else (400, "M_UNKNOWN_POS"))) ∨
    (Reaches s0 e r d cid ∧ ∃ b, (connect s n e d cid r.pos).1.conns = Assoc.set s0.conns (d, cid) ⟨b, n⟩ ∧ (connect s n e d cid r.pos).2 = .ok () ∧
      (r.pos = "" → b = n) ∧ (r.pos ≠ "" → ∃ c, Assoc.get s0.conns (d, cid) = some c ∧ c.born = b)) := by
  unfold connect Reaches
  by_cases hp : r.pos = ""
  · simp only [hp, ne_eq, not_true_eq_false, if_false, if_true, forall_const, false_implies, and_true]
    cases e.expired with
    | true => left; exact ⟨by simp, hs, _, rfl, rfl, rfl, rfl⟩
    | false =>
      cases e.gone with
      | true => left; exact ⟨by simp, hs, _, rfl, rfl, rfl, rfl⟩
      | false =>
        cases e.cacheOk with
        | false => left; exact ⟨by simp, hs, _, rfl, rfl, rfl, rfl⟩
        | true => right; exact ⟨by simp, n, by rw [← hs]; rfl, rfl, rfl⟩
  · simp only [hp, ne_eq, not_false_eq_true, if_true, if_false, forall_const, false_implies, true_and]
    rw [hs]
    cases hg : Assoc.get s0.conns (d, cid) with
    | none => left; exact ⟨by simp, hs, _, rfl, rfl, rfl, rfl⟩
    | some c => right; exact ⟨by simp, c.born, rfl, rfl, c, rfl, rfl⟩

theorem outcome (s : State) (n : Nat) (e : Env) (r : Req) : Outcome s n e r (serveHTTP s n e r) := by
  cases hp : r.post with
  | false =>
    have : serveHTTP s n e r = (s, .reply 405 "") := by unfold serveHTTP; rw [hp]; rfl
    rw [this]; exact .method hp
  | true =>
    rw [serveHTTP_eq s n e r hp]
    unfold serve
    rcases readBody_cases r hp with ⟨b, hb, hr, _⟩ | ⟨hb, hr⟩
    · rw [hb]
      simp only
      have known : ∀ (tok : String) (d : Dev) (s1 : State), authenticate s e r.auth = (s1, .ok d) → Token r tok → tok ≠ "" → Known e tok d →
          s1.conns = s.conns → Outcome s n e r
            ((match authenticate s e r.auth with
              | (s, .error h) => (s, some h)
              | (s, .ok d) => match connect s n e d b.connId r.pos with
                | (s, .error h) => (s, some h)
                | (s, .ok ()) => (s, finish e r)).1,
            toReply (match authenticate s e r.auth with
              | (s, .error h) => (s, some h)
              | (s, .ok d) => match connect s n e d b.connId r.pos with
                | (s, .error h) => (s, some h)
                | (s, .ok ()) => (s, finish e r)).2) := by
        intro tok d s1 ha ht hne hk hc
        rw [ha]
        simp only
        rcases connect_spec s s1 n e r d b.connId hc with ⟨h1, h2, h, h3, h4, h5, h6⟩ | ⟨h1, b', h2, h3, h4, h5⟩
        · rcases hcon : connect s1 n e d b.connId r.pos with ⟨s2, x⟩
          rw [hcon] at h2 h3
          simp only at h2 h3
          subst h3
          have : toReply (some h) = .reply (h.status, h.code).1 (h.status, h.code).2 := by simp [toReply, h4, h5]
          simp only [this]
          exact .stopped b.connId tok d s2 _ hr ht hne hk h1 h2 h6
        · rcases hcon : connect s1 n e d b.connId r.pos with ⟨s2, x⟩
          rw [hcon] at h2 h3
          simp only at h2 h3
          subst h3
          simp only
          exact .reached b.connId tok d s2 b' _ hr ht hne hk h1 h2 h4 h5 (finish_spec e r).1 (finish_spec e r).2
      unfold authenticate at known ⊢
      cases ha : extract r.auth with
      | none =>
        have : r.auth = "" := by
          unfold extract at ha
          split at ha
          · assumption
          · cases ha
        exact .noHeader b.connId hr this
      | some tok =>
        have ht := (extract_iff r tok).1 ha
        rw [ha] at known
        simp only at known ⊢
        by_cases h0 : tok = ""
        · subst h0
          simp only [if_true]
          exact .noToken b.connId hr ht
        · simp only [h0, if_false] at known ⊢
          cases hl : e.lookup tok with
          | row d =>
            rw [hl] at known
            exact known tok d s rfl ht h0 (Or.inl hl) rfl
          | fail => exact .lookup b.connId tok hr ht h0 hl
          | noRow =>
            rw [hl] at known
            simp only at known ⊢
            unfold identify at known ⊢
            cases hw : e.whoami tok with
            | rejected => exact .rejected b.connId tok hr ht h0 hl hw
            | fail => exact .gateway b.connId tok hr ht h0 hl hw
            | dev d =>
              rw [hw] at known
              simp only at known ⊢
              cases hi : e.insertOk with
              | false => exact .insert b.connId tok d hr ht h0 hl hw hi
              | true =>
                rw [hi] at known
                exact known tok d _ rfl ht h0 (Or.inr ⟨hl, hw, hi⟩) rfl
    · rw [hb]
      exact .body hp hr

theorem readable_unique {r : Req} {a b : String} (ha : Readable r a) (hb : Readable r b) : a = b := by
  rcases readBody_cases r ha.1 with ⟨c, _, _, h⟩ | ⟨_, h⟩
  · rw [h a ha, h b hb]
  · exact absurd ha (h a)

/-! ## C111 -/

/-- C111, in part: the server replies, except to a header which is `Bearer ` with no token. -/
theorem C111_crash (s : State) (n : Nat) (e : Env) (r : Req) :
    (serveHTTP s n e r).2 = .crash ↔ (∃ cid, Readable r cid) ∧ r.auth = "Bearer " := by
  have ho := outcome s n e r
  constructor
  · intro h
    generalize serveHTTP s n e r = x at h ho
    cases ho with
    | noToken cid h1 h2 =>
      refine ⟨⟨cid, h1⟩, ?_⟩
      rcases h2.2 with h3 | ⟨h3, _⟩
      · rw [h3]; rfl
      · exact absurd h3 h2.1
    | reached cid tok d s' b y _ _ _ _ _ _ _ _ h1 h2 =>
      by_cases hi : IntParam r.pos ∧ IntParam r.timeout
      · have := (show y = _ from h).symm.trans (h1 hi.1 hi.2)
        revert this
        cases e.answer <;> cases e.encode <;> simp
      · cases (show y = _ from h).symm.trans (h2 hi)
    | _ => cases h
  · rintro ⟨⟨cid, hr⟩, ha⟩
    have ht : Token r "" := ⟨by rw [ha]; decide, Or.inl (by rw [ha]; rfl)⟩
    generalize serveHTTP s n e r = x at ho
    cases ho with
    | noToken _ _ _ => rfl
    | method h => rw [hr.1] at h; cases h
    | body _ h => exact absurd hr (h cid)
    | noHeader _ _ h => rw [ha] at h; exact absurd h (by decide)
    | lookup _ _ _ h h' => exact absurd (token_unique h ht) h'
    | rejected _ _ _ h h' => exact absurd (token_unique h ht) h'
    | gateway _ _ _ h h' => exact absurd (token_unique h ht) h'
    | insert _ _ _ _ h h' => exact absurd (token_unique h ht) h'
    | stopped _ _ _ _ _ _ h h' => exact absurd (token_unique h ht) h'
    | reached _ _ _ _ _ _ _ h h' => exact absurd (token_unique h ht) h'

/-- The code violates the property: the header `Bearer ` with no token makes the handler panic, so that there is no reply. -/
theorem C111_violated_crash : ∃ s n e r, (serveHTTP s n e r).2 = .crash :=
  ⟨{}, 0, { lookup := fun _ => .noRow, whoami := fun _ => .rejected }, { auth := "Bearer " }, by decide⟩

theorem known_look {e : Env} {tok : String} {d : Dev} (h : Known e tok d) : e.lookup tok ≠ .fail ∧
    (e.lookup tok = .noRow → e.whoami tok = .dev d ∧ e.insertOk = true) := by
  rcases h with h | ⟨h, h', h''⟩
  · rw [h]; exact ⟨by simp, by simp⟩
  · rw [h]; exact ⟨by simp, fun _ => ⟨h', h''⟩⟩

/-- The reply to a request of a known device. -/
theorem of_known {s : State} {n : Nat} {e : Env} {r : Req} {cid tok : String} {d : Dev} (hr : Readable r cid) (ht : Token r tok) (h0 : tok ≠ "")
    (hk : Known e tok d) :
    (¬ Reaches s e r d cid → (serveHTTP s n e r).2 = if r.pos = "" then (if e.expired then .reply 401 "M_UNKNOWN_TOKEN" else
        if e.gone then .reply 400 "" else .reply 500 "") else .reply 400 "M_UNKNOWN_POS") ∧
    (Reaches s e r d cid → (¬ (IntParam r.pos ∧ IntParam r.timeout) → (serveHTTP s n e r).2 = .reply 400 "") ∧
      (IntParam r.pos → IntParam r.timeout → (serveHTTP s n e r).2 = match e.answer, e.encode with
        | .unknownPos, _ => .reply 400 "M_UNKNOWN_POS"
        | .err, _ => .reply 500 ""
        | .resp, .ok => .reply 200 ""
        | .resp, _ => .broken)) := by
  have ho := outcome s n e r
  generalize serveHTTP s n e r = x at ho
  cases ho with
  | method h => rw [hr.1] at h; cases h
  | body _ h => exact absurd hr (h cid)
  | noHeader _ _ h => exact absurd h ht.1
  | noToken _ _ h => exact absurd (token_unique ht h) h0
  | lookup _ _ _ h _ h' => rw [token_unique h ht] at h'; exact absurd h' (known_look hk).1
  | rejected _ _ _ h _ h1 h2 =>
    rw [token_unique h ht] at h1 h2
    rw [((known_look hk).2 h1).1] at h2; cases h2
  | gateway _ _ _ h _ h1 h2 =>
    rw [token_unique h ht] at h1 h2
    rw [((known_look hk).2 h1).1] at h2; cases h2
  | insert _ _ _ _ h _ h1 _ h2 =>
    rw [token_unique h ht] at h1
    rw [((known_look hk).2 h1).2] at h2; cases h2
  | stopped cid' tok' d' s' x g1 g2 _ g3 g4 _ g5 =>
    have := token_unique g2 ht; subst this
    have := readable_unique g1 hr; subst this
    have := known_unique g3 hk; subst this
    refine ⟨fun _ => ?_, fun h => absurd h g4⟩
    subst g5
    show Reply.reply _ _ = _
    split
    · split
      · rfl
      · split <;> rfl
    · rfl
  | reached cid' tok' d' s' b y g1 g2 _ g3 g4 _ _ _ g5 g6 =>
    have := token_unique g2 ht; subst this
    have := readable_unique g1 hr; subst this
    have := known_unique g3 hk; subst this
    exact ⟨fun h => absurd g4 h, fun _ => ⟨g6, g5⟩⟩

/-- C111, in part: a client is told that its token is unknown exactly if the homeserver refuses the token, or if polling with it failed. -/
theorem C111_unknown_token (s : State) (n : Nat) (e : Env) (r : Req) : (∃ st, (serveHTTP s n e r).2 = .reply st "M_UNKNOWN_TOKEN") ↔
    ∃ cid tok, Readable r cid ∧ Token r tok ∧ tok ≠ "" ∧ ((e.lookup tok = .noRow ∧ e.whoami tok = .rejected) ∨
      (∃ d, Known e tok d ∧ r.pos = "" ∧ e.expired = true)) := by
  constructor
  · rintro ⟨st, h⟩
    have ho := outcome s n e r
    generalize serveHTTP s n e r = x at h ho
    cases ho with
    | rejected cid tok h1 h2 h3 h4 h5 => exact ⟨cid, tok, h1, h2, h3, Or.inl ⟨h4, h5⟩⟩
    | stopped cid tok d s' x h1 h2 h3 h4 h5 _ h6 =>
      refine ⟨cid, tok, h1, h2, h3, Or.inr ⟨d, h4, ?_⟩⟩
      subst h6
      have h := (Reply.reply.inj (show Reply.reply _ _ = _ from h)).2
      revert h
      split
      · rename_i hp
        split
        · rename_i he; exact fun _ => ⟨hp, he⟩
        · split <;> simp
      · simp
    | reached cid tok d s' b y _ _ _ _ _ _ _ _ h1 h2 =>
      by_cases hi : IntParam r.pos ∧ IntParam r.timeout
      · have := (show y = _ from h).symm.trans (h1 hi.1 hi.2)
        revert this
        cases e.answer <;> cases e.encode <;> simp
      · have := (show y = _ from h).symm.trans (h2 hi)
        simp at this
    | _ => simp at h
  · rintro ⟨cid, tok, hr, ht, h0, h⟩
    rcases h with ⟨hl, hw⟩ | ⟨d, hk, hp, he⟩
    · have ho := outcome s n e r
      generalize serveHTTP s n e r = x at ho
      cases ho with
      | method h => rw [hr.1] at h; cases h
      | body _ h => exact absurd hr (h cid)
      | noHeader _ _ h => exact absurd h ht.1
      | noToken _ _ h => exact absurd (token_unique ht h) h0
      | lookup _ _ _ h _ h' => rw [token_unique h ht, hl] at h'; cases h'
      | rejected _ _ _ _ _ _ _ => exact ⟨_, rfl⟩
      | gateway _ _ _ h _ _ h2 => rw [token_unique h ht, hw] at h2; cases h2
      | insert _ _ _ _ h _ _ h2 => rw [token_unique h ht, hw] at h2; cases h2
      | stopped _ _ _ _ _ _ h _ h2 => rw [token_unique h ht] at h2; rw [((known_look h2).2 hl).1] at hw; cases hw
      | reached _ _ _ _ _ _ _ h _ h2 => rw [token_unique h ht] at h2; rw [((known_look h2).2 hl).1] at hw; cases hw
    · refine ⟨401, ?_⟩
      rw [(of_known hr ht h0 hk).1 (by simp [Reaches, hp, he])]
      simp [hp, he]

/-- C111, in part: a client is told that its position is unknown exactly if there is no connection for it, or the connection does not
know the position. -/
theorem C111_unknown_pos (s : State) (n : Nat) (e : Env) (r : Req) : (∃ st, (serveHTTP s n e r).2 = .reply st "M_UNKNOWN_POS") ↔
    ∃ cid tok d, Readable r cid ∧ Token r tok ∧ tok ≠ "" ∧ Known e tok d ∧ ((r.pos ≠ "" ∧ Assoc.get s.conns (d, cid) = none) ∨
      (Reaches s e r d cid ∧ IntParam r.pos ∧ IntParam r.timeout ∧ e.answer = .unknownPos)) := by
  constructor
  · rintro ⟨st, h⟩
    have ho := outcome s n e r
    generalize serveHTTP s n e r = x at h ho
    cases ho with
    | stopped cid tok d s' x h1 h2 h3 h4 h5 _ h6 =>
      refine ⟨cid, tok, d, h1, h2, h3, h4, Or.inl ?_⟩
      by_cases hp : r.pos = ""
      · subst h6
        rw [if_pos hp] at h
        revert h
        split
        · simp
        · split <;> simp
      · refine ⟨hp, ?_⟩
        simpa [Reaches, hp] using h5
    | reached cid tok d s' b y g1 g2 g3 g4 g5 _ _ _ h1 h2 =>
      by_cases hi : IntParam r.pos ∧ IntParam r.timeout
      · refine ⟨cid, tok, d, g1, g2, g3, g4, Or.inr ⟨g5, hi.1, hi.2, ?_⟩⟩
        have := (show y = _ from h).symm.trans (h1 hi.1 hi.2)
        revert this
        cases e.answer <;> cases e.encode <;> simp
      · have := (show y = _ from h).symm.trans (h2 hi)
        simp at this
    | _ => simp at h
  · rintro ⟨cid, tok, d, hr, ht, h0, hk, ⟨hp, hg⟩ | ⟨hre, hi, hi', ha⟩⟩
    · exact ⟨400, by rw [(of_known hr ht h0 hk).1 (by simp [Reaches, hp, hg])]; simp [hp]⟩
    · exact ⟨400, by rw [((of_known hr ht h0 hk).2 hre).2 hi hi', ha]⟩

/-- C111, in part: the status is one of a server error only if something on the server's side failed. -/
theorem C111_server_error (s : State) (n : Nat) (e : Env) (r : Req) (st : Nat) (c : String) (h : (serveHTTP s n e r).2 = .reply st c)
    (hst : 500 ≤ st) : ∃ tok, Token r tok ∧ (e.lookup tok = .fail ∨ (e.lookup tok = .noRow ∧ (e.whoami tok = .fail ∨ e.insertOk = false)) ∨
      (r.pos = "" ∧ e.expired = false ∧ e.gone = false ∧ e.cacheOk = false) ∨ e.answer = .err) ∧ (st = 502 ↔ e.lookup tok = .noRow ∧ e.whoami tok = .fail) := by
  have ho := outcome s n e r
  generalize serveHTTP s n e r = x at h ho
  cases ho with
  | method _ | body _ _ | noHeader _ _ _ | rejected _ _ _ _ _ _ _ => cases h; simp at hst
  | noToken _ _ _ => cases h
  | lookup cid tok _ h2 _ h3 => cases h; exact ⟨tok, h2, Or.inl h3, by simp [h3]⟩
  | gateway cid tok _ h2 _ h3 h4 => cases h; exact ⟨tok, h2, Or.inr (Or.inl ⟨h3, Or.inl h4⟩), by simp [h3, h4]⟩
  | insert cid tok d _ h2 _ h3 h4 h5 => cases h; exact ⟨tok, h2, Or.inr (Or.inl ⟨h3, Or.inr h5⟩), by simp [h4]⟩
  | stopped cid tok d s' x _ h2 _ h4 h5 _ h6 =>
    subst h6
    have hno : ¬ (e.lookup tok = .noRow ∧ e.whoami tok = .fail) := fun hh => by
      have := ((known_look h4).2 hh.1).1; rw [hh.2] at this; cases this
    obtain ⟨e1, _⟩ := Reply.reply.inj (show Reply.reply _ _ = _ from h)
    by_cases hp : r.pos = ""
    · rw [if_pos hp] at e1
      cases he : e.expired with
      | true => rw [he] at e1; simp at e1; omega
      | false =>
        cases hg : e.gone with
        | true => rw [he, hg] at e1; simp at e1; omega
        | false =>
          rw [he, hg] at e1
          simp at e1
          have hc : e.cacheOk = false := by simpa [Reaches, hp, he, hg] using h5
          exact ⟨tok, h2, Or.inr (Or.inr (Or.inl ⟨hp, rfl, rfl, hc⟩)), ⟨fun h => by omega, fun h => absurd h hno⟩⟩
    · rw [if_neg hp] at e1; simp at e1; omega
  | reached cid tok d s' b y _ g2 _ g4 _ _ _ _ h1 h2 =>
    have hno : ¬ (e.lookup tok = .noRow ∧ e.whoami tok = .fail) := fun hh => by
      have := ((known_look g4).2 hh.1).1; rw [hh.2] at this; cases this
    by_cases hi : IntParam r.pos ∧ IntParam r.timeout
    · have := (show y = _ from h).symm.trans (h1 hi.1 hi.2)
      revert this
      cases ha : e.answer with
      | unknownPos => intro h; obtain ⟨h, _⟩ := Reply.reply.inj h; omega
      | resp => cases e.encode <;> intro h <;> simp at h; omega
      | err =>
        intro h
        obtain ⟨h, _⟩ := Reply.reply.inj h
        exact ⟨tok, g2, Or.inr (Or.inr (Or.inr rfl)), ⟨fun h' => by omega, fun h => absurd h hno⟩⟩
    · have := (show y = _ from h).symm.trans (h2 hi)
      obtain ⟨h, _⟩ := Reply.reply.inj this
      omega

/-- C111, in part: the status is one of a client error only if the client is at fault or has gone; see `C111_unknown_token` and
`C111_unknown_pos` for the two codes. -/
theorem C111_client_error (s : State) (n : Nat) (e : Env) (r : Req) (st : Nat) (c : String) (h : (serveHTTP s n e r).2 = .reply st c)
    (hst : st < 500) (h200 : st ≠ 200) :
    (st = 405 ∧ r.post = false) ∨ (st = 400 ∧ ∀ cid, ¬ Readable r cid) ∨ (st = 401 ∧ (r.auth = "" ∨ c = "M_UNKNOWN_TOKEN")) ∨
      (st = 400 ∧ (c = "M_UNKNOWN_POS" ∨ (r.pos = "" ∧ e.gone = true) ∨ ¬ IntParam r.pos ∨ ¬ IntParam r.timeout)) := by
  have ho := outcome s n e r
  generalize serveHTTP s n e r = x at h ho
  cases ho with
  | method h1 => cases h; exact Or.inl ⟨rfl, h1⟩
  | body _ h1 => cases h; exact Or.inr (Or.inl ⟨rfl, h1⟩)
  | noHeader _ _ h1 => cases h; exact Or.inr (Or.inr (Or.inl ⟨rfl, Or.inl h1⟩))
  | rejected _ _ _ _ _ _ _ => cases h; exact Or.inr (Or.inr (Or.inl ⟨rfl, Or.inr rfl⟩))
  | noToken _ _ _ => cases h
  | lookup _ _ _ _ _ _ | gateway _ _ _ _ _ _ _ | insert _ _ _ _ _ _ _ _ _ => cases h; omega
  | stopped cid tok d s' x _ _ _ _ h5 _ h6 =>
    subst h6
    obtain ⟨e1, e2⟩ := Reply.reply.inj (show Reply.reply _ _ = _ from h)
    by_cases hp : r.pos = ""
    · rw [if_pos hp] at e1 e2
      cases he : e.expired with
      | true => rw [he] at e1 e2; exact Or.inr (Or.inr (Or.inl ⟨e1.symm, Or.inr e2.symm⟩))
      | false =>
        cases hg : e.gone with
        | true => rw [he, hg] at e1; exact Or.inr (Or.inr (Or.inr ⟨e1.symm, Or.inr (Or.inl ⟨hp, rfl⟩)⟩))
        | false => rw [he, hg] at e1; simp at e1; omega
    · rw [if_neg hp] at e1 e2
      exact Or.inr (Or.inr (Or.inr ⟨e1.symm, Or.inl e2.symm⟩))
  | reached cid tok d s' b y _ _ _ _ _ _ _ _ h1 h2 =>
    by_cases hi : IntParam r.pos ∧ IntParam r.timeout
    · have := (show y = _ from h).symm.trans (h1 hi.1 hi.2)
      revert this
      cases ha : e.answer with
      | unknownPos => intro h; obtain ⟨h, h'⟩ := Reply.reply.inj h; exact Or.inr (Or.inr (Or.inr ⟨h, Or.inl h'⟩))
      | resp => cases e.encode <;> intro h <;> simp at h; omega
      | err => intro h; obtain ⟨h, _⟩ := Reply.reply.inj h; omega
    · have := (show y = _ from h).symm.trans (h2 hi)
      obtain ⟨h, _⟩ := Reply.reply.inj this
      refine Or.inr (Or.inr (Or.inr ⟨h, Or.inr (Or.inr ?_)⟩))
      by_cases h3 : IntParam r.pos
      · exact Or.inr fun h4 => hi ⟨h3, h4⟩
      · exact Or.inl h3

/-- C111, in part: a request is answered with a response exactly if it can be read, its token is known, its parameters are numbers and the
connection has a response. -/
theorem C111_ok (s : State) (n : Nat) (e : Env) (r : Req) : (serveHTTP s n e r).2 = .reply 200 "" ↔
    ∃ cid tok d, Readable r cid ∧ Token r tok ∧ tok ≠ "" ∧ Known e tok d ∧ Reaches s e r d cid ∧ IntParam r.pos ∧ IntParam r.timeout ∧
      e.answer = .resp ∧ e.encode = .ok := by
  constructor
  · intro h
    have ho := outcome s n e r
    generalize serveHTTP s n e r = x at h ho
    cases ho with
    | stopped cid tok d s' x h1 h2 h3 h4 h5 _ h6 =>
      subst h6
      revert h
      split
      · split
        · simp
        · split <;> simp
      · simp
    | reached cid tok d s' b y g1 g2 g3 g4 g5 _ _ _ h1 h2 =>
      by_cases hi : IntParam r.pos ∧ IntParam r.timeout
      · have := (show y = _ from h).symm.trans (h1 hi.1 hi.2)
        refine ⟨cid, tok, d, g1, g2, g3, g4, g5, hi.1, hi.2, ?_⟩
        revert this
        cases e.answer <;> cases e.encode <;> simp
      · have := (show y = _ from h).symm.trans (h2 hi)
        simp at this
    | _ => simp at h
  · rintro ⟨cid, tok, d, hr, ht, h0, hk, hre, hi, hi', ha, he⟩
    rw [((of_known hr ht h0 hk).2 hre).2 hi hi', ha, he]

/-! ## C112 -/

/-- C112, in part: a request that is refused before its connection is found leaves everything as it was. -/
theorem C112_unknown (s : State) (n : Nat) (e : Env) (r : Req)
    (h : ¬ ∃ cid tok d, Readable r cid ∧ Token r tok ∧ tok ≠ "" ∧ Known e tok d) : (serveHTTP s n e r).1 = s := by
  have ho := outcome s n e r
  generalize serveHTTP s n e r = x at ho
  cases ho with
  | stopped cid tok d _ _ h1 h2 h3 h4 => exact absurd ⟨cid, tok, d, h1, h2, h3, h4⟩ h
  | reached cid tok d _ _ _ h1 h2 h3 h4 => exact absurd ⟨cid, tok, d, h1, h2, h3, h4⟩ h
  | _ => rfl

/-- C112, in part: no request changes a connection other than the one of its own device and connection id. -/
theorem C112_own (s : State) (n : Nat) (e : Env) (r : Req) (k : Dev × String)
    (hk : Assoc.get (serveHTTP s n e r).1.conns k ≠ Assoc.get s.conns k) :
    ∃ tok, Readable r k.2 ∧ Token r tok ∧ Known e tok k.1 := by
  have ho := outcome s n e r
  generalize serveHTTP s n e r = x at ho hk
  cases ho with
  | stopped cid tok d s' x _ _ _ _ _ h => exact absurd (by rw [h]) hk
  | reached cid tok d s' b y h1 h2 h3 h4 _ h =>
    by_cases he : k = (d, cid)
    · subst he; exact ⟨tok, h1, h2, h4⟩
    · refine absurd ?_ hk
      show Assoc.get s'.conns k = _
      rw [h, Assoc.get_set, if_neg he]
  | _ => exact absurd rfl hk

/-- C112, in part: a request whose parameters are numbers, and which is not answered by the connection, leaves the connections as they
were. -/
theorem C112_partial (s : State) (n : Nat) (e : Env) (r : Req) (hi : IntParam r.pos) (hi' : IntParam r.timeout) (ha : e.answer = .resp)
    (h : (serveHTTP s n e r).2 ≠ .reply 200 "" ∧ (serveHTTP s n e r).2 ≠ .broken) : (serveHTTP s n e r).1.conns = s.conns := by
  have ho := outcome s n e r
  generalize serveHTTP s n e r = x at ho h
  cases ho with
  | stopped _ _ _ _ _ _ _ _ _ _ hc => exact hc
  | reached _ _ _ _ _ y _ _ _ _ _ _ _ _ h1 _ =>
    exfalso
    have := h1 hi hi'
    rw [ha] at this
    revert this
    cases e.encode <;> intro hy
    · exact h.1 hy
    · exact h.2 hy
    · exact h.2 hy
  | _ => rfl

/-- A device with a stored token and a connection made by request 1, whose request 2 is being answered. -/
def toyEnv : Env := { lookup := fun t => if t = "t" then .row ("@a", "D") else .noRow, whoami := fun _ => .rejected }

def toyState : State := { conns := [((("@a", "D"), ""), ⟨1, 2⟩)] }

/-- The code violates the property: a request without a position and with a timeout that is not a number is refused; by then the
connection of the device has been replaced by a new one. -/
theorem C112_violated_timeout : (serveHTTP toyState 3 toyEnv { auth := "Bearer t", timeout := "soon" }) =
    ({ conns := [((("@a", "D"), ""), ⟨3, 3⟩)], polled := [("@a", "D")] }, .reply 400 "") := by decide +kernel

/-- The code violates the property: a request with a position that is not a number is refused; by then it has taken the place of the
request which is cancelled when the connection is destroyed, so the request being answered is not cancelled. -/
theorem C112_violated_pos : (serveHTTP toyState 3 toyEnv { auth := "Bearer t", pos := "x" }) =
    ({ conns := [((("@a", "D"), ""), ⟨1, 3⟩)] }, .reply 400 "") := by decide +kernel

/-! ## Cases -/

/-- A request with a position is answered. -/
example : (serveHTTP toyState 3 toyEnv { auth := "Bearer t", pos := "17", timeout := "30000" }).2 = .reply 200 "" := by decide +kernel

/-- Numbers of 64 bits, with sign. -/
example : Denotes "-9223372036854775808".toList (-(2 ^ 63)) ∧ IntParam "" ∧ ¬ IntParam "9223372036854775808" ∧ ¬ IntParam "1_0" := by
  refine ⟨((parseInt_iff _ _).1 (by decide +kernel)).1, Or.inl rfl, ?_, ?_⟩
  · rintro (h | ⟨n, hn⟩)
    · exact absurd h (by decide)
    · have : parseInt "9223372036854775808".toList = none := by decide +kernel
      rw [(parseInt_iff _ _).2 hn] at this; cases this
  · rintro (h | ⟨n, hn⟩)
    · exact absurd h (by decide)
    · have : parseInt "1_0".toList = none := by decide +kernel
      rw [(parseInt_iff _ _).2 hn] at this; cases this

/-- A token the homeserver does not know. -/
example : (serveHTTP toyState 3 toyEnv { auth := "Bearer u" }) = (toyState, .reply 401 "M_UNKNOWN_TOKEN") := by decide +kernel

/-- A device without a connection that gives a position. -/
example : (serveHTTP {} 3 toyEnv { auth := "Bearer t", pos := "4" }).2 = .reply 400 "M_UNKNOWN_POS" := by decide +kernel

end Verif.Serve
