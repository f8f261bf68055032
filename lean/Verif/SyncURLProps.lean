import Verif.SyncURL
/-!
# C113: the homeserver is asked for what the poller means
-/
namespace Verif.SyncURL

/-! ## Specification: how a server reads a query -/

/-- The value of a hexadecimal digit of either case. -/
def hexVal (b : Byte) : Option Nat :=
  if 48 ≤ b.val ∧ b.val ≤ 57 then some (b.val - 48)
  else if 65 ≤ b.val ∧ b.val ≤ 70 then some (b.val - 55)
  else if 97 ≤ b.val ∧ b.val ≤ 102 then some (b.val - 87)
  else none

/-- Reading a value: `+` is a space and `%XX` a byte; a percent sign otherwise is an error. -/
def unescape : List Byte → Option (List Byte)
  | [] => some []
  | b :: rest =>
    if b = 37 then
      match rest with
      | h :: l :: rest =>
        match hexVal h, hexVal l with
        | some x, some y => (unescape rest).map (Fin.ofNat 256 (16 * x + y) :: ·)
        | _, _ => none
      | _ => none
    else (unescape rest).map ((if b = 43 then 32 else b) :: ·)

/-- The parts between separators. -/
def splitOn (sep : Byte) : List Byte → List (List Byte)
  | [] => [[]]
  | b :: rest =>
    if b = sep then [] :: splitOn sep rest
    else match splitOn sep rest with
      | [] => [[b]]
      | p :: ps => (b :: p) :: ps

/-- A parameter: the name up to the first `=`, and the value. -/
def readParam (p : List Byte) : Option (List Byte × List Byte) :=
  match unescape (p.takeWhile (· ≠ 61)), unescape ((p.dropWhile (· ≠ 61)).drop 1) with
  | some k, some v => some (k, v)
  | _, _ => none

/-- The parameters of a query: separated by `&`. -/
def readQuery (q : List Byte) : Option (List (List Byte × List Byte)) :=
  match q with
  | 63 :: q => (splitOn 38 q).mapM readParam
  | _ => none

/-! ## Escaping -/

theorem hex_cases : ∀ n : Fin 16, hexVal (hexDigit n.val) = some n.val ∧ hexDigit n.val ≠ 38 ∧ hexDigit n.val ≠ 61 := by decide

theorem hex_val (n : Nat) (h : n < 16) : hexVal (hexDigit n) = some n ∧ hexDigit n ≠ 38 ∧ hexDigit n ≠ 61 := hex_cases ⟨n, h⟩

theorem plain_clean (b : Byte) (h : plain b = true) : b ≠ 37 ∧ b ≠ 43 ∧ b ≠ 38 ∧ b ≠ 61 := by
  refine ⟨?_, ?_, ?_, ?_⟩ <;> (rintro rfl; revert h; decide)

theorem escapeByte_cases : ∀ b : Byte, (escapeByte b = [b] ∧ b ≠ 37 ∧ b ≠ 43) ∨ (escapeByte b = [43] ∧ b = 32) ∨
    (∃ h l x y, escapeByte b = [37, h, l] ∧ hexVal h = some x ∧ hexVal l = some y ∧ Fin.ofNat 256 (16 * x + y) = b) := by
  intro b
  unfold escapeByte
  cases hp : plain b with
  | true =>
    left
    exact ⟨rfl, (plain_clean b hp).1, (plain_clean b hp).2.1⟩
  | false =>
    by_cases h : b = 32
    · right; left; simp [h]
    · right; right
      have h1 := (hex_val (b.val / 16) (by omega)).1
      have h2 := (hex_val (b.val % 16) (by omega)).1
      have h3 : Fin.ofNat 256 (16 * (b.val / 16) + b.val % 16) = b := by
        apply Fin.ext
        show (16 * (b.val / 16) + b.val % 16) % 256 = b.val
        omega
      exact ⟨_, _, _, _, by simp [h], h1, h2, h3⟩

/-- What was escaped is read as it was. -/
theorem unescape_escape (s rest : List Byte) : unescape (escape s ++ rest) = (unescape rest).map (s ++ ·) := by
  induction s with
  | nil => simp [escape]
  | cons b s ih =>
    have e : escape (b :: s) ++ rest = escapeByte b ++ (escape s ++ rest) := by simp [escape]
    rw [e]
    rcases escapeByte_cases b with ⟨h, h1, h2⟩ | ⟨h, h1⟩ | ⟨x, l, vx, vl, h, h1, h2, h3⟩
    · rw [h, List.singleton_append, unescape.eq_def]
      simp only [h1, h2, if_false]
      rw [ih]; cases unescape rest <;> simp
    · rw [h, List.singleton_append, unescape.eq_def]
      simp only [show (43 : Byte) ≠ 37 by decide, if_false, if_true]
      rw [ih, h1]; cases unescape rest <;> simp
    · rw [h]
      show unescape (37 :: x :: l :: (escape s ++ rest)) = _
      rw [unescape.eq_def]
      simp only [if_true, h1, h2, h3]
      rw [ih]; cases unescape rest <;> simp

/-- Nothing that was escaped separates parameters or names. -/
theorem escape_clean (s : List Byte) : ∀ b ∈ escape s, b ≠ 38 ∧ b ≠ 61 := by
  intro b hb
  unfold escape at hb
  obtain ⟨a, _, ha⟩ := List.mem_flatMap.1 hb
  unfold escapeByte at ha
  split at ha
  · rename_i hp
    rw [List.mem_singleton.1 ha]
    exact (plain_clean a hp).2.2
  · split at ha
    · rw [List.mem_singleton.1 ha]; decide
    · simp only [List.mem_cons, List.not_mem_nil, or_false] at ha
      rcases ha with rfl | rfl | rfl
      · decide
      · exact (hex_val _ (by omega)).2
      · exact (hex_val _ (by omega)).2

theorem splitOn_clean (sep : Byte) (a : List Byte) (h : ∀ b ∈ a, b ≠ sep) : splitOn sep a = [a] := by
  induction a with
  | nil => rfl
  | cons b a ih =>
    simp only [splitOn, h b (by simp), if_false]
    rw [ih fun x hx => h x (by simp [hx])]

theorem splitOn_append (sep : Byte) (a rest : List Byte) (h : ∀ b ∈ a, b ≠ sep) : splitOn sep (a ++ sep :: rest) = a :: splitOn sep rest := by
  induction a with
  | nil => simp [splitOn]
  | cons b a ih =>
    simp only [List.cons_append, splitOn, h b (by simp), if_false]
    rw [ih fun x hx => h x (by simp [hx])]

theorem takeWhile_all {p : Byte → Bool} {a : List Byte} (h : ∀ b ∈ a, p b = true) (rest : List Byte) :
    (a ++ rest).takeWhile p = a ++ rest.takeWhile p ∧ (a ++ rest).dropWhile p = rest.dropWhile p := by
  induction a with
  | nil => exact ⟨rfl, rfl⟩
  | cons b a ih =>
    have := ih fun x hx => h x (by simp [hx])
    simp [h b (by simp), this.1, this.2]

/-- A plain name and an escaped value. -/
theorem readParam_eq (k : List Byte) (v : List Byte) (hk : ∀ b ∈ k, b ≠ 61) (hu : unescape k = some k) :
    readParam (k ++ 61 :: escape v) = some (k, v) := by
  unfold readParam
  obtain ⟨h1, h2⟩ := takeWhile_all (p := (· ≠ 61)) (a := k) (fun b hb => by simpa using hk b hb) (61 :: escape v)
  have hv : unescape (escape v) = some v := by simpa [unescape] using unescape_escape v []
  rw [h1, h2]
  simp [hu, hv]

/-! ## C113 -/

/-- A field of an object. -/
def field (k : String) : J → Option J
  | .obj fs => (fs.find? fun f => f.1 = k).map (·.2)
  | _ => none

/-- C113: the homeserver reads exactly these parameters: the timeout, the since token as it was given (none if there is none), the
presence and the text of the filter. No token can add, change or hide a parameter. -/
theorem C113_query (since : List Byte) (isFirst toDeviceOnly : Bool) : readQuery (query since isFirst toDeviceOnly) = some (
    [(bytes "timeout", bytes (if isFirst then "0" else "30000"))] ++ (if since = [] then [] else [(bytes "since", since)]) ++
    [(bytes "set_presence", bytes "offline"), (bytes "filter", marshal (filter since toDeviceOnly))]) := by
  have hall : (bytes "filter=").all (fun b => decide (b ≠ 38)) = true ∧ (bytes "since=").all (fun b => decide (b ≠ 38)) = true := by decide +kernel
  have hf := escape_clean (marshal (filter since toDeviceOnly))
  have hfil : readParam (bytes "filter=" ++ escape (marshal (filter since toDeviceOnly))) =
      some (bytes "filter", marshal (filter since toDeviceOnly)) := readParam_eq (bytes "filter") _ (by decide +kernel) (by decide +kernel)
  have hsf : splitOn 38 (bytes "filter=" ++ escape (marshal (filter since toDeviceOnly))) =
      [bytes "filter=" ++ escape (marshal (filter since toDeviceOnly))] := by
    refine splitOn_clean 38 _ fun b hb => ?_
    rcases List.mem_append.1 hb with h | h
    · simpa using List.all_eq_true.1 hall.1 b h
    · exact (hf b h).1
  have htail : splitOn 38 (bytes "set_presence=offline" ++ 38 :: (bytes "filter=" ++ escape (marshal (filter since toDeviceOnly)))) =
      [bytes "set_presence=offline", bytes "filter=" ++ escape (marshal (filter since toDeviceOnly))] := by
    rw [splitOn_append 38 _ _ (by decide +kernel), hsf]
  have hpres : readParam (bytes "set_presence=offline") = some (bytes "set_presence", bytes "offline") := by decide +kernel
  have htime : ∀ f : Bool, readParam (if f then bytes "timeout=0" else bytes "timeout=30000") = some (bytes "timeout", bytes (if f then "0" else "30000")) ∧
      ∀ b ∈ (if f then bytes "timeout=0" else bytes "timeout=30000"), b ≠ 38 := by decide +kernel
  by_cases hs : since = []
  · have e : query since isFirst toDeviceOnly = 63 :: ((if isFirst then bytes "timeout=0" else bytes "timeout=30000") ++ 38 ::
        (bytes "set_presence=offline" ++ 38 :: (bytes "filter=" ++ escape (marshal (filter since toDeviceOnly))))) := by
      have h1 : bytes "?" = [63] := by decide +kernel
      have h2 : bytes "&set_presence=offline" = 38 :: bytes "set_presence=offline" := by decide +kernel
      have h3 : bytes "&filter=" = 38 :: bytes "filter=" := by decide +kernel
      unfold query
      rw [h1, h2, h3]
      simp [hs]
    rw [e]
    show (splitOn 38 _).mapM readParam = _
    rw [splitOn_append 38 _ _ (htime isFirst).2, htail]
    subst hs
    simp [List.mapM_cons, (htime isFirst).1, hpres, hfil]
  · have hsince : readParam (bytes "since=" ++ escape since) = some (bytes "since", since) :=
      readParam_eq (bytes "since") since (by decide +kernel) (by decide +kernel)
    have hsc : ∀ b ∈ bytes "since=" ++ escape since, b ≠ 38 := by
      intro b hb
      rcases List.mem_append.1 hb with h | h
      · simpa using List.all_eq_true.1 hall.2 b h
      · exact (escape_clean since b h).1
    have e : query since isFirst toDeviceOnly = 63 :: ((if isFirst then bytes "timeout=0" else bytes "timeout=30000") ++ 38 ::
        ((bytes "since=" ++ escape since) ++ 38 ::
        (bytes "set_presence=offline" ++ 38 :: (bytes "filter=" ++ escape (marshal (filter since toDeviceOnly)))))) := by
      have h1 : bytes "?" = [63] := by decide +kernel
      have h2 : bytes "&set_presence=offline" = 38 :: bytes "set_presence=offline" := by decide +kernel
      have h3 : bytes "&filter=" = 38 :: bytes "filter=" := by decide +kernel
      have h4 : bytes "&since=" = 38 :: bytes "since=" := by decide +kernel
      unfold query
      rw [h1, h2, h3, h4]
      simp [hs]
    rw [e]
    show (splitOn 38 _).mapM readParam = _
    rw [splitOn_append 38 _ _ (htime isFirst).2, splitOn_append 38 _ _ hsc, htail]
    simp [List.mapM_cons, (htime isFirst).1, hpres, hfil, hsince, hs]

/-- C113: the filter asks for one event per room on the very first sync and for 50 later; it names no room exactly for a poller of
to-device messages only; and presence is never asked for. -/
theorem C113_filter (since : List Byte) (toDeviceOnly : Bool) :
    ((field "room" (filter since toDeviceOnly)).bind (field "timeline")).bind (field "limit") = some (.num (if since = [] then 1 else 50)) ∧
    (field "room" (filter since toDeviceOnly)).bind (field "rooms") = (if toDeviceOnly then some (.strs []) else none) ∧
    (field "presence" (filter since toDeviceOnly)).bind (field "not_types") = some (.strs ["*"]) := by
  cases toDeviceOnly <;> refine ⟨?_, ?_, ?_⟩ <;> rfl

/-- Two tokens, two queries. -/
theorem C113_injective {a b : List Byte} {f g t u : Bool} (h : query a f t = query b g u) : a = b ∧ f = g := by
  have h1 := C113_query a f t
  rw [h, C113_query b g u] at h1
  have h1 := Option.some.inj h1
  by_cases ha : a = []
  · by_cases hb : b = []
    · subst ha; subst hb
      refine ⟨rfl, ?_⟩
      revert h1
      cases f <;> cases g <;> simp [show bytes "0" ≠ bytes "30000" by decide +kernel, show bytes "30000" ≠ bytes "0" by decide +kernel]
    · simp [ha, hb] at h1
  · by_cases hb : b = []
    · simp [ha, hb] at h1
    · simp only [ha, hb, if_false, List.singleton_append, List.cons_append, List.nil_append, List.cons.injEq, Prod.mk.injEq, true_and] at h1
      refine ⟨h1.2.1.symm, ?_⟩
      have h2 := h1.1
      revert h2
      cases f <;> cases g <;> simp [show bytes "0" ≠ bytes "30000" by decide +kernel, show bytes "30000" ≠ bytes "0" by decide +kernel]

end Verif.SyncURL
