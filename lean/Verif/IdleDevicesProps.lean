import Verif.IdleDevices
import Verif.TokensProps
/-!
# C150: only idle devices are expired, and they stay expired
-/
namespace Verif.IdleDevices
open Verif

/-! ## The tokens -/

/-- What a step does at the tokens. -/
def effect (w : W) : Op → List Tokens.Op
  | .req o => [o]
  | .refused d =>
    match Assoc.get w.pollers d with
    | none => []
    | some p => if p.alive then [.delete p.tok] else []
  | .kill =>
    match w.marked with
    | [] => []
    | (_, p) :: _ => [.delete p.tok]
  | _ => []

def trace (w : W) : List Op → List Tokens.Op
  | [] => []
  | o :: os => effect w o ++ trace (step w o) os

theorem ensure_toks (w : W) (d : Dev) (tok : String) : (ensure w d tok).toks = w.toks ∧ (ensure w d tok).found = w.found ∧
    (ensure w d tok).marked = w.marked := by
  unfold ensure
  split
  · exact ⟨rfl, rfl, rfl⟩
  · split
    · exact ⟨rfl, rfl, rfl⟩
    · split
      · split <;> exact ⟨rfl, rfl, rfl⟩
      · exact ⟨rfl, rfl, rfl⟩

theorem step_toks (w : W) (o : Op) : (step w o).toks = (effect w o).foldl Tokens.step w.toks := by
  cases o with
  | req o => rfl
  | ensure d tok => exact (ensure_toks w d tok).1
  | refused d =>
    cases h : Assoc.get w.pollers d with
    | none => simp only [step, effect, h, List.foldl_nil]
    | some p =>
      cases ha : p.alive
      · simp only [step, effect, h, ha, Bool.false_eq_true, if_false, List.foldl_nil]
      · simp only [step, effect, h, ha, if_true]
        rfl
  | find period now => rfl
  | mark => rfl
  | kill =>
    cases h : w.marked with
    | nil => simp only [step, effect, h, List.foldl_nil]
    | cons x ms =>
      simp only [step, effect, h]
      rfl

theorem run_toks (ops : List Op) : (run ops).toks = Tokens.run (trace {} ops) := by
  have : ∀ (ops : List Op) (w : W) (l : List Tokens.Op), w.toks = Tokens.run l → (ops.foldl step w).toks = Tokens.run (l ++ trace w ops) := by
    intro ops
    induction ops with
    | nil => intro w l h; simpa [trace] using h
    | cons o os ih =>
      intro w l h
      have := ih (step w o) (l ++ effect w o) (by rw [step_toks, h]; simp [Tokens.run])
      simpa [trace] using this
  exact this ops {} [] rfl

/-! ## Devices in use -/

/-- A step that is not a query. -/
def NoFind (o : Op) : Prop := ∀ p n, o ≠ .find p n

theorem grab_sub {ps : List (Dev × Poller)} {ds : List Dev} {x : Dev × Poller} (h : x ∈ grab ps ds) :
    x.1 ∈ ds ∧ Assoc.get ps x.1 = some x.2 ∧ x.2.alive = true := by
  induction ds with
  | nil => cases h
  | cons d ds ih =>
    unfold grab at h
    split at h
    · obtain ⟨a, b⟩ := ih h; exact ⟨List.mem_cons_of_mem _ a, b⟩
    · rename_i p hp
      split at h
      · rename_i ha
        rcases List.mem_cons.1 h with rfl | h
        · exact ⟨List.mem_cons_self .., hp, ha⟩
        · obtain ⟨a, b⟩ := ih h; exact ⟨List.mem_cons_of_mem _ a, b⟩
      · obtain ⟨a, b⟩ := ih h; exact ⟨List.mem_cons_of_mem _ a, b⟩

theorem found_step {w : W} {o : Op} (hn : NoFind o) {d : Dev} (hf : d ∉ w.found) (hm : ∀ x ∈ w.marked, x.1 ≠ d) :
    d ∉ (step w o).found ∧ ∀ x ∈ (step w o).marked, x.1 ≠ d := by
  cases o with
  | req o => exact ⟨hf, hm⟩
  | ensure e tok =>
    obtain ⟨_, h2, h3⟩ := ensure_toks w e tok
    simp only [step, h2, h3]; exact ⟨hf, hm⟩
  | refused e =>
    simp only [step]
    split
    · exact ⟨hf, hm⟩
    · split <;> exact ⟨hf, hm⟩
  | find p n => exact absurd rfl (hn p n)
  | mark =>
    refine ⟨by simp [step], fun x hx => ?_⟩
    rintro rfl
    exact hf (grab_sub hx).1
  | kill =>
    simp only [step]
    split
    · exact ⟨hf, hm⟩
    · rename_i e p ms hms
      exact ⟨hf, fun x hx => hm x (by rw [hms]; exact List.mem_cons_of_mem _ hx)⟩

/-- C150: a device that has made a request in the idle period less a day before the query is not expired by that run: it is never among the
pollers to terminate, whatever happens until the next query. -/
theorem C150_spared (ops rest : List Op) (pre post : List Tokens.Op) (req : Nat) (user device : String) (now : Int) (p : Tokens.Pend)
    (htr : trace {} ops = pre ++ .finish req user device now :: post) (hc : Tokens.Clock (trace {} ops))
    (hp : Assoc.get (Tokens.run pre).pend req = some p) (hslow : p.hit = false → now - p.time < Tokens.day)
    (t : Tokens.Tok) (ht : Assoc.get (run ops).toks.rows p.tok = some t)
    (period later : Int) (hl : later - now ≤ period - Tokens.day) (hm : (run ops).marked = [])
    (hn : ∀ o ∈ rest, NoFind o) : ∀ x ∈ (run (ops ++ .find period later :: rest)).marked, x.1 ≠ (t.user, t.device) := by
  have h0 : (t.user, t.device) ∉ Tokens.findOld (run ops).toks period later := by
    rw [run_toks, htr] at ht ⊢
    exact Tokens.C60_not_expired pre post req user device now p (htr ▸ hc) hp hslow t ht period later hl
  have key : ∀ (rest : List Op) (w : W), (∀ o ∈ rest, NoFind o) → (t.user, t.device) ∉ w.found → (∀ x ∈ w.marked, x.1 ≠ (t.user, t.device)) →
      ∀ x ∈ (rest.foldl step w).marked, x.1 ≠ (t.user, t.device) := by
    intro rest
    induction rest with
    | nil => exact fun _ _ _ h => h
    | cons o os ih =>
      intro w hn hf hm
      obtain ⟨h1, h2⟩ := found_step (hn o (List.mem_cons_self ..)) hf hm
      exact ih _ (fun o ho => hn o (List.mem_cons_of_mem _ ho)) h1 h2
  have := key rest (step (run ops) (.find period later)) hn h0 (by simp only [step, hm]; simp)
  simpa [run, List.foldl_append] using this

theorem grab_mem {ps : List (Dev × Poller)} {ds : List Dev} {d : Dev} {p : Poller} (hd : d ∈ ds) (hp : Assoc.get ps d = some p)
    (ha : p.alive = true) : (d, p) ∈ grab ps ds := by
  induction ds with
  | nil => cases hd
  | cons e ds ih =>
    unfold grab
    rcases List.mem_cons.1 hd with rfl | hd
    · rw [hp]
      simp only [ha, if_true]
      exact List.mem_cons_self ..
    · split
      · exact ih hd
      · split
        · exact List.mem_cons_of_mem _ (ih hd)
        · exact ih hd

/-- C150: the poller of a device all of whose tokens were last used longer ago than the idle period is marked by the run. -/
theorem C150_found (ops : List Op) (d : Dev) (hd : d ∈ (run ops).toks.devices) (period now : Int)
    (hex : ∃ tok t, Assoc.get (run ops).toks.rows tok = some t ∧ (t.user, t.device) = d)
    (hidle : ∀ tok t, Assoc.get (run ops).toks.rows tok = some t → (t.user, t.device) = d → ∀ x, Tokens.Used (trace {} ops) tok x →
      x < now - period) (p : Poller) (hp : Assoc.get (run ops).pollers d = some p) (ha : p.alive = true) :
    (d, p) ∈ (run (ops ++ [.find period now, .mark])).marked := by
  have h0 : d ∈ Tokens.findOld (run ops).toks period now := by
    rw [run_toks] at hd hex hidle ⊢
    exact Tokens.C60_expired (trace {} ops) d hd period now hex hidle
  have : run (ops ++ [.find period now, .mark]) = step (step (run ops) (.find period now)) .mark := by simp [run, List.foldl_append]
  rw [this]
  exact grab_mem h0 hp ha

/-! ## Pollers -/

structure Inv (w : W) : Prop where
  lt : ∀ x ∈ w.pollers, x.2.id < w.next
  mlt : ∀ x ∈ w.marked, x.2.id < w.next
  /-- a poller that is marked belongs to the device it is marked for -/
  own : ∀ x ∈ w.marked, ∀ y ∈ w.pollers, y.2.id = x.2.id → y.1 = x.1

theorem mem_terminate {ps : List (Dev × Poller)} {id : Nat} {x : Dev × Poller} (h : x ∈ terminate ps id) :
    ∃ y ∈ ps, x.1 = y.1 ∧ x.2.id = y.2.id ∧ x.2.tok = y.2.tok ∧ (x.2.alive = true → y.2.alive = true ∧ y.2.id ≠ id) := by
  obtain ⟨y, hy, rfl⟩ := List.mem_map.1 h
  refine ⟨y, hy, ?_⟩
  split
  · exact ⟨rfl, rfl, rfl, fun h => nomatch h⟩
  · rename_i hne; exact ⟨rfl, rfl, rfl, fun h => ⟨h, hne⟩⟩

theorem mem_set {m : List (Dev × Poller)} {d : Dev} {p : Poller} {x : Dev × Poller} (h : x ∈ Assoc.set m d p) : x ∈ m ∨ x = (d, p) := by
  rcases List.mem_append.1 h with h | h
  · exact .inl (List.mem_filter.1 h).1
  · exact .inr (by simpa using h)

theorem mem_of_get {m : List (Dev × Poller)} {d : Dev} {p : Poller} (h : Assoc.get m d = some p) : (d, p) ∈ m := Assoc.get_mem h

/-- The numbers of pollers are used once. -/
def Uniq (w : W) : Prop := ∀ x ∈ w.pollers, ∀ y ∈ w.pollers, x.2.id = y.2.id → x.1 = y.1

theorem inv_ensure {w : W} (h : Inv w) (hu : Uniq w) (d : Dev) (tok : String) : Inv (ensure w d tok) ∧ Uniq (ensure w d tok) := by
  have key : Inv { w with pollers := Assoc.set w.pollers d ⟨w.next, tok, true⟩, next := w.next + 1 } ∧
      Uniq { w with pollers := Assoc.set w.pollers d ⟨w.next, tok, true⟩, next := w.next + 1 } := by
    refine ⟨⟨fun x hx => ?_, fun x hx => Nat.lt_succ_of_lt (h.mlt x hx), fun x hx y hy he => ?_⟩, fun x hx y hy he => ?_⟩
    · rcases mem_set hx with hx | rfl
      · exact Nat.lt_succ_of_lt (h.lt x hx)
      · exact Nat.lt_succ_self _
    · rcases mem_set hy with hy | rfl
      · exact h.own x hx y hy he
      · exact absurd (h.mlt x hx) (by simp only at he; omega)
    · rcases mem_set hx with hx | rfl <;> rcases mem_set hy with hy | rfl
      · exact hu x hx y hy he
      · exact absurd (h.lt x hx) (by simp only at he; omega)
      · exact absurd (h.lt y hy) (by simp only at he; omega)
      · rfl
  unfold ensure
  split
  · exact ⟨h, hu⟩
  · split
    · exact ⟨h, hu⟩
    · split
      · split
        · exact ⟨h, hu⟩
        · exact key
      · exact key

theorem inv_finish {w : W} (h : Inv w) (hu : Uniq w) (p : Poller) : Inv (finish w p) ∧ Uniq (finish w p) := by
  refine ⟨⟨fun x hx => ?_, h.mlt, fun x hx y hy he => ?_⟩, fun x hx y hy he => ?_⟩
  · obtain ⟨y, hy, _, h2, _⟩ := mem_terminate hx
    rw [h2]; exact h.lt y hy
  · obtain ⟨z, hz, h1, h2, _⟩ := mem_terminate hy
    rw [h1]; exact h.own x hx z hz (h2 ▸ he)
  · obtain ⟨a, ha, a1, a2, _⟩ := mem_terminate hx
    obtain ⟨b, hb, b1, b2, _⟩ := mem_terminate hy
    rw [a1, b1]; exact hu a ha b hb (by rw [← a2, ← b2]; exact he)

theorem inv_step {w : W} (h : Inv w) (hu : Uniq w) (o : Op) : Inv (step w o) ∧ Uniq (step w o) := by
  cases o with
  | req o => exact ⟨⟨h.lt, h.mlt, h.own⟩, hu⟩
  | ensure d tok => exact inv_ensure h hu d tok
  | refused d =>
    simp only [step]
    split
    · exact ⟨h, hu⟩
    · split
      · exact inv_finish h hu _
      · exact ⟨h, hu⟩
  | find p n => exact ⟨⟨h.lt, h.mlt, h.own⟩, hu⟩
  | mark =>
    refine ⟨⟨h.lt, fun x hx => ?_, fun x hx y hy he => ?_⟩, hu⟩
    · exact h.lt _ (mem_of_get (grab_sub hx).2.1)
    · exact hu y hy _ (mem_of_get (grab_sub hx).2.1) he
  | kill =>
    simp only [step]
    split
    · exact ⟨h, hu⟩
    · rename_i e p ms hms
      obtain ⟨h1, h2⟩ := inv_finish h hu p
      exact ⟨⟨h1.lt, fun x hx => h1.mlt x (by show x ∈ w.marked; rw [hms]; exact List.mem_cons_of_mem _ hx),
        fun x hx => h1.own x (by show x ∈ w.marked; rw [hms]; exact List.mem_cons_of_mem _ hx)⟩, h2⟩

theorem run_inv (ops : List Op) : Inv (run ops) ∧ Uniq (run ops) := by
  have : ∀ (ops : List Op) (w : W), Inv w ∧ Uniq w → Inv (ops.foldl step w) ∧ Uniq (ops.foldl step w) := by
    intro ops
    induction ops with
    | nil => exact fun _ h => h
    | cons o os ih => exact fun w h => ih _ (inv_step h.1 h.2 o)
  exact this ops {} ⟨⟨by simp, by simp, by simp⟩, by intro x hx; cases hx⟩

/-- C150: ending a poller ends that one and no poller of another device, and its token is gone. -/
theorem C150_ends (ops : List Op) (d : Dev) (p : Poller) (ms : List (Dev × Poller)) (hm : (run ops).marked = (d, p) :: ms) :
    (∀ x ∈ (run (ops ++ [.kill])).pollers, x.2.id = p.id → x.2.alive = false) ∧
      (∀ x ∈ (run ops).pollers, x.1 ≠ d → x ∈ (run (ops ++ [.kill])).pollers) ∧
      Assoc.get (run (ops ++ [.kill])).toks.rows p.tok = none ∧
      ∀ q, q ≠ p.tok → Assoc.get (run (ops ++ [.kill])).toks.rows q = Assoc.get (run ops).toks.rows q := by
  have hrun : run (ops ++ [.kill]) = { finish (run ops) p with marked := ms } := by
    have : run (ops ++ [.kill]) = step (run ops) .kill := by simp [run, List.foldl_append]
    rw [this]
    simp only [step, hm]
  rw [hrun]
  refine ⟨fun x hx hid => ?_, fun x hx hd => ?_, ?_, fun q hq => ?_⟩
  · obtain ⟨y, _, _, h2, _, h4⟩ := mem_terminate hx
    cases ha : x.2.alive with
    | false => rfl
    | true => exact absurd (h2 ▸ hid) (h4 ha).2
  · refine List.mem_map.2 ⟨x, hx, ?_⟩
    have : x.2.id ≠ p.id := fun he => hd ((run_inv ops).1.own (d, p) (by rw [hm]; exact List.mem_cons_self ..) x hx he)
    rw [if_neg this]
  · simp only [finish, Tokens.step, Assoc.get_del, if_true]
  · simp only [finish, Tokens.step, Assoc.get_del, if_neg hq]

/-! ## They stay expired -/

/-- The device has no token; no poller is started for it then, at start-up (`TokenForEachDevice`) or later (`GetTokenAndSince`). -/
def NoToken (s : Tokens.S) (d : Dev) : Prop := ∀ e ∈ s.rows, (e.2.user, e.2.device) ≠ d

/-- The step is not the end of a request of the device. -/
def NotOf (d : Dev) : Op → Prop
  | .req (.finish _ user device _) => (user, device) ≠ d
  | _ => True

theorem noToken_update {rows : List (String × Tokens.Tok)} {d : Dev} (h : ∀ e ∈ rows, (e.2.user, e.2.device) ≠ d) (tok : String) (a b : Int) :
    ∀ e ∈ Tokens.maybeUpdate rows tok a b, (e.2.user, e.2.device) ≠ d := by
  unfold Tokens.maybeUpdate
  split
  · exact h
  · intro e he
    obtain ⟨x, hx, rfl⟩ := List.mem_map.1 he
    split
    · exact h x hx
    · exact h x hx

theorem noToken_delete {s : Tokens.S} {d : Dev} (h : NoToken s d) (tok : String) : NoToken (Tokens.step s (.delete tok)) d :=
  fun e he => h e (List.mem_filter.1 he).1

theorem noToken_step {w : W} {d : Dev} (h : NoToken w.toks d) {o : Op} (ho : NotOf d o) : NoToken (step w o).toks d := by
  cases o with
  | req o =>
    cases o with
    | lookup r tok now => exact h
    | finish r user device now =>
      simp only [step, Tokens.step]
      split
      · exact h
      · split
        · exact noToken_update h _ _ _
        · refine noToken_update ?_ _ _ _
          unfold Tokens.insert
          split
          · exact h
          · intro e he
            rcases List.mem_append.1 he with he | he
            · exact h e he
            · simp only [List.mem_singleton] at he
              subst he
              exact ho
    | fail r => exact h
    | delete tok => exact noToken_delete h tok
  | ensure e tok => simp only [step, (ensure_toks w e tok).1]; exact h
  | refused e =>
    simp only [step]
    split
    · exact h
    · split
      · exact noToken_delete h _
      · exact h
  | find p n => exact h
  | mark => exact h
  | kill =>
    simp only [step]
    split
    · exact h
    · exact noToken_delete h _

/-- C150: a device whose only token is that of its poller has none after its expiry, until it makes a request again. -/
theorem C150_stays_partial (ops rest : List Op) (d : Dev) (p : Poller) (ms : List (Dev × Poller)) (hm : (run ops).marked = (d, p) :: ms)
    (hone : ∀ e ∈ (run ops).toks.rows, (e.2.user, e.2.device) = d → e.1 = p.tok) (hrest : ∀ o ∈ rest, NotOf d o) :
    NoToken (run (ops ++ .kill :: rest)).toks d := by
  have h0 : NoToken (step (run ops) .kill).toks d := by
    intro e he hd
    simp only [step, hm, finish, Tokens.step] at he
    obtain ⟨h1, h2⟩ := List.mem_filter.1 he
    exact absurd (hone e h1 hd) (by simpa using h2)
  have key : ∀ (rest : List Op) (w : W), (∀ o ∈ rest, NotOf d o) → NoToken w.toks d → NoToken (rest.foldl step w).toks d := by
    intro rest
    induction rest with
    | nil => exact fun _ _ h => h
    | cons o os ih =>
      exact fun w hn h => ih _ (fun o ho => hn o (List.mem_cons_of_mem _ ho)) (noToken_step h (hn o (List.mem_cons_self ..)))
  have := key rest (step (run ops) .kill) hrest h0
  simpa [run, List.foldl_append] using this

/-! ## Cases -/

def dev : Dev := ("u", "d")
def month : Int := 30 * Tokens.day
/-- A request with a new token, and its poller. -/
def login (req : Nat) (tok : String) (now : Int) : List Op :=
  [.req (.lookup req tok now), .req (.finish req "u" "d" now), .ensure dev tok]

/-- An idle device is expired: the hypotheses of `C150_ends` and `C150_stays_partial` hold. -/
example : (run (login 1 "t" 0 ++ [.find month (month + 1), .mark])).marked = [(dev, ⟨0, "t", true⟩)] ∧
    (run (login 1 "t" 0 ++ [.find month (month + 1), .mark])).toks.rows = [("t", ⟨"u", "d", 0⟩)] ∧
    (run (login 1 "t" 0 ++ [.find month (month + 1), .mark, .kill])).pollers = [(dev, ⟨0, "t", false⟩)] ∧
    (run (login 1 "t" 0 ++ [.find month (month + 1), .mark, .kill])).toks.rows = [] := by decide +kernel

/-- A device that was used a day ago is spared: the hypotheses of `C150_spared` hold. -/
example : let ops := login 1 "t" 0 ++ [.req (.lookup 2 "t" month), .req (.finish 2 "u" "d" month)]
    trace {} ops = [.lookup 1 "t" 0, .finish 1 "u" "d" 0, .lookup 2 "t" month] ++ .finish 2 "u" "d" month :: [] ∧
    Tokens.Clock (trace {} ops) ∧ (Assoc.get (Tokens.run [.lookup 1 "t" 0, .finish 1 "u" "d" 0, .lookup 2 "t" month]).pend 2).isSome ∧
    (Assoc.get (run ops).toks.rows "t").isSome ∧ (run (ops ++ [.find month (month + Tokens.day), .mark])).marked = [] := by
  refine ⟨rfl, by decide +kernel, by decide +kernel, by decide +kernel, by decide +kernel⟩

/-- C150 fails for a device that comes back while it is being expired: it makes a request after the query and before its poller is ended;
the request is served by the poller, and then the poller is terminated and the token deleted. -/
theorem C150_violated_raced :
    let w := run (login 1 "t" 0 ++ [.find month (month + 1), .req (.lookup 2 "t" (month + 2)), .req (.finish 2 "u" "d" (month + 2)),
      .ensure dev "t", .mark, .kill])
    w.pollers = [(dev, ⟨0, "t", false⟩)] ∧ w.toks.rows = [] ∧
    (run (login 1 "t" 0 ++ [.find month (month + 1), .req (.lookup 2 "t" (month + 2)), .req (.finish 2 "u" "d" (month + 2)),
      .ensure dev "t"])).toks.rows = [("t", ⟨"u", "d", month + 2⟩)] := by decide +kernel

/-- C150 fails for an idle device with a second token, as a client that refreshes its token has: only the token of its poller is deleted,
and with the other one a poller is started again. -/
theorem C150_violated_two :
    let w := run (login 1 "t" 0 ++ login 2 "s" 1 ++ [.find month (month + 2), .mark, .kill])
    w.toks.rows = [("s", ⟨"u", "d", 1⟩)] ∧ w.pollers = [(dev, ⟨0, "t", false⟩)] ∧
    (step w (.ensure dev "s")).pollers = [(dev, ⟨1, "s", true⟩)] := by decide +kernel

end Verif.IdleDevices
