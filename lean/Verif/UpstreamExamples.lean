import Verif.UpstreamProps
/-! Cases for C139, and answers that are taken for something else. -/
namespace Verif.Upstream
open Verif

/-! ## Cases that meet the hypotheses -/

/-- Letters are compared without regard to case; ASCII is enough here. -/
def lower (s : String) : String := String.ofList (s.toList.map fun c => if 65 ≤ c.toNat ∧ c.toNat ≤ 90 then Char.ofNat (c.toNat + 32) else c)

/-- A response with a joined room, keys of the homeserver's own and no order. -/
def body : J :=
  .obj [("org.example.extra", .frac), ("rooms", .obj [("knock", .obj []), ("join", .obj [("!r", .obj
      [("unread_notifications", .obj [("highlight_count", .int 2)]), ("timeline", .obj [("limited", .bool true), ("events", .arr [.obj []])])])])]),
    ("next_batch", .str "s2"), ("device_lists", .obj [("changed", .arr [.str "@b"])]), ("device_one_time_keys_count", .obj [("curve", .int 3)])]

def value : sync.den :=
  ("s2", (none, ()), (none, ()),
    (some [("!r", (none, ()), (some [.obj []], true, "", ()), (none, ()), (none, ()), (some 2, none, ()), ())], none, none, ()),
    (none, ()), (some ["@b"], none, ()), some [("curve", 3)], none, ())

/-- Each key of an object is a name, or is none even if case is ignored. -/
def clean (fold : String → String) (names : List String) (es : List (String × J)) : Bool :=
  decide (es.map Prod.fst).Nodup && es.all fun e => decide (e.1 ∈ names) || names.all fun n => decide (fold n ≠ fold e.1)

theorem clean_spec {fold : String → String} {names : List String} {es : List (String × J)} (h : clean fold names es = true) :
    (es.map Prod.fst).Nodup ∧ ∀ e ∈ es, e.1 ∈ names ∨ ∀ n ∈ names, fold n ≠ fold e.1 := by
  simp only [clean, Bool.and_eq_true, decide_eq_true_eq, List.all_eq_true, Bool.or_eq_true] at h
  exact h

theorem one {t : T} {P : J → t.den → Prop} {a : String × J} {b : String × t.den} (h : P a.2 b.2) :
    ∀ (i : Nat) x y, [a][i]? = some x → [b][i]? = some y → P x.2 y.2 := by
  intro i x y hx hy
  cases i with
  | zero => cases hx; cases hy; exact h
  | succ i => simp at hx

theorem struct_says {fold : String → String} {fs : Fs} {es : List (String × J)} {v : fs.den} (hc : clean fold fs.names es = true)
    (h : SaysFs fold fs es v) : Says fold (.struct fs) (.obj es) v := by
  simp only [Says]
  exact ⟨es, rfl, (clean_spec hc).1, (clean_spec hc).2, h⟩

theorem body_says : Says lower sync body value := by
  have hr : Says lower join (.obj [("unread_notifications", .obj [("highlight_count", .int 2)]),
      ("timeline", .obj [("limited", .bool true), ("events", .arr [.obj []])])])
      ((none, ()), (some [.obj []], true, "", ()), (none, ()), (none, ()), (some 2, none, ()), ()) := by
    apply struct_says (by decide +kernel)
    have hu : Says lower (.struct (.cons "highlight_count" .optInt (.cons "notification_count" .optInt .nil)))
        (.obj [("highlight_count", .int 2)]) (some 2, none, ()) := by
      apply struct_says (by decide +kernel)
      simp only [SaysFs, Says]
      exact ⟨Or.inl ⟨_, List.mem_cons_self .., 2, rfl, rfl, by decide, by decide⟩, Or.inr ⟨by simp, rfl⟩, trivial⟩
    have ht : Says lower timeline (.obj [("limited", .bool true), ("events", .arr [.obj []])]) (some [.obj []], true, "", ()) := by
      apply struct_says (by decide +kernel)
      simp only [SaysFs, Says]
      exact ⟨Or.inl ⟨.arr [.obj []], by simp, _, rfl, rfl⟩, Or.inl ⟨_, List.mem_cons_self .., rfl⟩, Or.inr ⟨by simp, rfl⟩, trivial⟩
    unfold SaysFs
    refine ⟨Or.inr ⟨by simp, rfl⟩, ?_⟩
    unfold SaysFs
    refine ⟨Or.inl ⟨_, List.mem_cons_of_mem _ (List.mem_cons_self ..), ht⟩, ?_⟩
    unfold SaysFs
    refine ⟨Or.inr ⟨by simp, rfl⟩, ?_⟩
    unfold SaysFs
    refine ⟨Or.inr ⟨by simp, rfl⟩, ?_⟩
    unfold SaysFs
    refine ⟨Or.inl ⟨_, List.mem_cons_self .., hu⟩, ?_⟩
    simp only [SaysFs]
  apply struct_says (by decide +kernel)
  unfold SaysFs
  refine ⟨Or.inl ⟨.str "s2", by simp, by simp only [Says, value]⟩, ?_⟩
  unfold SaysFs
  refine ⟨Or.inr ⟨by simp, rfl⟩, ?_⟩
  unfold SaysFs
  refine ⟨Or.inr ⟨by simp, rfl⟩, ?_⟩
  unfold SaysFs
  refine ⟨Or.inl ⟨_, List.mem_cons_of_mem _ (List.mem_cons_self ..), struct_says (by decide +kernel) ?_⟩, ?_⟩
  · unfold SaysFs
    refine ⟨Or.inl ⟨_, List.mem_cons_of_mem _ (List.mem_cons_self ..), ?_⟩, ?_⟩
    · unfold Says
      exact ⟨_, _, rfl, rfl, by simp, rfl, one (P := fun j v => Says lower join j v) hr⟩
    unfold SaysFs
    refine ⟨Or.inr ⟨by simp, rfl⟩, ?_⟩
    unfold SaysFs
    refine ⟨Or.inr ⟨by simp, rfl⟩, ?_⟩
    simp only [SaysFs]
  unfold SaysFs
  refine ⟨Or.inr ⟨by simp, rfl⟩, ?_⟩
  unfold SaysFs
  refine ⟨Or.inl ⟨.obj [("changed", .arr [.str "@b"])], by simp, struct_says (by decide +kernel) ?_⟩, ?_⟩
  · simp only [SaysFs, Says]
    exact ⟨Or.inl ⟨_, List.mem_cons_self .., ["@b"], rfl, rfl⟩, Or.inr ⟨by simp, rfl⟩, trivial⟩
  unfold SaysFs
  refine ⟨Or.inl ⟨.obj [("curve", .int 3)], by simp, ?_⟩, ?_⟩
  · unfold Says
    refine ⟨_, _, rfl, rfl, by simp, rfl, one (P := fun j v => Says lower .int j v) ?_⟩
    simp only [Says]
    exact ⟨trivial, by decide, by decide⟩
  unfold SaysFs
  refine ⟨Or.inr ⟨by simp, rfl⟩, ?_⟩
  simp only [SaysFs]

/-- The homeserver's response is handed over and the poller moves on. -/
example : doSync lower (.http 200 (some body)) = .ok value := C139_read _ _ _ body_says

/-- A turn with this answer. -/
def reader : Reader := ⟨fun _ => "x", fun _ => ⟨"$e", "m", none, ""⟩, fun _ => .other⟩

def resp : Poller.Resp :=
  { nextBatch := "s2", otk := [("curve", 3)], fallback := none, changed := ["@b"], left := [], account := [],
    join := [⟨"!r", [], [], [], [⟨"$e", "m", none, ""⟩], (some 2, none)⟩], leave := [], invite := [], toDevice := [] }

example : Gets lower reader (.http 200 (some body)) (.ok resp) :=
  .ok value resp (C139_read _ _ _ body_says) ⟨rfl, rfl, .refl _, .refl _, .refl _, rfl, rfl, rfl, .refl _, rfl⟩

example : identify ("", "") (.http 200 (some (.obj [("is_guest", .bool false), ("device_id", .str "D"), ("user_id", .str "@a")]))) =
    .ok ("@a", "D") :=
  C139_owner _ _ (by decide) _ _ (by simp) (by simp)

/-! ## Answers that are taken for something else -/

/-- An answer with status 200 and an empty object is taken for a response: the poller forgets its position, in the database too, and its
next request is one for everything (`SyncURL`). -/
theorem C139_violated_position (fold : String → String) (R : Reader) {σ : Type} (rcv : Poller.Rcv σ) (user : String) (w : Poller.World σ)
    (t : Poller.Turn) (ht : Undisturbed w t) (hg : Gets fold R (.http 200 (some (.obj []))) t.reply) (hs : w.lp.lastStored = none)
    (hok : t.persistOk = true) (hm : w.lp.mem = {}) :
    (Poller.poll rcv user w t).1.lp.since = "" ∧ (Poller.poll rcv user w t).1.persisted = "" := by
  generalize hrep : t.reply = rep at hg
  have hd : doSync fold (.http 200 (some (.obj []))) = .ok sync.zero := rfl
  rw [poll_undisturbed rcv user ht, hrep]
  cases hg with
  | err s h => rw [hd] at h; cases h
  | ok v res h hr =>
    rw [hd] at h
    cases h
    obtain ⟨r1, r2, r3, r4, r5, r6, r7, r8, r9, r10⟩ := hr
    have r3 : res.join = [] := List.perm_nil.1 r3
    have r4 : res.invite = [] := List.perm_nil.1 r4
    have r5 : res.leave = [] := List.perm_nil.1 r5
    have r9 : res.otk = [] := List.perm_nil.1 r9
    have r1 : res.nextBatch = "" := r1
    have r2 : res.account = [] := r2
    have r6 : res.toDevice = [] := r6
    have r7 : res.changed = [] := r7
    have r8 : res.left = [] := r8
    have r10 : res.fallback = none := r10
    have hsec : (Poller.sections rcv user w.m w.lp.mem res).2.2 = true := by
      simp [Poller.sections, Poller.parseE2EE, Poller.parseAccount, Poller.parseRooms, Poller.parseToDevice, Poller.loop, Poller.joinErrs,
        Poller.shouldRetry, Poller.changedOtk, Poller.changedFallback, Poller.len, hm, r2, r3, r4, r5, r6, r7, r8, r9, r10]
    dsimp only
    rw [if_pos hsec]
    simp [Poller.advance, hs, hok, r1]

/-- The hypotheses are met by a new poller that has a position. -/
example (fold : String → String) (R : Reader) : ∃ (w : Poller.World Unit) (t : Poller.Turn), Undisturbed w t ∧
    Gets fold R (.http 200 (some (.obj []))) t.reply ∧ w.lp.lastStored = none ∧ t.persistOk = true ∧ w.lp.mem = {} ∧ w.lp.since = "s1" ∧
    w.persisted = "s1" :=
  ⟨⟨⟨(), []⟩, { since := "s1" }, "s1"⟩, ⟨false, false, .ok ⟨"", [], none, [], [], [], [], [], [], []⟩, 0, true⟩, ⟨rfl, rfl, rfl, by decide⟩,
    .ok sync.zero _ rfl ⟨rfl, rfl, .refl _, .refl _, .refl _, rfl, rfl, rfl, .refl _, rfl⟩, rfl, rfl, rfl, rfl, rfl⟩

/-- A response with a number that is not an integer where a count of one room should be. -/
def poison : J :=
  .obj [("next_batch", .str "s2"), ("rooms", .obj [("join", .obj [("!r", .obj [("unread_notifications", .obj [("highlight_count", .frac)])])])])]

theorem poison_unread (fold : String → String) : doSync fold (.http 200 (some poison)) = .error 0 := by
  have : (decode fold sync sync.zero poison).isNone = true := rfl
  simp only [Option.isNone_iff_eq_none] at this
  simp only [doSync, if_true, this]

/-- One part of a response that is not as expected makes all of it unreadable. If the homeserver insists, nothing of it is ever handed
over, and after 1001 attempts the token is given up as if the homeserver had refused it. -/
theorem C139_violated_poison (fold : String → String) (R : Reader) {σ : Type} (rcv : Poller.Rcv σ) (user : String) (w : Poller.World σ)
    (hw : w.lp.terminated = false) (hf : w.lp.failCount = 0) (ts : List Poller.Turn)
    (hts : ∀ t ∈ ts, t.killedBefore = false ∧ t.killedAfter = false ∧ Gets fold R (.http 200 (some poison)) t.reply)
    (hlen : ts.length = 1002) :
    let w' := ts.foldl (fun w t => (Poller.poll rcv user w t).1) w
    w'.m = w.m ∧ w'.lp.since = w.lp.since ∧ w'.lp.expired = w.lp.expired + 1 ∧ w'.lp.terminated = true := by
  have key : ∀ (ts : List Poller.Turn),
      (∀ t ∈ ts, t.killedBefore = false ∧ t.killedAfter = false ∧ Gets fold R (.http 200 (some poison)) t.reply) → ∀ w : Poller.World σ,
      w.lp.terminated = false → w.lp.failCount + ts.length = 1002 → 0 < ts.length →
      let w' := ts.foldl (fun w t => (Poller.poll rcv user w t).1) w
      w'.m = w.m ∧ w'.lp.since = w.lp.since ∧ w'.lp.expired = w.lp.expired + 1 ∧ w'.lp.terminated = true := by
    intro ts
    induction ts with
    | nil => intro _ w _ _ h; exact absurd h (by simp)
    | cons t ts ih =>
      intro hts w hw hl _
      obtain ⟨hb, ha, hg⟩ := hts t (List.mem_cons_self ..)
      simp only [List.length_cons] at hl
      dsimp only
      rw [List.foldl_cons]
      cases hts' : ts with
      | nil =>
        rw [hts'] at hl
        simp only [List.length_nil] at hl
        simp only [List.foldl_nil, Poller.poll, if_pos (show w.lp.failCount > 1000 by omega)]
        exact ⟨trivial, trivial, trivial, trivial⟩
      | cons t2 ts2 =>
        have hne : 0 < ts.length := by rw [hts']; simp
        rw [← hts']
        have hu : Undisturbed w t := ⟨hw, hb, ha, by omega⟩
        have hstep : (Poller.poll rcv user w t).1 = { w with lp := { w.lp with failCount := w.lp.failCount + 1 } } := by
          rw [poll_undisturbed rcv user hu]
          generalize t.reply = rep at hg
          cases hg with
          | ok v res h _ => rw [poison_unread] at h; cases h
          | err s h =>
            rw [poison_unread, Except.error.injEq] at h
            subst h
            rfl
        rw [hstep]
        exact ih (fun t ht => hts t (List.mem_cons_of_mem _ ht)) _ hw (by simp only; omega) hne
  exact key ts hts w hw (by omega) (by omega)

/-- The hypotheses are met. -/
example (fold : String → String) (R : Reader) : Gets fold R (.http 200 (some poison)) (.err 0) := .err 0 (poison_unread fold)

/-- Keys are matched without regard to case: a key of the homeserver's own replaces the position. -/
theorem C139_violated_case (fold : String → String) (h : fold "NEXT_BATCH" = fold "next_batch") :
    ∃ v, doSync fold (.http 200 (some (.obj [("next_batch", .str "s2"), ("NEXT_BATCH", .str "other")]))) = .ok v ∧ v.1 = "other" := by
  refine ⟨("other", sync.zero.2), ?_, rfl⟩
  have : decode fold sync sync.zero (.obj [("next_batch", .str "s2"), ("NEXT_BATCH", .str "other")]) = some ("other", sync.zero.2) := by
    simp only [decode, Fs.names, put, List.foldlM_cons, List.foldlM_nil]
    simp [h]
  simp only [doSync, if_true, this]

example : lower "NEXT_BATCH" = lower "next_batch" := by decide +kernel

/-- An answer without a user is taken as one that names the empty user: everyone whose token is answered like this is the same user with
the same device. -/
theorem C139_violated_nobody (junk : String × String) : identify junk (.http 200 (some (.obj []))) = .ok ("", "") ∧
    identify junk (.http 200 (some (.obj [("error", .str "try later")]))) = .ok ("", "") := ⟨rfl, rfl⟩

/-- A token without a device, as those of application services are, is taken as one of the device with the empty name: all such
tokens of a user share it. -/
theorem C139_violated_device (junk : String × String) (u : String) :
    identify junk (.http 200 (some (.obj [("user_id", .str u)]))) = .ok (u, "") := rfl

end Verif.Upstream
