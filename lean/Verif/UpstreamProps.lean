import Verif.Upstream
import Verif.PollerProps
/-!
# C139: answers of the homeserver are taken as what they say

`Says` is how a conforming homeserver writes a value: objects with distinct keys, in any order, with any further keys of its own, and
with parts that are empty left out or not.
-/
namespace Verif.Upstream
open Verif

variable (fold : String → String)

/-! ## Specification -/

mutual
/-- What is meant if a part is left out. -/
def T.blank : (t : T) → t.den
  | .str => ""
  | .int => (0 : Int)
  | .bool => false
  | .optInt => (none : Option Int)
  | .strs => (none : Option (List String))
  | .raws => (none : Option (List J))
  | .map t => (none : Option (List (String × t.den)))
  | .struct fs => fs.blank
def Fs.blank : (fs : Fs) → fs.den
  | .nil => ()
  | .cons _ t fs => (t.blank, fs.blank)
end

mutual
/-- `j` is a way to write `v`. -/
def Says : (t : T) → J → t.den → Prop
  | .str, j, v => j = .str v
  | .int, j, v => j = .int v ∧ -2 ^ 63 ≤ v ∧ v < 2 ^ 63
  | .bool, j, v => j = .bool v
  | .optInt, j, v => ∃ n : Int, v = some n ∧ j = .int n ∧ -2 ^ 63 ≤ n ∧ n < 2 ^ 63
  | .strs, j, v => ∃ l, v = some l ∧ j = .arr (l.map .str)
  | .raws, j, v => ∃ l, v = some l ∧ j = .arr l
  | .map t, j, v => ∃ (es : List (String × J)) (m : List (String × t.den)), v = some m ∧ j = .obj es ∧ (es.map Prod.fst).Nodup ∧
      es.map Prod.fst = m.map Prod.fst ∧ ∀ (i : Nat) a b, es[i]? = some a → m[i]? = some b → Says t a.2 b.2
  | .struct fs, j, v => ∃ es, j = .obj es ∧ (es.map Prod.fst).Nodup ∧
      (∀ e ∈ es, e.1 ∈ fs.names ∨ ∀ n ∈ fs.names, fold n ≠ fold e.1) ∧ SaysFs fs es v
/-- The fields: each is written, or nothing and left out. -/
def SaysFs : (fs : Fs) → List (String × J) → fs.den → Prop
  | .nil, _, _ => True
  | .cons n t fs, es, v =>
    ((∃ j, (n, j) ∈ es ∧ Says t j v.1) ∨ ((∀ j, (n, j) ∉ es) ∧ v.1 = t.blank)) ∧ SaysFs fs es v.2
end

/-! ## The decoder -/

mutual
theorem blank_zero : (t : T) → t.blank = t.zero
  | .str => rfl
  | .int => rfl
  | .bool => rfl
  | .optInt => rfl
  | .strs => rfl
  | .raws => rfl
  | .map _ => rfl
  | .struct fs => by simp only [T.blank, T.zero, blank_zeros fs]
theorem blank_zeros : (fs : Fs) → fs.blank = fs.zero
  | .nil => rfl
  | .cons _ t fs => by simp only [Fs.blank, Fs.zero, blank_zero t, blank_zeros fs]
end

mutual
/-- The fields of structs have different names. -/
def T.ok : T → Bool
  | .map t => t.ok
  | .struct fs => fs.ok
  | _ => true
def Fs.ok : Fs → Bool
  | .nil => true
  | .cons n t fs => !(fs.names.contains n) && t.ok && fs.ok
end

theorem put_congr {p q : String → Bool} (j : J) : ∀ (fs : Fs) (v : fs.den), (∀ n ∈ fs.names, p n = q n) →
    put fold fs p v j = put fold fs q v j
  | .nil, _, _ => by simp only [put]
  | .cons n t fs, v, h => by
    rw [put, put, h n (List.mem_cons_self ..), put_congr j fs v.2 fun m hm => h m (List.mem_cons_of_mem _ hm)]

/-- Fields put by their exact names. -/
def puts (fs : Fs) (v : fs.den) (es : List (String × J)) : Option fs.den :=
  es.foldlM (fun v e => put fold fs (fun n => n == e.1) v e.2) v

theorem puts_cons (fs : Fs) (v : fs.den) (e : String × J) (es : List (String × J)) :
    puts fold fs v (e :: es) = (put fold fs (fun n => n == e.1) v e.2).bind fun v' => puts fold fs v' es := rfl

theorem puts_nil (v : Fs.nil.den) (es : List (String × J)) : puts fold .nil v es = some v := by
  induction es with
  | nil => rfl
  | cons e es ih => rw [puts_cons, put]; exact ih

theorem put_none (n : String) (j : J) : ∀ (fs : Fs) (v : fs.den), n ∉ fs.names → put fold fs (fun m => m == n) v j = some v
  | .nil, v, _ => by simp only [put]
  | .cons m t fs, v, h => by
    simp only [Fs.names, List.mem_cons, not_or] at h
    rw [put, if_neg (by simpa using fun hh => h.1 hh.symm), put_none n j fs v.2 h.2]
    rfl

theorem puts_absent (n : String) (t : T) (fs : Fs) (es : List (String × J)) (hn : n ∉ es.map Prod.fst) :
    ∀ v : (Fs.cons n t fs).den, puts fold (.cons n t fs) v es = (puts fold fs v.2 es).map fun x => (v.1, x) := by
  induction es with
  | nil => intro v; rfl
  | cons e es ih =>
    intro v
    simp only [List.map_cons, List.mem_cons, not_or] at hn
    rw [puts_cons, puts_cons, put, if_neg (by simpa using hn.1)]
    cases put fold fs (fun n => n == e.1) v.2 e.2 with
    | none => rfl
    | some x => exact ih hn.2 (v.1, x)

theorem puts_present (n : String) (t : T) (fs : Fs) (hfs : n ∉ fs.names) (j : J) (es : List (String × J))
    (hnd : (es.map Prod.fst).Nodup) (hj : (n, j) ∈ es) :
    ∀ v : (Fs.cons n t fs).den, puts fold (.cons n t fs) v es =
      (decode fold t v.1 j).bind fun y => (puts fold fs v.2 es).map fun x => (y, x) := by
  induction es with
  | nil => cases hj
  | cons e es ih =>
    intro v
    simp only [List.map_cons, List.nodup_cons] at hnd
    rw [puts_cons, puts_cons, put]
    rcases List.mem_cons.1 hj with rfl | hj
    · rw [if_pos (by simp)]
      simp only [put_none fold n j fs v.2 hfs, Option.bind_some]
      cases decode fold t v.1 j with
      | none => rfl
      | some y => exact puts_absent fold n t fs es hnd.1 (y, v.2)
    · have : n ≠ e.1 := fun hh => hnd.1 (hh ▸ List.mem_map_of_mem (f := Prod.fst) hj)
      rw [if_neg (by simpa using this)]
      cases put fold fs (fun n => n == e.1) v.2 e.2 with
      | none => cases decode fold t v.1 j <;> rfl
      | some x => exact ih hnd.2 hj (v.1, x)

theorem mapM_str (l : List String) : (l.map J.str).mapM elem = some l := by
  induction l with
  | nil => rfl
  | cons s l ih => simp [List.mapM_cons, elem, ih]

theorem setKey_new {α : Type} (m : List (String × α)) (k : String) (v : α) (h : k ∉ m.map Prod.fst) : setKey m k v = m ++ [(k, v)] := by
  unfold setKey
  rw [if_neg]
  simp only [List.any_eq_true, beq_iff_eq, not_exists, not_and]
  exact fun e he hk => h (hk ▸ List.mem_map_of_mem (f := Prod.fst) he)

theorem map_fold (t : T) (es : List (String × J)) : ∀ (m acc : List (String × t.den)),
    es.map Prod.fst = m.map Prod.fst → ((acc.map Prod.fst) ++ es.map Prod.fst).Nodup →
    (∀ (i : Nat) a b, es[i]? = some a → m[i]? = some b → decode fold t t.zero a.2 = some b.2) →
    es.foldlM (fun m e => (decode fold t t.zero e.2).map fun x => setKey m e.1 x) acc = some (acc ++ m) := by
  induction es with
  | nil =>
    intro m acc hk _ _
    cases m with
    | nil => simp
    | cons => simp at hk
  | cons e es ih =>
    intro m acc hk hnd hd
    cases m with
    | nil => simp at hk
    | cons b m =>
      simp only [List.map_cons, List.cons.injEq] at hk
      have h0 := hd 0 e b rfl rfl
      have hnew : e.1 ∉ acc.map Prod.fst := fun hm =>
        (List.nodup_append.1 hnd).2.2 _ hm e.1 (by simp) rfl
      rw [List.foldlM_cons, h0]
      show es.foldlM _ (setKey acc e.1 b.2) = _
      rw [setKey_new acc e.1 b.2 hnew, ih m (acc ++ [(e.1, b.2)]) hk.2 (by simpa using hnd)
        (fun i a c ha hc => hd (i + 1) a c (by simpa using ha) (by simpa using hc)), hk.1]
      simp

mutual
/-- What is written is read. -/
theorem decode_says : (t : T) → t.ok = true → (j : J) → (v : t.den) → Says fold t j v → decode fold t t.zero j = some v
  | .str, _, j, v, h => by simp only [Says] at h; subst h; rfl
  | .int, _, j, v, h => by
    obtain ⟨rfl, h1, h2⟩ := h
    have : fits v = true := by rw [fits, Bool.and_eq_true]; exact ⟨decide_eq_true h1, decide_eq_true h2⟩
    simp only [decode, this, if_true]
  | .bool, _, j, v, h => by simp only [Says] at h; subst h; rfl
  | .optInt, _, j, v, h => by
    obtain ⟨n, rfl, rfl, h1, h2⟩ := h
    have : fits n = true := by rw [fits, Bool.and_eq_true]; exact ⟨decide_eq_true h1, decide_eq_true h2⟩
    simp only [decode, this, if_true]
  | .strs, _, j, v, h => by
    obtain ⟨l, rfl, rfl⟩ := h
    simp only [decode, mapM_str, Option.map_some]
  | .raws, _, j, v, h => by
    obtain ⟨l, rfl, rfl⟩ := h
    rfl
  | .map t, hok, j, v, h => by
    simp only [Says] at h
    obtain ⟨es, m, rfl, rfl, hnd, hk, hs⟩ := h
    simp only [T.ok] at hok
    have := map_fold fold t es m [] hk (by simpa using hnd) fun i a b ha hb => decode_says t hok a.2 b.2 (hs i a b ha hb)
    simp only [decode, T.zero, Option.getD_none, this, Option.map_some, List.nil_append]
  | .struct fs, hok, j, v, h => by
    simp only [Says] at h
    obtain ⟨es, rfl, hnd, hclean, hs⟩ := h
    simp only [T.ok] at hok
    have h1 := puts_says fs hok es hnd v hs
    simp only [decode, T.zero]
    rw [← h1]
    have hcongr : ∀ (es : List (String × J)), (∀ e ∈ es, e.1 ∈ fs.names ∨ ∀ n ∈ fs.names, fold n ≠ fold e.1) → ∀ v0 : fs.den,
        es.foldlM (fun v e => put fold fs (fun n => if e.1 ∈ fs.names then n == e.1 else fold n == fold e.1) v e.2) v0 =
          puts fold fs v0 es := by
      intro es
      induction es with
      | nil => intros; rfl
      | cons e es ih =>
        intro hc v0
        have hp : put fold fs (fun n => if e.1 ∈ fs.names then n == e.1 else fold n == fold e.1) v0 e.2 =
            put fold fs (fun n => n == e.1) v0 e.2 := by
          apply put_congr
          intro n hn
          by_cases hm : e.1 ∈ fs.names
          · rw [if_pos hm]
          · rw [if_neg hm]
            have hne := (hc e (List.mem_cons_self ..)).resolve_left hm n hn
            have hne' : n ≠ e.1 := fun hh => hm (hh ▸ hn)
            rw [beq_false_of_ne hne, beq_false_of_ne hne']
        rw [List.foldlM_cons, puts_cons, hp]
        cases put fold fs (fun n => n == e.1) v0 e.2 with
        | none => rfl
        | some x => exact ih (fun e' he' => hc e' (List.mem_cons_of_mem _ he')) x
    exact hcongr es hclean fs.zero
theorem puts_says : (fs : Fs) → fs.ok = true → (es : List (String × J)) → (es.map Prod.fst).Nodup → (v : fs.den) → SaysFs fold fs es v →
    puts fold fs fs.zero es = some v
  | .nil, _, es, _, v, _ => puts_nil fold _ es
  | .cons n t fs, hok, es, hnd, v, h => by
    simp only [Fs.ok, Bool.and_eq_true, Bool.not_eq_true', List.contains_eq_mem, decide_eq_false_iff_not] at hok
    simp only [SaysFs] at h
    have hrest := puts_says fs hok.2 es hnd v.2 h.2
    rcases h.1 with ⟨j, hj, hs⟩ | ⟨ha, hz⟩
    · rw [puts_present fold n t fs hok.1.1 j es hnd hj]
      simp only [Fs.zero, decode_says t hok.1.2 j v.1 hs, hrest, Option.bind_some, Option.map_some]
    · rw [puts_absent fold n t fs es]
      · simp only [Fs.zero, hrest, Option.map_some, ← blank_zero, ← hz]
      · intro hm
        obtain ⟨e, he, rfl⟩ := List.mem_map.1 hm
        exact ha e.2 he
end

/-! ## The answers of `/sync` -/

/-- C139: an answer with status 200 is read as what it says. -/
theorem C139_read (j : J) (v : sync.den) (h : Says fold sync j v) : doSync fold (.http 200 (some j)) = .ok v := by
  simp only [doSync, if_true, decode_says fold sync (by decide +kernel) j v h]

/-- The poller is not stopped by others in this turn, and has not failed too often before it. -/
structure Undisturbed {σ : Type} (w : Poller.World σ) (t : Poller.Turn) : Prop where
  alive : w.lp.terminated = false
  before : t.killedBefore = false
  after : t.killedAfter = false
  fails : w.lp.failCount ≤ 1000

variable {σ : Type} (rcv : Poller.Rcv σ) (user : String) (R : Reader)

theorem poll_undisturbed {w : Poller.World σ} {t : Poller.Turn} (h : Undisturbed w t) :
    Poller.poll rcv user w t = match t.reply with
      | .err status =>
        if status = 401 ∨ status = 403 then
          ({ w with lp := { w.lp with terminated := true, expired := w.lp.expired + 1 } }, false)
        else ({ w with lp := { w.lp with failCount := w.lp.failCount + 1 } }, true)
      | .ok res =>
        let r := Poller.sections rcv user w.m w.lp.mem res
        let lp := { w.lp with toDeviceOnly := false, failCount := 0, mem := r.2.1 }
        if r.2.2 then
          let a := Poller.advance lp w.persisted t res
          ({ m := r.1, lp := a.1, persisted := a.2 }, true)
        else ({ w with m := r.1, lp := { lp with failCount := lp.failCount + 1 } }, true) := by
  unfold Poller.poll
  rw [if_neg (by have := h.fails; omega), if_neg (by simp [h.alive, h.before]), if_neg (by simp [h.after])]
  cases t.reply <;> rfl

/-- Everything that a response says was passed on (`Poller.JoinHanded` and so on: in order, unless the room's data are bad). -/
structure Handed (v : sync.den) (log : List (Poller.Call × Poller.Err)) : Prop where
  account : v.2.1.1.getD [] ≠ [] → Poller.Done (.account "" ((v.2.1.1.getD []).map R.text)) log
  join : ∀ (id : String) (d : join.den), (id, d) ∈ v.2.2.2.1.1.getD [] →
    match d with
    | ((state, _), (timeline, _), (ephemeral, _), (account, _), (highlight, notification, _), _) =>
      Poller.JoinHanded ⟨id, (state.getD []).map R.ev, (ephemeral.getD []).map R.eph, (account.getD []).map R.text,
        (timeline.getD []).map R.ev, (highlight.map Int.toNat, notification.map Int.toNat)⟩ log
  invite : ∀ (id : String) (d : invite.den), (id, d) ∈ v.2.2.2.1.2.1.getD [] → Poller.InviteHanded ⟨id, (d.1.1.getD []).map R.ev⟩ log
  leave : ∀ (id : String) (d : leave.den), (id, d) ∈ v.2.2.2.1.2.2.1.getD [] →
    match d with
    | (_, (timeline, _), _) => Poller.LeaveHanded user ⟨id, (timeline.getD []).map R.ev⟩ log
  toDevice : v.2.2.2.2.1.1.getD [] ≠ [] → Poller.Done (.toDevice ((v.2.2.2.2.1.1.getD []).map R.text)) log
  lists : v.2.2.2.2.2.1.1.getD [] ≠ [] ∨ v.2.2.2.2.2.1.2.1.getD [] ≠ [] →
    ∃ o f, Poller.Done (.e2ee o f (v.2.2.2.2.2.1.1.getD []) (v.2.2.2.2.2.1.2.1.getD [])) log

theorem handed {v : sync.den} {res : Poller.Resp} {log : List (Poller.Call × Poller.Err)} (hr : Reads R v res)
    (h : Poller.FullyHanded user res log) : Handed user R v log where
  account := fun hne => by
    have := h.account (by rw [hr.account]; simpa using hne)
    rwa [hr.account] at this
  join := fun id d hd => h.join _ (hr.join.mem_iff.2 (List.mem_map_of_mem (f := joinRoom R) hd))
  invite := fun id d hd => h.invite _ (hr.invite.mem_iff.2 (List.mem_map_of_mem (f := inviteRoom R) hd))
  leave := fun id d hd => h.leave _ (hr.leave.mem_iff.2 (List.mem_map_of_mem (f := leaveRoom R) hd))
  toDevice := fun hne => by
    have := h.toDevice (by rw [hr.toDevice]; simpa using hne)
    rwa [hr.toDevice] at this
  lists := fun hne => by
    have := h.lists (by rw [hr.changed, hr.left]; exact hne)
    rwa [hr.changed, hr.left] at this

/-- C139: the poller goes on after an answer that says something, and either keeps its position or hands all of it over and moves to
the position that the answer names. -/
theorem C139_handed (w : Poller.World σ) (t : Poller.Turn) (ht : Undisturbed w t) (j : J) (v : sync.den) (hj : Says fold sync j v)
    (hg : Gets fold R (.http 200 (some j)) t.reply) :
    (Poller.poll rcv user w t).1.lp.terminated = false ∧ (Poller.poll rcv user w t).1.lp.expired = w.lp.expired ∧
    ∃ new, (Poller.poll rcv user w t).1.m.log = w.m.log ++ new ∧
      (((Poller.poll rcv user w t).1.lp.since = w.lp.since ∧ (Poller.poll rcv user w t).1.persisted = w.persisted) ∨
       (Handed user R v new ∧ (Poller.poll rcv user w t).1.lp.since = v.1 ∧
        ((Poller.poll rcv user w t).1.persisted = w.persisted ∨ (Poller.poll rcv user w t).1.persisted = v.1))) := by
  have hd := C139_read fold j v hj
  obtain ⟨new, h1, h2⟩ := Poller.C50_turn rcv user w t
  generalize hrep : t.reply = rep at hg
  cases hg with
  | err status h => rw [hd] at h; cases h
  | ok v' res h hr =>
    rw [hd] at h
    cases h
    refine ⟨?_, ?_, new, h1, ?_⟩
    · rw [poll_undisturbed rcv user ht, hrep]
      dsimp only
      split <;> exact ht.alive
    · rw [poll_undisturbed rcv user ht, hrep]
      dsimp only
      split <;> rfl
    · rcases h2 with h2 | ⟨res', he, h3, h4, h5⟩
      · exact Or.inl h2
      · rw [hrep] at he
        cases he
        rw [hr.nextBatch] at h4 h5
        exact Or.inr ⟨handed user R hr h3, h4, h5⟩

/-- C139: the token is given up in a turn exactly if the homeserver refused it. -/
theorem C139_refused (w : Poller.World σ) (t : Poller.Turn) (ht : Undisturbed w t) (a : Answer) (hg : Gets fold R a t.reply) :
    ((Poller.poll rcv user w t).1.lp.expired = w.lp.expired + 1 ∧ (Poller.poll rcv user w t).1.lp.terminated = true ↔
      ∃ b, a = .http 401 b ∨ a = .http 403 b) ∧
    ((∀ b, a ≠ .http 401 b ∧ a ≠ .http 403 b) →
      (Poller.poll rcv user w t).1.lp.expired = w.lp.expired ∧ (Poller.poll rcv user w t).1.lp.terminated = false) := by
  rw [poll_undisturbed rcv user ht]
  generalize t.reply = rep at hg
  cases hg with
  | ok v res h hr =>
    have hno : ∀ b, a ≠ .http 401 b ∧ a ≠ .http 403 b := by
      intro b
      constructor <;> (rintro rfl; simp [doSync] at h)
    dsimp only
    refine ⟨⟨fun hh => ?_, fun ⟨b, hb⟩ => ?_⟩, fun _ => ?_⟩
    · exfalso
      have h2 := hh.2
      split at h2 <;> exact Bool.noConfusion (ht.alive.symm.trans h2)
    · exact (hb.elim (hno b).1 (hno b).2).elim
    · constructor
      · split <;> rfl
      · split <;> exact ht.alive
  | err status h =>
    have hst : (status = 401 ∨ status = 403) ↔ ∃ b, a = .http 401 b ∨ a = .http 403 b := by
      cases a with
      | none =>
        simp only [doSync, Except.error.injEq] at h
        subst h
        simp
      | http s b =>
        simp only [doSync] at h
        by_cases hs : s = 200
        · rw [if_pos hs] at h
          have h0 : status = 0 := by
            cases b with
            | none => simp only [Except.error.injEq] at h; exact h.symm
            | some j =>
              dsimp only at h
              split at h
              · cases h
              · simp only [Except.error.injEq] at h; exact h.symm
          subst h0 hs
          simp
        · rw [if_neg hs, Except.error.injEq] at h
          subst h
          simp only [Answer.http.injEq]
          constructor
          · exact fun h => ⟨b, h.imp (fun h => ⟨h, rfl⟩) fun h => ⟨h, rfl⟩⟩
          · exact fun ⟨_, h⟩ => h.imp (·.1) (·.1)
    rw [← hst]
    dsimp only
    by_cases hc : status = 401 ∨ status = 403
    · rw [if_pos hc]
      refine ⟨⟨fun _ => hc, fun _ => ⟨rfl, rfl⟩⟩, fun hno => ?_⟩
      obtain ⟨b, hb⟩ := hst.1 hc
      exact (hb.elim (hno b).1 (hno b).2).elim
    · rw [if_neg hc]
      exact ⟨⟨fun hh => Bool.noConfusion (ht.alive.symm.trans hh.2), fun h => absurd h hc⟩, fun _ => ⟨rfl, ht.alive⟩⟩

/-- C139: an answer that is not a response (an error, another status, something that cannot be read) leaves everything as it was but
for the count of failures. -/
theorem C139_nothing (w : Poller.World σ) (t : Poller.Turn) (ht : Undisturbed w t) (a : Answer) (status : Nat)
    (ha : doSync fold a = .error status) (hg : Gets fold R a t.reply) :
    (Poller.poll rcv user w t).1.m = w.m ∧ (Poller.poll rcv user w t).1.persisted = w.persisted ∧
    (Poller.poll rcv user w t).1.lp.since = w.lp.since ∧ (Poller.poll rcv user w t).1.lp.mem = w.lp.mem ∧
    (Poller.poll rcv user w t).1.lp.ready = w.lp.ready := by
  rw [poll_undisturbed rcv user ht]
  generalize t.reply = rep at hg
  cases hg with
  | ok v res h hr => rw [ha] at h; cases h
  | err s h =>
    dsimp only
    split <;> exact ⟨rfl, rfl, rfl, rfl, rfl⟩

/-- The first field of a struct after its fields are decoded. -/
theorem first_field (fs : Fs) (es : List (String × J)) (s0 : String) (hmem : ("next_batch", J.str s0) ∈ es) (v : (Fs.cons "next_batch" .str fs).den)
    (h : decode fold (.struct (.cons "next_batch" .str fs)) (T.zero _) (.obj es) = some v) :
    ∃ k, (k, J.str v.1) ∈ es ∧ fold k = fold "next_batch" := by
  simp only [decode] at h
  have key : ∀ (done rest : List (String × J)) (v0 : (Fs.cons "next_batch" .str fs).den),
      ((∃ k, (k, J.str v0.1) ∈ done ∧ fold k = fold "next_batch") ∨ ("next_batch", J.str s0) ∉ done) →
      rest.foldlM (fun v e => put fold (.cons "next_batch" .str fs) (fun n => if e.1 ∈ Fs.names (.cons "next_batch" .str fs) then n == e.1 else fold n == fold e.1) v e.2) v0 = some v →
      (∃ k, (k, J.str v.1) ∈ done ++ rest ∧ fold k = fold "next_batch") ∨ ("next_batch", J.str s0) ∉ done ++ rest := by
    intro done rest
    induction rest generalizing done with
    | nil =>
      intro v0 hi hv
      cases hv
      simpa using hi
    | cons e rest ih =>
      intro v0 hi hv
      rw [List.foldlM_cons] at hv
      cases hp : put fold (.cons "next_batch" .str fs) (fun n => if e.1 ∈ Fs.names (.cons "next_batch" .str fs) then n == e.1 else fold n == fold e.1) v0 e.2 with
      | none => rw [hp] at hv; cases hv
      | some x =>
        rw [hp] at hv
        have := ih (done ++ [e]) x ?_ hv
        · simpa using this
        · rw [put] at hp
          by_cases hc : (if e.1 ∈ Fs.names (.cons "next_batch" .str fs) then "next_batch" == e.1 else fold "next_batch" == fold e.1) = true
          · rw [if_pos hc] at hp
            have hfold : fold e.1 = fold "next_batch" := by
              split at hc
              · simp only [beq_iff_eq] at hc; rw [← hc]
              · simp only [beq_iff_eq] at hc; exact hc.symm
            obtain ⟨y, hy, rfl⟩ := Option.map_eq_some_iff.1 hp
            obtain ⟨k0, j0⟩ := e
            cases j0 with
            | null =>
              simp only [decode, Option.some.injEq] at hy
              subst hy
              rcases hi with ⟨k, hk, hk'⟩ | hi
              · exact Or.inl ⟨k, List.mem_append_left _ hk, hk'⟩
              · refine Or.inr fun hm => ?_
                rcases List.mem_append.1 hm with hm | hm
                · exact hi hm
                · simp at hm
            | str s =>
              simp only [decode, Option.some.injEq] at hy
              subst hy
              exact Or.inl ⟨k0, by simp, hfold⟩
            | _ => simp only [decode] at hy; cases hy
          · rw [if_neg hc] at hp
            obtain ⟨y, hy, rfl⟩ := Option.map_eq_some_iff.1 hp
            rcases hi with ⟨k, hk, hk'⟩ | hi
            · exact Or.inl ⟨k, List.mem_append_left _ hk, hk'⟩
            · refine Or.inr fun hm => ?_
              rcases List.mem_append.1 hm with hm | hm
              · exact hi hm
              · simp only [List.mem_singleton] at hm
                subst hm
                exact hc (by simp [Fs.names])
  rcases key [] es _ (Or.inr (by simp)) h with h | h
  · simpa using h
  · exact absurd hmem (by simpa using h)

/-- C139: whatever else is in it, if every answer that is read has a text as its `next_batch`, the poller's position is only ever
one that was in an answer.  Missing: answers without (`C139_violated_position`), and that the key is spelled exactly so
(`C139_violated_case`). -/
theorem C139_token_partial (w : Poller.World σ) (t : Poller.Turn) (a : Answer) (hg : Gets fold R a t.reply)
    (ha : ∀ j, a = .http 200 (some j) → ∃ es s, j = .obj es ∧ ("next_batch", J.str s) ∈ es) :
    (Poller.poll rcv user w t).1.lp.since = w.lp.since ∨
    ∃ es k, a = .http 200 (some (.obj es)) ∧ (k, J.str (Poller.poll rcv user w t).1.lp.since) ∈ es ∧ fold k = fold "next_batch" := by
  obtain ⟨new, h1, h2⟩ := Poller.C50_turn rcv user w t
  rcases h2 with h2 | ⟨res, he, _, h4, _⟩
  · exact Or.inl h2.1
  · right
    rw [he] at hg
    cases hg with
    | ok v _ h hr =>
      rw [h4, hr.nextBatch]
      cases a with
      | none => cases h
      | http s b =>
        simp only [doSync] at h
        by_cases hs : s = 200
        · subst hs
          rw [if_pos rfl] at h
          cases b with
          | none => cases h
          | some j =>
            obtain ⟨es, s0, rfl, hm⟩ := ha j rfl
            dsimp only at h
            split at h
            · rename_i v' hv
              cases h
              obtain ⟨k, hk, hk'⟩ := first_field fold _ es s0 hm v hv
              exact ⟨es, k, rfl, hk, hk'⟩
            · cases h
        · rw [if_neg hs] at h
          cases h

/-! ## `/whoami` -/

/-- C139: a token is stored for the user and the device that the homeserver names. -/
theorem C139_owner (junk : String × String) (es : List (String × J)) (hnd : (es.map Prod.fst).Nodup) (u d : String)
    (hu : ("user_id", J.str u) ∈ es) (hd : ("device_id", J.str d) ∈ es) :
    identify junk (.http 200 (some (.obj es))) = .ok (u, d) := by
  have h : ∀ k s, (k, J.str s) ∈ es → getStr (.obj es) k = s := by
    intro k s hm
    have : es.find? (fun e => e.1 == k) = some (k, J.str s) := by
      clear hu hd
      induction es with
      | nil => cases hm
      | cons e es ih =>
        simp only [List.map_cons, List.nodup_cons] at hnd
        rw [List.find?_cons]
        rcases List.mem_cons.1 hm with rfl | hm
        · simp
        · have : e.1 ≠ k := fun hh => hnd.1 (hh ▸ List.mem_map_of_mem (f := Prod.fst) hm)
          rw [beq_false_of_ne this]
          exact ih hnd.2 hm
    simp only [getStr, this]
  simp [identify, whoAmI, h _ _ hu, h _ _ hd]

/-- C139: a client is told that its token is unknown exactly if the homeserver said so, and a token is stored only on an answer with
status 200. -/
theorem C139_denied (junk : String × String) (a : Answer) :
    ((∃ c, identify junk a = .error (401, c)) ↔ ∃ b, a = .http 401 b) ∧
    ((∃ x, identify junk a = .ok x) ↔ ∃ b, a = .http 200 b) := by
  cases a with
  | none => simp [identify, whoAmI]
  | http s b =>
    by_cases h2 : s = 200
    · subst h2
      cases b <;> simp [identify, whoAmI]
    · by_cases h4 : s = 401
      · subst h4
        simp [identify, whoAmI]
      · simp [identify, whoAmI, h2, h4]

end Verif.Upstream
