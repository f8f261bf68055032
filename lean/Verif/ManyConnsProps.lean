import Verif.ManyConns
import Verif.ToDeviceProps
import Verif.E2EEProps
/-!
# C147: what is meant for a device reaches it on one of its connections
-/
namespace Verif.ManyConns
open Verif

/-! ## To-device messages -/

/-- The device as one client, whose position is that of connection `k`. -/
def view (w : W) (k : Nat) : ToDevice.Sys := ⟨w.inbox, w.cursor k, w.all, w.log, w.gone, w.acked⟩

structure Inv (w : W) : Prop where
  each : ∀ k, ToDevice.Inv (view w k)
  whose : ∀ r, r ∈ w.all ↔ ∃ k, r ∈ w.got k

/-- A change that another connection makes: rows go, what was received grows. -/
theorem inv_other {s t : ToDevice.Sys} (h : ToDevice.Inv s) (c : Option Nat) (ht : ToDevice.Inv { t with cursor := c })
    (hc : s.cursor.getD 0 ≤ t.srv.seq) (hrows : ∀ r ∈ t.srv.rows, r ∈ s.srv.rows ∨ s.cursor.getD 0 < r.pos)
    (hgot : ∀ r ∈ s.got, r ∈ t.got) : ToDevice.Inv { t with cursor := s.cursor } :=
  ⟨ht.sorted, hc, ht.ackedLe, fun r hr hp => hgot r (h.seen r ((hrows r hr).resolve_right (fun h => by simp only at hp; omega)) hp),
    ht.rowsLog, ht.acct⟩

theorem request_sub (s : ToDevice.State) (p : Option Nat) (l : Nat) :
    (∀ r ∈ (ToDevice.request s p l).1.rows, r ∈ s.rows) ∧ (ToDevice.request s p l).1.seq = s.seq := by
  constructor
  · intro r hr
    unfold ToDevice.request at hr
    cases hk : s.known
    · simpa [hk] using hr
    · cases p with
      | none => simpa [hk] using hr
      | some q => simp [hk] at hr; exact hr.1
  · unfold ToDevice.request
    cases s.known <;> cases p <;> rfl

theorem inv_init : Inv {} := ⟨fun _ => ToDevice.inv_init, by simp⟩

theorem step_inv {w : W} (h : Inv w) (o : Op) : Inv (step w o) := by
  obtain ⟨h1, h2⟩ := h
  cases o with
  | insert n ms => exact ⟨fun k => ToDevice.inv_step (h1 k) (.insert n ms), h2⟩
  | known b => exact ⟨fun k => ToDevice.inv_step (h1 k) (.known b), h2⟩
  | upsert o f c => exact ⟨h1, h2⟩
  | read k i => exact ⟨h1, h2⟩
  | forget k =>
    refine ⟨fun j => ?_, h2⟩
    by_cases hj : j = k
    · have := ToDevice.inv_step (h1 k) .forget
      simpa only [view, step, put, if_pos hj, ToDevice.sysStep] using this
    · simpa only [view, step, put, if_neg hj] using h1 j
  | poll k l rec =>
    have hsub := request_sub w.inbox (w.cursor k) l
    have hk := ToDevice.inv_step (h1 k) (.poll l rec)
    cases rec with
    | false =>
      refine ⟨fun j => ?_, h2⟩
      have := inv_other (s := view w j) (t := view (step w (.poll k l false)) k) (h1 j) _ hk
        (by simpa only [view, step, Bool.false_eq_true, if_false, hsub.2] using (h1 j).cur) (fun r hr => .inl (hsub.1 r hr)) (fun r hr => hr)
      exact this
    | true =>
      refine ⟨fun j => ?_, fun r => ?_⟩
      · by_cases hj : j = k
        · have e : view (step w (.poll k l true)) j = ToDevice.sysStep (view w k) (.poll l true) := by
            simp only [view, step, put, if_pos hj, ToDevice.sysStep, if_true]
          rw [e]
          exact hk
        · have := inv_other (s := view w j) (t := ToDevice.sysStep (view w k) (.poll l true)) (h1 j) _ hk
            (by simpa only [view, ToDevice.sysStep, if_true, hsub.2] using (h1 j).cur) (fun r hr => .inl (hsub.1 r hr))
            (fun r hr => List.mem_append_left _ hr)
          have e : view (step w (.poll k l true)) j =
              { ToDevice.sysStep (view w k) (.poll l true) with cursor := (view w j).cursor } := by
            simp only [view, step, put, if_neg hj, ToDevice.sysStep, if_true]
          rw [e]
          exact this
      · simp only [step, if_true, List.mem_append, h2]
        constructor
        · rintro (⟨j, hj⟩ | hr)
          · refine ⟨j, ?_⟩
            by_cases hjk : j = k
            · subst hjk; simp only [put, if_true]; exact List.mem_append_left _ hj
            · simpa only [put, if_neg hjk] using hj
          · exact ⟨k, by simp only [put, if_true]; exact List.mem_append_right _ hr⟩
        · rintro ⟨j, hj⟩
          by_cases hjk : j = k
          · subst hjk
            simp only [put, if_true, List.mem_append] at hj
            rcases hj with h | h
            · exact .inl ⟨j, h⟩
            · exact .inr h
          · exact .inl ⟨j, by simpa only [put, if_neg hjk] using hj⟩

theorem run_inv (w : W) (h : Inv w) (ops : List Op) : Inv (run w ops) := by
  induction ops generalizing w with
  | nil => exact h
  | cons o os ih => exact ih _ (step_inv h o)

/-- C147, messages: whatever the connections of a device ask and however many there are, each message was received on one of them, or was
cancelled, or is still stored; and one that is stored is beyond the position of each connection, or was received. -/
theorem C147_messages_partial (ops : List Op) (r : ToDevice.Row) :
    let w := run {} ops
    r ∈ w.log → (∃ k, r ∈ w.got k) ∨ r ∈ w.gone ∨ (r ∈ w.inbox.rows ∧ ∀ k, (w.cursor k).getD 0 < r.pos) := by
  intro w hr
  obtain ⟨h1, h2⟩ := run_inv {} inv_init ops
  rcases (h1 0).acct r hr with h | h | h
  · exact .inr (.inl h)
  · by_cases hg : r ∈ w.all
    · exact .inl ((h2 r).1 hg)
    · refine .inr (.inr ⟨h, fun k => Nat.lt_of_not_le fun hle => hg ((h1 k).seen r h hle)⟩)
  · exact .inl ((h2 r).1 h.1)

/-- C147, messages: if only one connection has the extension, it misses nothing. -/
theorem C147_alone (ops : List Op) (k : Nat) (hk : ∀ j l b, Op.poll j l b ∈ ops → j = k) (r : ToDevice.Row) :
    let w := run {} ops
    r ∈ w.log → r ∈ w.got k ∨ r ∈ w.gone ∨ (r ∈ w.inbox.rows ∧ (w.cursor k).getD 0 < r.pos) := by
  intro w hr
  have hnone : ∀ (ops : List Op) (w : W), (∀ j l b, Op.poll j l b ∈ ops → j = k) → (∀ j, j ≠ k → w.got j = []) →
      ∀ j, j ≠ k → (run w ops).got j = [] := by
    intro ops
    induction ops with
    | nil => exact fun _ _ h => h
    | cons o os ih =>
      intro w ho h
      refine ih (step w o) (fun j l b hm => ho j l b (List.mem_cons_of_mem _ hm)) fun j hj => ?_
      cases o with
      | poll i l b =>
        have : i = k := ho i l b (List.mem_cons_self ..)
        subst this
        cases b with
        | true => simp only [step, if_true, put, if_neg hj]; exact h j hj
        | false => exact h j hj
      | _ => exact h j hj
  rcases C147_messages_partial ops r hr with ⟨j, hj⟩ | h | h
  · by_cases hjk : j = k
    · exact .inl (hjk ▸ hj)
    · rw [hnone ops {} hk (fun _ _ => rfl) j hjk] at hj
      cases hj
  · exact .inr (.inl h)
  · exact .inr (.inr ⟨h.1, h.2 k⟩)

/-! ## Device lists and keys -/

/-- The last change of a user's devices that was stored. -/
def lastChange (u : String) : List Op → Option E2EE.Change
  | [] => none
  | o :: os => match lastChange u os with
    | some c => some c
    | none => match o with | .upsert _ _ c => c u | _ => none

theorem lastChange_snoc (u : String) (l : List Op) (o : Op) : lastChange u (l ++ [o]) =
    match (match o with | .upsert _ _ c => c u | _ => none) with
    | some c => some c | none => lastChange u l := by
  induction l with
  | nil => simp only [List.nil_append, lastChange]; cases o <;> simp only <;> split <;> simp_all
  | cons a l ih =>
    simp only [List.cons_append, lastChange, ih]
    cases o <;> simp only
    rename_i c
    cases c u <;> simp

theorem run_snoc (w : W) (l : List Op) (o : Op) : run w (l ++ [o]) = step (run w l) o := by simp [run]

structure LInv (u : String) (ops : List Op) (w : W) : Prop where
  row : w.data.row = false → w.data.new u = none ∧ lastChange u ops = none
  new : ∀ x, w.data.new u = some x → lastChange u ops = some x
  sent : w.data.new u = none → ∀ x, w.data.sent u = some x → lastChange u ops = some x
  told : w.data.new u = none → ∀ x, lastChange u ops = some x → ∃ k, w.told k u = some x

theorem linv_run (u : String) (ops : List Op) : LInv u ops (run {} ops) := by
  induction ops using Verif.Util.snocRec with
  | nil => exact ⟨fun _ => ⟨rfl, rfl⟩, (fun _ h => nomatch h), (fun _ _ h => nomatch h), (fun _ _ h => nomatch h)⟩
  | append_singleton ops o ih =>
    rw [run_snoc]
    generalize hw : run {} ops = w at ih
    obtain ⟨h0, h1, h2, h3⟩ := ih
    cases o with
    | upsert otk f c =>
      have hl : lastChange u (ops ++ [.upsert otk f c]) = match c u with | some x => some x | none => lastChange u ops :=
        lastChange_snoc u ops _
      refine ⟨by simp [step, E2EE.upsert], fun x hx => ?_, fun hn x hx => ?_, fun hn x hx => ?_⟩ <;>
        rw [hl] at * <;> simp only [step, E2EE.upsert] at * <;> cases hc : c u <;> simp only [hc] at * <;>
        first | exact h1 x hx | exact hx | exact h2 hn x hx | exact h3 hn x hx | cases hn
    | read k i =>
      have hl : lastChange u (ops ++ [.read k i]) = lastChange u ops := lastChange_snoc u ops _
      rw [show LInv u (ops ++ [.read k i]) = LInv u ops from by
        funext w; apply propext; constructor <;> intro h <;> exact ⟨hl ▸ h.row, hl ▸ h.new, hl ▸ h.sent, hl ▸ h.told⟩]
      have hkeep : ∀ (g : String → Option E2EE.Change), (∀ x, g u = some x → lastChange u ops = some x) → ∀ x,
          lastChange u ops = some x → (∃ k, w.told k u = some x) →
          ∃ j, put w.told k (fun u => match g u with | some c => some c | none => w.told k u) j u = some x := by
        intro g hg x hx hj
        cases hgu : g u with
        | some y =>
          refine ⟨k, ?_⟩
          have := hg y hgu
          simp only [put, if_true, hgu]
          rw [← this, hx]
        | none =>
          obtain ⟨j, hj⟩ := hj
          refine ⟨j, ?_⟩
          by_cases hjk : j = k
          · subst hjk; simp only [put, if_true, hgu]; exact hj
          · simpa only [put, if_neg hjk] using hj
      cases hrow : w.data.row with
      | false =>
        simp only [step, E2EE.read, hrow, Bool.not_false, if_true]
        refine ⟨fun _ => h0 hrow, h1, h2, fun hn x hx => ?_⟩
        exact hkeep (fun _ => none) (by intro x h; cases h) x hx (h3 hn x hx)
      | true =>
        cases i with
        | true =>
          simp only [step, E2EE.read, hrow, Bool.not_true, Bool.false_eq_true, if_false, if_true]
          refine ⟨(fun hc => by rw [hrow] at hc; cases hc), h1, h2, fun hn x hx => ?_⟩
          exact hkeep w.data.sent (h2 hn) x hx (h3 hn x hx)
        | false =>
          simp only [step, E2EE.read, hrow, Bool.not_true, Bool.false_eq_true, if_false]
          refine ⟨(fun hc => nomatch hc), (fun _ h => nomatch h), fun _ => h1, fun _ x hx => ?_⟩
          cases hnu : w.data.new u with
          | some y =>
            refine ⟨k, ?_⟩
            simp only [put, if_true, hnu]
            rw [← h1 y hnu, hx]
          | none => exact hkeep w.data.new h1 x hx (h3 hnu x hx)
    | insert n ms => exact ⟨fun h => ⟨(h0 h).1, (lastChange_snoc u ops _).trans (h0 h).2⟩, fun x h => (lastChange_snoc u ops _).trans (h1 x h),
        fun hn x h => (lastChange_snoc u ops _).trans (h2 hn x h), fun hn x h => h3 hn x ((lastChange_snoc u ops _).symm.trans h)⟩
    | forget k => exact ⟨fun h => ⟨(h0 h).1, (lastChange_snoc u ops _).trans (h0 h).2⟩, fun x h => (lastChange_snoc u ops _).trans (h1 x h),
        fun hn x h => (lastChange_snoc u ops _).trans (h2 hn x h), fun hn x h => h3 hn x ((lastChange_snoc u ops _).symm.trans h)⟩
    | known b => exact ⟨fun h => ⟨(h0 h).1, (lastChange_snoc u ops _).trans (h0 h).2⟩, fun x h => (lastChange_snoc u ops _).trans (h1 x h),
        fun hn x h => (lastChange_snoc u ops _).trans (h2 hn x h), fun hn x h => h3 hn x ((lastChange_snoc u ops _).symm.trans h)⟩
    | poll k l b =>
      cases b <;>
      exact ⟨fun h => ⟨(h0 h).1, (lastChange_snoc u ops _).trans (h0 h).2⟩, fun x h => (lastChange_snoc u ops _).trans (h1 x h),
        fun hn x h => (lastChange_snoc u ops _).trans (h2 hn x h), fun hn x h => h3 hn x ((lastChange_snoc u ops _).symm.trans h)⟩

/-- C147, device lists: the last change of a user's devices still waits for the device, or is what one of its connections was told last. -/
theorem C147_lists_partial (ops : List Op) (u : String) (x : E2EE.Change) (h : lastChange u ops = some x) :
    (run {} ops).data.new u = some x ∨ ∃ k, (run {} ops).told k u = some x := by
  have hi := linv_run u ops
  cases hn : (run {} ops).data.new u with
  | some y => exact .inl ((hi.new y hn).symm.trans h)
  | none => exact .inr (hi.told hn x h)

/-! ## Cases, and what goes wrong -/

def msg (b : String) : ToDevice.Msg := { type := "m.room.encrypted", body := b }

/-- Two connections: each gets one of two messages. -/
example : let w := run {} [.poll 0 0 true, .poll 1 0 true, .insert 0 [msg "a"], .poll 0 0 true, .insert 0 [msg "b"], .poll 0 0 true]
    w.log = [⟨1, msg "a"⟩, ⟨2, msg "b"⟩] ∧ w.got 0 = w.log ∧ w.got 1 = [] ∧ w.inbox.rows = [⟨2, msg "b"⟩] := by decide +kernel

/-- A message that one connection has acknowledged is gone: the other, which follows all its positions, never gets it. -/
theorem C147_violated_messages :
    let w := run {} [.poll 0 0 true, .poll 1 0 true, .insert 0 [msg "a"], .poll 0 0 true, .poll 0 0 true, .poll 1 0 true]
    w.log = [⟨1, msg "a"⟩] ∧ w.got 0 = [⟨1, msg "a"⟩] ∧ w.got 1 = [] ∧ w.inbox.rows = [] := by decide +kernel

/-- A device list change that one connection was told is not told to the other, whatever it asks. -/
theorem C147_violated_lists (is : List Bool) :
    let w := run {} ([.upsert none none fun _ => none, .read 0 true, .read 1 true, .upsert none none fun u => if u = "@a" then some .changed else none,
      .read 0 false, .read 0 false] ++ is.map fun i => .read 1 i)
    w.told 0 "@a" = some .changed ∧ w.told 1 "@a" = none := by
  intro w
  have key : ∀ (is : List Bool) (v : W), v.data.row = true → v.data.new "@a" = none → v.data.sent "@a" = none →
      v.told 0 "@a" = some .changed → v.told 1 "@a" = none →
      (run v (is.map fun i => .read 1 i)).told 0 "@a" = some .changed ∧ (run v (is.map fun i => .read 1 i)).told 1 "@a" = none := by
    intro is
    induction is with
    | nil => exact fun v _ _ _ h4 h5 => ⟨h4, h5⟩
    | cons i is ih =>
      intro v h1 h2 h3 h4 h5
      refine ih (step v (.read 1 i)) ?_ ?_ ?_ ?_ ?_ <;> cases i <;> simp [step, E2EE.read, h1, h2, h3, h4, h5, put]
  have : w = run (run {} [.upsert none none fun _ => none, .read 0 true, .read 1 true,
      .upsert none none fun u => if u = "@a" then some .changed else none, .read 0 false, .read 0 false]) (is.map fun i => .read 1 i) := by
    simp [w, run]
  rw [this]
  exact key is _ (by decide +kernel) (by decide +kernel) (by decide +kernel) (by decide +kernel) (by decide +kernel)

/-- Key counts that one connection was told are not told to the other, which keeps the old ones as long as it is not made anew. -/
theorem C147_violated_keys (n : Nat) :
    let w := run {} ([.upsert (some [("curve", 1)]) none fun _ => none, .read 0 true, .read 1 true,
      .upsert (some [("curve", 0)]) none fun _ => none, .read 0 false] ++ List.replicate n (.read 1 false))
    w.keys 0 = some [("curve", 0)] ∧ w.keys 1 = some [("curve", 1)] := by
  intro w
  have key : ∀ (n : Nat) (v : W), v.data.row = true → v.data.otkBit = false → v.keys 0 = some [("curve", 0)] →
      v.keys 1 = some [("curve", 1)] →
      (run v (List.replicate n (.read 1 false))).keys 0 = some [("curve", 0)] ∧
        (run v (List.replicate n (.read 1 false))).keys 1 = some [("curve", 1)] := by
    intro n
    induction n with
    | zero => exact fun v _ _ h3 h4 => ⟨h3, h4⟩
    | succ n ih =>
      intro v h1 h2 h3 h4
      rw [List.replicate_succ]
      refine ih (step v (.read 1 false)) ?_ ?_ ?_ ?_ <;> simp [step, E2EE.read, h1, h2, h3, h4, put]
  have : w = run (run {} [.upsert (some [("curve", 1)]) none fun _ => none, .read 0 true, .read 1 true,
      .upsert (some [("curve", 0)]) none fun _ => none, .read 0 false]) (List.replicate n (.read 1 false)) := by
    simp [w, run]
  rw [this]
  exact key n _ (by decide +kernel) (by decide +kernel) (by decide +kernel) (by decide +kernel)

end Verif.ManyConns
