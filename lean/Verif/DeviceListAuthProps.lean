import Verif.DeviceListFlowProps
/-! C119: whatever fails, the client is told only of changes that happened. -/
namespace Verif.DeviceListFlow
open Verif.Poller (Call Err World Turn Reply Resp Rcv)
open Verif.E2EE (Change Out)

/-! ### Connections -/

theorem scan_mem {ρ : Type} (pos : Int) (l : List (Conn.Resp ρ)) (i d : Nat) {r : Conn.Resp ρ} (h : (Conn.scan pos i d l).2 = some r) : r ∈ l := by
  induction l generalizing i d with
  | nil => cases h
  | cons x l ih =>
    unfold Conn.scan at h
    split at h
    · exact List.mem_cons_of_mem _ (ih _ _ h)
    · split at h
      · cases h; exact List.mem_cons_self
      · exact List.mem_cons_of_mem _ (ih _ _ h)

/-- What a connection answers and keeps was in its buffer or was just made. -/
theorem step_all {ρ : Type} (P : ρ → Prop) (k : Conn.State Nat ρ) (req : Conn.Req Nat) (x : Option ρ) (hk : ∀ r ∈ k.buf, P r.data)
    (hx : ∀ d, x = some d → P d) :
    (∀ r ∈ (Conn.step k req x).1.buf, P r.data) ∧
    ∀ r, (Conn.step k req x).2 = .cached r ∨ (Conn.step k req x).2 = .fresh r → P r.data := by
  have hdrop : ∀ n, ∀ r ∈ k.buf.drop n, P r.data := fun n r hr => hk r (List.mem_of_mem_drop hr)
  have hnext : ∀ r, (Conn.scan req.pos 0 0 k.buf).2 = some r → P r.data := fun r hr => hk r (scan_mem _ _ _ _ hr)
  unfold Conn.step
  dsimp only
  split
  · exact ⟨hk, fun r h => by rcases h with h | h <;> cases h⟩
  · split
    · split
      · rename_i r0 hr0
        exact ⟨hdrop _, fun r h => by rcases h with h | h <;> cases h; exact hnext _ hr0⟩
      · exact ⟨hdrop _, fun r h => by rcases h with h | h <;> cases h⟩
    · split
      · rename_i r0 hr0 _
        exact ⟨hdrop _, fun r h => by rcases h with h | h <;> cases h; exact hnext _ hr0⟩
      · split
        · exact ⟨hdrop _, fun r h => by rcases h with h | h <;> cases h⟩
        · rename_i d
          have hd := hx d rfl
          have hb : ∀ r ∈ k.buf.drop (Conn.scan req.pos 0 0 k.buf).1 ++ [(⟨k.lastPos + 1, d⟩ : Conn.Resp ρ)], P r.data := by
            intro r hr
            rcases List.mem_append.1 hr with hr | hr
            · exact hdrop _ r hr
            · rw [List.mem_singleton.1 hr]; exact hd
          split
          · rename_i r0 hr0
            exact ⟨hb, fun r h => by rcases h with h | h <;> cases h; exact hnext _ hr0⟩
          · exact ⟨hb, fun r h => by rcases h with h | h <;> cases h; exact hd⟩

/-! ### The invariant -/

/-- All these changes happened. -/
def Happened (hs : List (String × Change)) (f : String → Option Change) : Prop := ∀ u x, f u = some x → (u, x) ∈ hs

theorem happened_none (hs : List (String × Change)) : Happened hs (fun _ => none) := by intro u x h; cases h

theorem Happened.or {hs : List (String × Change)} {f g : String → Option Change} (hf : Happened hs f) (hg : Happened hs g) :
    Happened hs (fun u => (f u).or (g u)) := by
  intro u x h
  rcases Option.or_eq_some_iff.1 h with h | ⟨_, h⟩
  · exact hf u x h
  · exact hg u x h

structure Client.True (hs : List (String × Change)) (c : Client) : Prop where
  buf : ∀ k, c.conn = some k → ∀ r ∈ k.buf, Happened hs r.data.lists
  busy : ∀ b, c.busy = some b → Happened hs b.out.lists
  told : Happened hs c.told

structure Auth (s : State) : Prop where
  new : Happened s.hs s.w.m.s.srv.new
  sent : Happened s.hs s.w.m.s.srv.sent
  c : s.c.True s.hs

theorem Client.True.get {hs : List (String × Change)} {c : Client} (h : c.True hs) {r : Conn.Resp Out} (hr : Happened hs r.data.lists) :
    (c.get r).True hs := ⟨h.buf, h.busy, hr.or h.told⟩

theorem read_true {hs : List (String × Change)} {srv : E2EE.State} (hn : Happened hs srv.new) (hs' : Happened hs srv.sent) (i : Bool) :
    Happened hs (E2EE.read srv i).1.new ∧ Happened hs (E2EE.read srv i).1.sent ∧ Happened hs (E2EE.read srv i).2.lists := by
  unfold E2EE.read
  split
  · exact ⟨hn, hs', happened_none hs⟩
  · split
    · exact ⟨hn, hs', hs'⟩
    · exact ⟨happened_none hs, hn, hn⟩

theorem begin_true {hs : List (String × Change)} {srv : E2EE.State} {c : Client} (hn : Happened hs srv.new) (hs' : Happened hs srv.sent)
    (h : c.True hs) (hb : c.busy = none) (body : Nat) (on arrives : Bool) :
    Happened hs (begin srv c body on arrives).1.new ∧ Happened hs (begin srv c body on arrives).1.sent ∧
    (begin srv c body on arrives).2.True hs := by
  unfold begin
  split
  · refine ⟨hn, hs', ?_⟩
    split <;> exact ⟨h.buf, h.busy, h.told⟩
  · rename_i k hk
    have hkb : ∀ r ∈ k.buf, Happened hs r.data.lists := by
      split at hk
      · cases hk; intro r hr; cases hr
      · exact h.buf k hk
    obtain ⟨h1, h2⟩ := step_all (fun o : Out => Happened hs o.lists) k ⟨c.pos, body⟩ none hkb (by intro d hd; cases hd)
    have hno : ∀ b : Busy, c.busy = some b → Happened hs b.out.lists := by rw [hb]; intro b hb; cases hb
    split
    · obtain ⟨h3, h4, h5⟩ := read_true hn hs' (c.pos = 0)
      cases on with
      | true =>
        refine ⟨h3, h4, ⟨?_, ?_, h.told⟩⟩
        · intro k' hk'; cases hk'; exact hkb
        · intro b hb; cases hb; exact h5
      | false =>
        refine ⟨hn, hs', ⟨?_, ?_, h.told⟩⟩
        · intro k' hk'; cases hk'; exact hkb
        · intro b hb; cases hb; exact happened_none hs
    · rename_i k' r he
      rw [he] at h1 h2
      refine ⟨hn, hs', ?_⟩
      have hc : ({ c with conn := some k' } : Client).True hs := ⟨by intro k hk; cases hk; exact h1, hno, h.told⟩
      split
      · exact hc.get (h2 r (Or.inl rfl))
      · exact ⟨hc.buf, hc.busy, hc.told⟩
    · rename_i k' o _ _ he
      rw [he] at h1
      refine ⟨hn, hs', ?_⟩
      split <;> exact ⟨by intro k hk; cases hk; exact h1, hno, h.told⟩

theorem finish_true {hs : List (String × Change)} {c : Client} (h : c.True hs) {b : Busy} (hb : c.busy = some b) (fails arrives : Bool) :
    (finish c b fails arrives).True hs := by
  have hno : ∀ b : Busy, (none : Option Busy) = some b → Happened hs b.out.lists := by intro b hb; cases hb
  unfold finish
  split
  · rename_i hc
    exact ⟨(by show ∀ k, c.conn = some k → _; rw [hc]; intro k hk; cases hk), hno, h.told⟩
  · rename_i k hk
    obtain ⟨h1, h2⟩ := step_all (fun o : Out => Happened hs o.lists) k ⟨c.pos, b.body⟩ (if fails then none else some b.out) (h.buf k hk)
      (by intro d hd; split at hd <;> cases hd; exact h.busy b hb)
    split
    · rename_i k' r he
      rw [he] at h1 h2
      have hc : ({ c with conn := some k', busy := none } : Client).True hs := ⟨by intro k hk; cases hk; exact h1, hno, h.told⟩
      split
      · exact hc.get (h2 r (Or.inr rfl))
      · exact hc
    · rename_i k' o _ he
      rw [he] at h1
      exact ⟨by intro k hk; cases hk; exact h1, hno, h.told⟩

theorem Happened.more {hs : List (String × Change)} {f : String → Option Change} (h : Happened hs f) (e : String × Change) :
    Happened (hs ++ [e]) f := fun u x hx => List.mem_append_left _ (h u x hx)

theorem lastOf_mem {u : String} {l : List (String × Change)} {x : Change} (h : lastOf u l = some x) : (u, x) ∈ l := by
  unfold lastOf at h
  obtain ⟨⟨v, y⟩, he, rfl⟩ := Option.map_eq_some_iff.1 h
  have := List.mem_filter.1 (List.mem_of_getLast? he)
  have hv : v = u := of_decide_eq_true this.2
  subst hv
  exact this.1

theorem answer_true {tok : Nat → String} {hs : List (String × Change)} {since : String} {res : Resp} (h : Answer tok hs since res) :
    Happened hs (E2EE.toChanges res.changed res.left) := by
  intro u x hx
  unfold E2EE.toChanges at hx
  rcases h with ⟨_, h1, h2, _⟩ | ⟨n, m, _, _, _, _, h⟩
  · rw [h1, h2] at hx; simp at hx
  · obtain ⟨h1, h2⟩ := h u
    have hm : ∀ y, lastOf u ((hs.take m).drop n) = some y → (u, y) ∈ hs :=
      fun y hy => List.mem_of_mem_take (List.mem_of_mem_drop (lastOf_mem hy))
    split at hx
    · rename_i hl; cases hx; exact hm _ (h2.1 hl)
    · split at hx
      · rename_i hc; cases hx; exact hm _ (h1.1 hc)
      · cases hx

theorem run_auth {tok : Nat → String} {user : String} {ok : Mode} {s : State} (h : Run tok user ok s) : Auth s := by
  induction h with
  | start hs => exact ⟨happened_none _, happened_none _, ⟨(by intro k hk; cases hk), (by intro b hb; cases hb), happened_none _⟩⟩
  | @change s u x _ ih =>
    have hc : s.c.True (s.hs ++ [(u, x)]) := ⟨fun k hk r hr => (ih.c.buf k hk r hr).more _, fun b hb => (ih.c.busy b hb).more _, ih.c.told.more _⟩
    refine ⟨ih.new.more _, ih.sent.more _, ?_⟩
    dsimp only
    split <;> exact ⟨hc.buf, hc.busy, hc.told⟩
  | fate next _ ih => exact ⟨ih.new, ih.sent, ih.c⟩
  | @turn s t _ _ ha ih =>
    rcases poll_effect user s.w t with ⟨h1, _⟩ | ⟨res, hr, ⟨_, h2, h3⟩ | ⟨h1, _⟩, _⟩
    · exact ⟨by rw [h1]; exact ih.new, by rw [h1]; exact ih.sent, ih.c⟩
    · refine ⟨?_, by rw [h2]; exact ih.sent, ih.c⟩
      intro u x hx
      rw [h3] at hx
      exact ((answer_true (ha res hr)).or ih.new) u x hx
    · exact ⟨by rw [h1]; exact ih.new, by rw [h1]; exact ih.sent, ih.c⟩
  | restart toDeviceOnly _ ih => exact ⟨ih.new, ih.sent, ih.c⟩
  | ask body on arrives _ hb _ _ ih =>
    obtain ⟨h1, h2, h3⟩ := begin_true ih.new ih.sent ih.c hb body on arrives
    exact ⟨h1, h2, h3⟩
  | wake b _ hb _ _ ih =>
    obtain ⟨h1, h2, h3⟩ := read_true ih.new ih.sent false
    exact ⟨h1, h2, ⟨ih.c.buf, (by intro b' hb'; cases hb'; exact h3), ih.c.told⟩⟩
  | done b fails arrives _ hb _ ih => exact ⟨ih.new, ih.sent, finish_true ih.c hb fails arrives⟩
  | crash _ ih => exact ⟨ih.new, ih.sent, ⟨(by intro k hk; cases hk), (by intro b hb; cases hb), ih.c.told⟩⟩

/-- **C119**: whatever fails, the client is told only of changes that the homeserver had: a user is reported as changed only if their
devices changed, and as having left only if they did. -/
theorem C119_authentic (tok : Nat → String) (user : String) (ok : Mode) (s : State) (h : Run tok user ok s) (u : String) (x : Change)
    (hx : s.c.told u = some x) : (u, x) ∈ s.hs := (run_auth h).c.told u x hx

end Verif.DeviceListFlow
