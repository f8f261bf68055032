import Verif.ListFlow
import Verif.FilterFlowProps
import Verif.ListSyncProps
/-!
# C138: a client that has caught up shows the rooms that match its filters, once each, and in order
-/
namespace Verif.ListFlow
open Verif Verif.Request Verif.Ranges

variable (S : Lists.Strs) (key : String)

/-! ## Specification -/

/-- What is required of a step: the list is requested with valid ranges, supported orders and not with all rooms, and a window of one
index is not new (`ConnLists.C63_violated`); rooms are loaded before there are lists (C97). -/
def Ok (w : W) : Op → Prop
  | .flow (.list o) => Lists.Good o ∧ ListSync.Other key o
  | .flow (.load _ _ _) => w.st.lists.lists = []
  | .flow _ => True
  | .request next _ p1 p2 =>
    (∀ n, next = some n → ListSync.OkList n ∧ ListSync.OneIndex w.cur n) ∧ (∀ l, (p1 l).Perm l) ∧ ∀ l, (p2 l).Perm l
  | .respond => True

/-- So it is for every step of the run, and in no response a DELETE directly follows one of a lower index (`C81_violated_batch`). -/
def OkRun (w : W) : List Op → Prop
  | [] => True
  | o :: os => Ok key w o ∧ ∀ w', step S key w o = some w' → (∀ l, w'.out = some l → ListSync.Tame l) ∧ OkRun w' os

/-- The user is neither invited to the room, nor told on the way of invites that they left it. -/
def Plain (r : String) : Op → Prop
  | .flow o => FilterFlow.Plain r o
  | _ => True

/-- The connection was told of the room by the step `o`, or loaded the room, and since then nothing about it changed: the premises of
`C137_copy_partial` and `C137_loaded_partial`. -/
inductive Current (ops : List Op) (w : W) (r : String) : Prop
  | told (a b : List Op) (o : FilterFlow.Op) (s s1 : W) (split : ops = a ++ .flow o :: b) (before : run S key {} a = some s)
      (subscribed : s.st.subscribed = true) (tells : FilterFlow.Tells r o) (inOrder : FilterFlow.InOrder s.st r o)
      (step : step S key s (.flow o) = some s1)
      (after : ∀ b1 b2 s', b = b1 ++ b2 → run S key s1 b1 = some s' →
        FilterFlow.Kept s'.st r o ∧ FilterFlow.now s'.st r = FilterFlow.now w.st r)
      (plain : ∀ x ∈ b, Plain r x) (caughtUp : FilterFlow.CaughtUp w.st r)
  | loaded (a b : List Op) (rooms : List (String × FilterFlow.X)) (invites : List (String × FilterFlow.G × FilterFlow.X))
      (pos : String → Option Nat) (s s1 : W) (split : ops = a ++ .flow (.load rooms invites pos) :: b)
      (before : run S key {} a = some s) (first : s.st.loaded = false) (there : ∃ x, (r, x) ∈ rooms)
      (noInvite : (s.st.usr r).isInvite = false) (quiet : ∀ e ∈ s.st.queue ++ s.st.held, e.room ≠ r)
      (step : step S key s (.flow (.load rooms invites pos)) = some s1)
      (after : ∀ b1 b2 s', b = b1 ++ b2 → run S key s1 b1 = some s' → FilterFlow.now s'.st r = FilterFlow.now w.st r)
      (plain : ∀ x ∈ b, Plain r x)

/-- The windows of the client cover the whole list. -/
def Whole (w : W) (l : RList) : Prop := ∀ i : Int, 0 ≤ i → i < w.count → ∃ x ∈ l.ranges.getD [], x.1 ≤ i ∧ i ≤ x.2

/-- The client shows the room at the index. -/
def ShownAt (w : W) (i : Int) (r : String) : Prop := 0 ≤ i ∧ i < w.count ∧ w.m.get i = some r

/-! ## The request -/

theorem listSub_ops {s s' : Lists.State} {cur : Option RList} {next : Option RList} {joined : String → Bool}
    {p1 p2 : List String → List String} {ops : List ConnLists.ROp} (hl : FilterFlow.LInv S s)
    (hok : ∀ n, next = some n → ListSync.OkList n) (hp1 : ∀ l, (p1 l).Perm l) (hp2 : ∀ l, (p2 l).Perm l)
    (hc : cur = none → Lists.getList s key = none)
    (hf : ∀ c l, cur = some c → Lists.getList s key = some l → l.filter = c.filters.getD {})
    (h : ListSync.listSub S key s cur ⟨next, joined, p1, p2, []⟩ = some (s', ops)) :
    FilterFlow.LInv S s' ∧ (∀ i, (s'.all i).map (·.f) = (s.all i).map (·.f)) ∧
      (∀ n l, next = some n → Lists.getList s' key = some l → l.filter = n.filters.getD {}) := by
  unfold ListSync.listSub at h
  cases next with
  | none =>
    simp only [Option.some.injEq, Prod.mk.injEq] at h
    obtain ⟨rfl, _⟩ := h
    cases hcur : cur with
    | none => exact ⟨hl, fun _ => rfl, fun _ _ h => nomatch h⟩
    | some c =>
      obtain ⟨a, b⟩ := FilterFlow.list_inv S hl (o := .delete key) trivial (fun _ _ h => by cases h) rfl
      exact ⟨a, b, fun _ _ h => nomatch h⟩
  | some n =>
    obtain ⟨hv, ⟨by_, hby, hsup⟩, hga⟩ := hok n rfl
    simp only [ListSync.request, hga, Bool.false_and, Bool.false_eq_true, if_false, Option.bind_eq_bind, Option.bind_eq_some_iff] at h
    obtain ⟨s1, h1, l1, hl1, s2, h2, s3, h3, l3, hl3, res, _, h4⟩ := h
    simp only [Option.pure_def, Option.some.injEq, Prod.mk.injEq] at h4
    obtain ⟨rfl, _⟩ := h4
    have good : ∀ ow p, (∀ l, (p l).Perm l) → Lists.Good (.assign key (n.filters.getD {}) n.sort ow p) :=
      fun ow p hp => ⟨⟨by_, hby, hsup⟩, hp⟩
    obtain ⟨a1, b1⟩ := FilterFlow.list_inv S hl (good false p1 hp1) (fun _ _ h => by cases h) h1
    obtain ⟨_, _, _, d1⟩ := Lists.assign_spec S hl.inv (good false p1 hp1) h1
    have f1 : ConnLists.filtersChanged cur n = false → l1.filter = n.filters.getD {} := by
      intro hfc
      rcases d1 with ⟨_, hs, he⟩ | ⟨_, l, he, hlf, _⟩
      · rw [he] at hl1
        cases hcur : cur with
        | none => rw [hc hcur] at hs; cases hs
        | some c =>
          rw [hf c l1 hcur hl1]
          simp only [ConnLists.filtersChanged, hcur, Option.bind_some, ne_eq, decide_not, Bool.not_eq_false', decide_eq_true_eq] at hfc
          rw [hfc]
      · rw [he] at hl1
        cases hl1
        exact hlf
    have step2 : FilterFlow.LInv S s2 ∧ (∀ i, (s2.all i).map (·.f) = (s1.all i).map (·.f)) ∧
        ∃ l2, Lists.getList s2 key = some l2 ∧ l2.filter = n.filters.getD {} := by
      unfold ListSync.recreate at h2
      cases hfc : ConnLists.filtersChanged cur n with
      | false =>
        rw [hfc] at h2
        simp only [Bool.false_eq_true, if_false, Option.some.injEq] at h2
        subst h2
        exact ⟨a1, fun _ => rfl, l1, hl1, f1 hfc⟩
      | true =>
        rw [hfc] at h2
        simp only [if_true] at h2
        obtain ⟨a2, b2⟩ := FilterFlow.list_inv S a1 (good true p2 hp2) (fun _ _ h => by cases h) h2
        obtain ⟨_, _, _, d2⟩ := Lists.assign_spec S a1.inv (good true p2 hp2) h2
        rcases d2 with ⟨hx, _⟩ | ⟨_, l, he, hlf, _⟩
        · cases hx
        · exact ⟨a2, b2, l, he, hlf⟩
    obtain ⟨a2, b2, l2, hl2, f2⟩ := step2
    have step3 : FilterFlow.LInv S s3 ∧ (∀ i, (s3.all i).map (·.f) = (s2.all i).map (·.f)) ∧
        ∃ l', Lists.getList s3 key = some l' ∧ l'.filter = l2.filter := by
      unfold ListSync.resortIf at h3
      split at h3
      · obtain ⟨a3, b3⟩ := FilterFlow.list_inv S a2 (o := .sort key (n.sort.getD [])) trivial (fun _ _ h => by cases h) h3
        obtain ⟨_, _, _, d3⟩ := Lists.sort_mem S a2.inv h3
        obtain ⟨l', hl', hf', _⟩ := d3 key l2 hl2
        exact ⟨a3, b3, l', hl', hf'⟩
      · simp only [Option.some.injEq] at h3
        subst h3
        exact ⟨a2, fun _ => rfl, l2, hl2, rfl⟩
    obtain ⟨a3, b3, l', hl', f3⟩ := step3
    refine ⟨a3, fun i => by rw [b3, b2, b1], ?_⟩
    intro n' l hn hl0
    cases hn
    rw [hl'] at hl0
    cases hl0
    rw [f3, f2]

/-! ## What the client shows -/

/-- The response made so far, for a list that is requested. -/
def Making (w : W) (next : RList) (ops : List ListSync.COp) : Prop :=
  ListSync.OkList next ∧ ∃ (ro : List ConnLists.ROp) (so : List (ListOps.Op String)), ops = ro.map .range ++ so.map .single ∧
    ∀ c, ops.foldlM (ListSync.clientStep (ListSync.rangesOf next)) ⟨w.m, -1⟩ = some c →
      ListSync.Mid S key next w.st.lists c ∧ ListSync.Tail so c

structure Inv (w : W) : Prop where
  linv : FilterFlow.LInv S w.st.lists
  filt : ∀ c l, w.cur = some c → Lists.getList w.st.lists key = some l → l.filter = c.filters.getD {}
  unrequested : w.cur = none → Lists.getList w.st.lists key = none
  idle : w.out = none → ListSync.Before S key ⟨w.st.lists, w.cur, w.m⟩ ∧ (w.cur.isSome = true → w.count = size key w.st.lists)
  busy : ∀ ops next, w.out = some ops → w.cur = some next → Making S key w next ops

theorem inv_init : Inv S key {} where
  linv := FilterFlow.linv_init S
  filt := fun _ _ h => nomatch h
  unrequested := fun _ => rfl
  idle := fun _ => ⟨⟨Lists.init_inv, rfl⟩, fun h => nomatch h⟩
  busy := fun _ _ h => nomatch h

/-- A step that leaves the lists and the client alone. -/
theorem inv_same {w w' : W} (h : Inv S key w) (h1 : w'.st.lists = w.st.lists) (h2 : w'.cur = w.cur) (h3 : w'.out = w.out)
    (h4 : w'.m = w.m) (h5 : w'.count = w.count) : Inv S key w' := by
  refine ⟨by rw [h1]; exact h.linv, by rw [h1, h2]; exact h.filt, by rw [h1, h2]; exact h.unrequested, ?_, ?_⟩
  · rw [h1, h2, h3, h4, h5]; exact h.idle
  · intro ops next ho hn
    have := h.busy ops next (by rw [← h3]; exact ho) (by rw [← h2]; exact hn)
    unfold Making at this ⊢
    rw [h1, h4]
    exact this

/-- While a response is made an event is processed. -/
theorem inv_event {w w' : W} (h : Inv S key w) (e : ListSync.Ev) (he : ListSync.OkEv key e) (so' : List (ListOps.Op String))
    (ops : List ListSync.COp) (ho : w.out = some ops) (ho' : w'.out = some (ops ++ so'.map .single))
    (h1 : ListSync.event S key w.cur w.st.lists e = some (w'.st.lists, so')) (h2 : w'.cur = w.cur) (h4 : w'.m = w.m)
    (hl : FilterFlow.LInv S w'.st.lists) (htame : ListSync.Tame (ops ++ so'.map .single)) : Inv S key w' := by
  have hkeep : (∀ l', Lists.getList w'.st.lists key = some l' → ∃ l, Lists.getList w.st.lists key = some l ∧ l'.filter = l.filter) := by
    intro l' hl'
    cases e with
    | other o =>
      simp only [ListSync.event, Option.map_eq_some_iff, Prod.mk.injEq] at h1
      obtain ⟨t, h1, rfl, _⟩ := h1
      obtain ⟨_, b, _⟩ := ListSync.other_step S key h.linv.inv he.1 he.2 h1
      exact ⟨l', by rw [← b]; exact hl', rfl⟩
    | update others r =>
      simp only [ListSync.event, Option.bind_eq_bind, Option.bind_eq_some_iff, Option.pure_def, Option.some.injEq, Prod.mk.injEq] at h1
      obtain ⟨t, h1, rfl, _⟩ := h1
      obtain ⟨_, _, b, c⟩ := Lists.update_spec S h.linv.inv h1
      cases hg : Lists.getList w.st.lists key with
      | none => rw [b key hg] at hl'; cases hl'
      | some l =>
        obtain ⟨l2, hl2, hf, _⟩ := c key l hg
        rw [hl2] at hl'
        cases hl'
        exact ⟨l, rfl, hf⟩
  refine ⟨hl, ?_, ?_, fun hn => ?_, ?_⟩
  · intro c l' hc hl'
    obtain ⟨l, hl, hf⟩ := hkeep l' hl'
    rw [hf, h.filt c l (by rw [← h2]; exact hc) hl]
  · intro hc
    cases hl' : Lists.getList w'.st.lists key with
    | none => rfl
    | some l' =>
      obtain ⟨l, hl, _⟩ := hkeep l' hl'
      rw [h.unrequested (by rw [← h2]; exact hc)] at hl
      cases hl
  · rw [ho'] at hn; cases hn
  · intro ops' next hops hn
    rw [ho'] at hops
    cases hops
    rw [h2] at hn
    obtain ⟨hok, ro, so, hsplit, hmid⟩ := h.busy ops next ho hn
    refine ⟨hok, ro, so ++ so', by rw [hsplit]; simp, ?_⟩
    intro c' hc'
    rw [h4, List.foldlM_append] at hc'
    cases hc0 : ops.foldlM (ListSync.clientStep (ListSync.rangesOf next)) ⟨w.m, -1⟩ with
    | none => rw [hc0] at hc'; cases hc'
    | some c =>
      rw [hc0] at hc'
      have hc' : (so'.map ListSync.COp.single).foldlM (ListSync.clientStep (ListSync.rangesOf next)) c = some c' := hc'
      rw [ListSync.single_fold] at hc'
      obtain ⟨m1, t1⟩ := hmid c hc0
      refine ⟨?_, ListSync.tail_step t1 hc'⟩
      rw [hn] at h1
      have hno : ListSync.NoHigher (so ++ so') := by
        intro a g f b hab
        refine htame (ro.map .range ++ a.map .single) g f (b.map .single) ?_
        rw [hsplit, List.append_assoc, ← List.map_append, hab]
        simp
      have hno' : ListSync.NoHigher (so ++ so' ++ []) := by rw [List.append_nil]; exact hno
      have hgap : c.gap = -1 ∨ 0 ≤ c.gap := by
        obtain ⟨_, l, _, _, hx⟩ := m1
        exact hx.1
      exact ListSync.event_step S key hok he m1 h1 hc' (ListSync.noHigher_follows hno' t1 hgap)

theorem setAll_none {req : String → Lists.Req} {rs : List Lists.Room} {l l' : Lists.State} (hg : Lists.GInv l)
    (h : FilterFlow.setAll S req l rs = some l') (hk : Lists.getList l key = none) : Lists.getList l' key = none := by
  induction rs generalizing l with
  | nil => simp only [FilterFlow.setAll, Option.some.injEq] at h; subst h; exact hk
  | cons r rs ih =>
    simp only [FilterFlow.setAll, Option.bind_eq_some_iff] at h
    obtain ⟨l1, h1, h2⟩ := h
    obtain ⟨a, _, b, _⟩ := Lists.update_spec S hg h1
    exact ih a h2 (b key hk)

/-- The steps of `FilterFlow` that do not touch lists. -/
theorem flow_lists {s s' : FilterFlow.St} {o : FilterFlow.Op} (h : FilterFlow.step S s o = some s') (hs : serving o = false)
    (hl : ∀ a b c, o ≠ .load a b c) : s'.lists = s.lists := by
  cases o with
  | connect => simp only [FilterFlow.step, Option.some.injEq] at h; subst h; rfl
  | load a b c => exact absurd rfl (hl a b c)
  | state r n g mine told =>
    simp only [FilterFlow.step, Option.some.injEq] at h
    subst h
    split
    · rw [FilterFlow.emit_lists]; rfl
    · rfl
  | message r n u t told =>
    simp only [FilterFlow.step, Option.some.injEq] at h
    subst h
    split
    · rw [FilterFlow.emit_lists]
    · rfl
  | space p c n d told =>
    simp only [FilterFlow.step, Option.some.injEq] at h
    subst h
    split
    · rw [FilterFlow.emit_lists]; rfl
    · rfl
  | tag r ts => simp only [FilterFlow.step, Option.some.injEq] at h; subst h; rw [FilterFlow.emit_lists]; rfl
  | direct rs => simp only [FilterFlow.step, Option.some.injEq] at h; subst h; rfl
  | ignore us => simp only [FilterFlow.step, Option.some.injEq] at h; subst h; rfl
  | other r => simp only [FilterFlow.step, Option.some.injEq] at h; subst h; rw [FilterFlow.emit_lists]
  | invite r g dm => simp only [FilterFlow.step, Option.some.injEq] at h; subst h; rw [FilterFlow.emit_lists]; rfl
  | left r a => simp only [FilterFlow.step, Option.some.injEq] at h; subst h; rw [FilterFlow.emit_lists]; rfl
  | release w =>
    simp only [FilterFlow.step] at h
    split at h <;> (simp only [Option.some.injEq] at h; subst h; rfl)
  | process req x vis => cases hs
  | build r p => simp only [FilterFlow.step, Option.some.injEq] at h; subst h; rfl
  | list o => cases hs

theorem good_of_ok {w : W} {o : FilterFlow.Op} (h : Ok key w (.flow o)) : FilterFlow.GoodOp (withReq key w.cur o) := by
  cases o <;> first | exact trivial | exact h.1

theorem withReq_id {cur : Option RList} {o : FilterFlow.Op} (h : ∀ a b c, o ≠ .process a b c) : withReq key cur o = o := by
  cases o <;> first | rfl | exact absurd rfl (h _ _ _)

theorem added_nil {cur : Option RList} {s : FilterFlow.St} {all : String → Option Lists.Room} {o : FilterFlow.Op}
    (h : ∀ a b c, o ≠ .process a b c) : added S key cur s all o = [] := by
  cases o <;> first | rfl | exact absurd rfl (h _ _ _)

theorem step_inv {w w' : W} (h : Inv S key w) {o : Op} (hok : Ok key w o) (ht : ∀ l, w'.out = some l → ListSync.Tame l)
    (hst : step S key w o = some w') : Inv S key w' := by
  cases o with
  | flow o =>
    simp only [step] at hst
    split at hst
    · simp only [Option.some.injEq] at hst; subst hst; exact h
    · rename_i hserve
      simp only [Option.map_eq_some_iff] at hst
      obtain ⟨s, hs, rfl⟩ := hst
      have hl := FilterFlow.step_linv S h.linv (good_of_ok key hok) hs
      by_cases hsv : serving o = true
      · have hout : ∃ ops, w.out = some ops := by
          cases ho : w.out with
          | none => rw [ho, hsv] at hserve; exact absurd rfl hserve
          | some ops => exact ⟨ops, rfl⟩
        obtain ⟨ops, ho⟩ := hout
        have ht := ht (ops ++ (added S key w.cur w.st s.lists.all o).map .single) (by simp only [ho]; rfl)
        cases o with
        | process req x vis =>
          simp only [withReq, FilterFlow.step] at hs
          cases hld : w.st.loaded with
          | false =>
            rw [hld] at hs
            simp only [Bool.false_eq_true, if_false, Option.some.injEq] at hs
            subst hs
            refine inv_same S key h rfl rfl ?_ rfl rfl
            simp [added, hld, ho]
          | true =>
            rw [hld] at hs
            simp only [if_true] at hs
            unfold FilterFlow.process at hs
            cases hq : w.st.queue with
            | nil =>
              rw [hq] at hs
              simp only [Option.some.injEq] at hs
              subst hs
              refine inv_same S key h rfl rfl ?_ rfl rfl
              simp [added, hld, hq, ho]
            | cons e q =>
              rw [hq] at hs
              simp only at hs
              cases hsk : FilterFlow.skipped w.st e with
              | true =>
                rw [hsk] at hs
                simp only [if_true, Option.some.injEq] at hs
                subst hs
                refine inv_same S key h rfl rfl ?_ rfl rfl
                simp [added, hld, hq, hsk, ho]
              | false =>
                rw [hsk] at hs
                simp only [Bool.false_eq_true, if_false, Option.map_eq_some_iff] at hs
                obtain ⟨l, hu, rfl⟩ := hs
                refine inv_event S key h (.update req (FilterFlow.room e.room e.f x)) trivial _ ops ho (by simp only [ho]; rfl) ?_ rfl rfl hl ht
                have hu' : Lists.update S w.st.lists (fun k => if k = key then (w.cur.map ListSync.reqOf).getD (req k) else req k)
                    (FilterFlow.room e.room e.f x) = some l := hu
                simp only [ListSync.event, hu', Option.bind_eq_bind, Option.bind_some, Option.pure_def, added, hld, hq, hsk,
                  Bool.not_true, Bool.false_eq_true, if_false, if_true, reqs]
                cases Lists.getList w.st.lists key <;> rfl
        | list o =>
          have hs' : FilterFlow.step S w.st (.list o) = some s := hs
          have hgo : ∃ l, Lists.step S w.st.lists o = some l ∧ s = { w.st with lists := l } := by
            cases o with
            | update req r => exact hok.2.elim
            | assign k f so ow perm =>
              simp only [FilterFlow.step, Option.map_eq_some_iff] at hs'
              obtain ⟨l, hstep, rfl⟩ := hs'
              exact ⟨l, hstep, rfl⟩
            | sort k by_ =>
              simp only [FilterFlow.step, Option.map_eq_some_iff] at hs'
              obtain ⟨l, hstep, rfl⟩ := hs'
              exact ⟨l, hstep, rfl⟩
            | delete k =>
              simp only [FilterFlow.step, Option.map_eq_some_iff] at hs'
              obtain ⟨l, hstep, rfl⟩ := hs'
              exact ⟨l, hstep, rfl⟩
            | touch k i =>
              simp only [FilterFlow.step, Option.map_eq_some_iff] at hs'
              obtain ⟨l, hstep, rfl⟩ := hs'
              exact ⟨l, hstep, rfl⟩
          obtain ⟨l, hl', rfl⟩ := hgo
          refine inv_event S key h (.other o) hok _ ops ho (by simp only [ho]; rfl) ?_ rfl rfl hl ht
          simp only [ListSync.event, hl', Option.map_some, added]
        | _ => cases hsv
      · have hsv : serving o = false := by cases hx : serving o with
          | true => exact absurd hx hsv
          | false => rfl
        have hnp : ∀ a b c, o ≠ .process a b c := by rintro a b c rfl; cases hsv
        rw [withReq_id key hnp] at hs
        have hout : w.out.map (· ++ (added S key w.cur w.st s.lists.all o).map ListSync.COp.single) = w.out := by
          rw [added_nil S key hnp]
          cases w.out <;> simp
        by_cases hld : ∃ a b c, o = .load a b c
        · obtain ⟨rooms, invites, pos, rfl⟩ := hld
          have hempty : w.st.lists.lists = [] := hok
          have hnone : Lists.getList w.st.lists key = none := by unfold Lists.getList; rw [hempty]; rfl
          have hnone' : Lists.getList s.lists key = none := by
            simp only [FilterFlow.step] at hs
            split at hs
            · simp only [Option.some.injEq] at hs; subst hs; exact hnone
            · simp only [Option.map_eq_some_iff] at hs
              obtain ⟨l, hset, rfl⟩ := hs
              exact setAll_none S key h.linv.inv hset hnone
          refine ⟨hl, fun c l hc hx => ?_, fun _ => hnone', fun ho => ?_, fun ops next ho hn => ?_⟩
          · have hx : Lists.getList s.lists key = some l := hx
            rw [hnone'] at hx; cases hx
          · have ho : w.out = none := by rw [← hout]; exact ho
            obtain ⟨⟨hg, hb⟩, _⟩ := h.idle ho
            cases hc : w.cur with
            | none =>
              refine ⟨⟨hl.inv, ?_⟩, fun hx => nomatch hx⟩
              exact hnone'
            | some c =>
              simp only [hc] at hb
              obtain ⟨_, l, hx, _⟩ := hb
              rw [hnone] at hx
              cases hx
          · have ho : w.out = some ops := by rw [← hout]; exact ho
            have hn : w.cur = some next := hn
            obtain ⟨ok, ro, so, hsp, hmid⟩ := h.busy ops next ho hn
            refine ⟨ok, ro, so, hsp, fun c hc => ?_⟩
            obtain ⟨⟨_, l, hx, _⟩, _⟩ := hmid c hc
            rw [hnone] at hx
            cases hx
        · have := flow_lists S hs hsv (fun a b c e => hld ⟨a, b, c, e⟩)
          exact inv_same S key h this rfl hout rfl rfl
  | request next joined p1 p2 =>
    simp only [step] at hst
    split at hst
    · simp only [Option.some.injEq] at hst; subst hst; exact h
    · rename_i ho
      have ho : w.out = none := by
        cases hx : w.out with
        | none => rfl
        | some _ => rw [hx] at ho; exact absurd rfl ho
      simp only [Option.map_eq_some_iff] at hst
      obtain ⟨⟨s1, ro⟩, hsub, rfl⟩ := hst
      obtain ⟨hnext, hp1, hp2⟩ := hok
      obtain ⟨a, _, c⟩ := listSub_ops S key h.linv (fun n hn => (hnext n hn).1) hp1 hp2 h.unrequested h.filt hsub
      obtain ⟨hb, _⟩ := h.idle ho
      refine ⟨a, c, ?_, (fun hx => by cases hx), ?_⟩
      · intro hn
        have hn : next = none := hn
        subst hn
        simp only [ListSync.listSub, Option.some.injEq, Prod.mk.injEq] at hsub
        obtain ⟨rfl, _⟩ := hsub
        show Lists.getList (if w.cur.isSome then _ else _) key = none
        cases hc : w.cur with
        | none => exact h.unrequested hc
        | some _ =>
          show (List.filter _ _).lookup key = none
          rw [Lists.lookup_filter_ne, if_pos rfl]
      · intro ops n hops hn
        have hn : next = some n := hn
        subst hn
        have hops : some (ro.map ListSync.COp.range) = some ops := hops
        cases hops
        obtain ⟨hol, hone⟩ := hnext n rfl
        obtain ⟨c0, c1, c2, hmid⟩ := ListSync.request_step S key hb hol hone hp1 hp2 hsub
        refine ⟨hol, ro, [], by simp, fun c hc => ?_⟩
        have hc : (ro.map ListSync.COp.range).foldlM (ListSync.clientStep (ListSync.rangesOf n)) ⟨w.m, -1⟩ = some c := hc
        have c1 : (ro.map ListSync.COp.range).foldlM (ListSync.clientStep (ListSync.rangesOf n)) ⟨w.m, -1⟩ = some c0 := c1
        rw [c1] at hc
        cases hc
        exact ⟨hmid, Or.inl c2⟩
  | respond =>
    simp only [step] at hst
    cases ho : w.out with
    | none => rw [ho] at hst; simp only [Option.some.injEq] at hst; subst hst; exact h
    | some ops =>
      rw [ho] at hst
      simp only [Option.map_eq_some_iff] at hst
      obtain ⟨m, hm, rfl⟩ := hst
      refine ⟨h.linv, h.filt, h.unrequested, fun _ => ⟨⟨h.linv.inv, ?_⟩, fun _ => rfl⟩, (fun _ _ hx => by cases hx)⟩
      cases hc : w.cur with
      | none => exact h.unrequested hc
      | some next =>
        rw [hc] at hm
        obtain ⟨hol, ro, so, hsp, hmid⟩ := h.busy ops next ho hc
        unfold ListSync.receive ListSync.replay at hm
        simp only [Option.bind_eq_bind, Option.bind_eq_some_iff, Option.pure_def, Option.some.injEq] at hm
        obtain ⟨c, hc1, hm⟩ := hm
        obtain ⟨⟨g, l, hl, hso, hgap, hview⟩, _⟩ := hmid c hc1
        refine ⟨hol.1, l, hl, hso, ?_⟩
        intro i hi hlen
        have := ListOps.finish_view (ListSync.rangesOf next) hgap i hi
        rw [← hview i hi hlen, ← this, ← hm]
        rfl

theorem run_inv {w w' : W} (h : Inv S key w) {ops : List Op} (hok : OkRun S key w ops) (hr : run S key w ops = some w') :
    Inv S key w' := by
  induction ops generalizing w with
  | nil => simp only [run, Option.some.injEq] at hr; subst hr; exact h
  | cons o ops ih =>
    simp only [run, Option.bind_eq_some_iff] at hr
    obtain ⟨t, h1, h2⟩ := hr
    exact ih (step_inv S key h hok.1 (hok.2 t h1).1 h1) (hok.2 t h1).2 h2

/-! ## The copies of rooms -/

theorem okRun_split {w : W} {a b : List Op} (h : OkRun S key w (a ++ b)) :
    OkRun S key w a ∧ ∀ s, run S key w a = some s → OkRun S key s b := by
  induction a generalizing w with
  | nil =>
    refine ⟨trivial, fun s hs => ?_⟩
    simp only [run, Option.some.injEq] at hs
    subst hs
    exact h
  | cons o a ih =>
    refine ⟨⟨h.1, fun w' hw => ⟨(h.2 w' hw).1, (ih (h.2 w' hw).2).1⟩⟩, fun s hs => ?_⟩
    simp only [run, Option.bind_eq_some_iff] at hs
    obtain ⟨t, h1, h2⟩ := hs
    exact (ih (h.2 t h1).2).2 s h2

theorem run_append {w w' : W} {a : List Op} (h : run S key w a = some w') (b : List Op) :
    run S key w (a ++ b) = run S key w' b := by
  induction a generalizing w with
  | nil => simp only [run, Option.some.injEq] at h; subst h; rfl
  | cons o a ih =>
    simp only [run, Option.bind_eq_some_iff] at h
    obtain ⟨t, h1, h2⟩ := h
    simp only [List.cons_append, run, h1, Option.bind_some]
    exact ih h2

/-- What a step is for one room. -/
theorem step_cases {w w' : W} (h : Inv S key w) {o : Op} (hok : Ok key w o) (hst : step S key w o = some w') :
    (∃ p, o = .flow p ∧ FilterFlow.step S w.st (withReq key w.cur p) = some w'.st) ∨
    (w'.st.loaded = w.st.loaded ∧ w'.st.queue = w.st.queue ∧ w'.st.held = w.st.held ∧
      ∀ i, (w'.st.lists.all i).map (·.f) = (w.st.lists.all i).map (·.f)) := by
  cases o with
  | flow p =>
    simp only [step] at hst
    split at hst
    · simp only [Option.some.injEq] at hst; subst hst; exact Or.inr ⟨rfl, rfl, rfl, fun _ => rfl⟩
    · simp only [Option.map_eq_some_iff] at hst
      obtain ⟨s, hs, rfl⟩ := hst
      exact Or.inl ⟨p, rfl, hs⟩
  | request next joined p1 p2 =>
    simp only [step] at hst
    split at hst
    · simp only [Option.some.injEq] at hst; subst hst; exact Or.inr ⟨rfl, rfl, rfl, fun _ => rfl⟩
    · simp only [Option.map_eq_some_iff] at hst
      obtain ⟨⟨s1, ro⟩, hsub, rfl⟩ := hst
      obtain ⟨hnext, hp1, hp2⟩ := hok
      obtain ⟨_, b, _⟩ := listSub_ops S key h.linv (fun n hn => (hnext n hn).1) hp1 hp2 h.unrequested h.filt hsub
      exact Or.inr ⟨rfl, rfl, rfl, b⟩
  | respond =>
    simp only [step] at hst
    split at hst
    · simp only [Option.some.injEq] at hst; subst hst; exact Or.inr ⟨rfl, rfl, rfl, fun _ => rfl⟩
    · simp only [Option.map_eq_some_iff] at hst
      obtain ⟨m, _, rfl⟩ := hst
      exact Or.inr ⟨rfl, rfl, rfl, fun _ => rfl⟩

theorem plain_with {r : String} {cur : Option RList} {p : FilterFlow.Op} (h : FilterFlow.Plain r p) :
    FilterFlow.Plain r (withReq key cur p) := by cases p <;> exact h

theorem step_right {w w' : W} {r : String} {f : Filters.Room} (h : Inv S key w) (hr : FilterFlow.Right r f w.st) {o : Op}
    (hok : Ok key w o) (hp : Plain r o) (hc : FilterFlow.now w'.st r = f) (hst : step S key w o = some w') :
    FilterFlow.Right r f w'.st := by
  rcases step_cases S key h hok hst with ⟨p, rfl, hs⟩ | ⟨a, b, c, d⟩
  · exact FilterFlow.step_right S h.linv hr (good_of_ok key hok) (plain_with key hp) hc hs
  · obtain ⟨h1, h2, h3⟩ := hr
    refine ⟨a.trans h1, (d r).trans h2, ?_⟩
    rw [b, c]
    exact h3

theorem run_right {w w' : W} {r : String} {f : Filters.Room} (h : Inv S key w) (hr : FilterFlow.Right r f w.st) {b : List Op}
    (hok : OkRun S key w b) (hp : ∀ o ∈ b, Plain r o)
    (hc : ∀ b1 b2 u, b = b1 ++ b2 → run S key w b1 = some u → FilterFlow.now u.st r = f) (hrun : run S key w b = some w') :
    FilterFlow.Right r f w'.st := by
  induction b generalizing w with
  | nil => simp only [run, Option.some.injEq] at hrun; subst hrun; exact hr
  | cons o b ih =>
    simp only [run, Option.bind_eq_some_iff] at hrun
    obtain ⟨t, h1, h2⟩ := hrun
    have hr1 : ∀ b1, run S key w (o :: b1) = run S key t b1 := fun b1 => by simp [run, h1]
    have hct : FilterFlow.now t.st r = f := hc [o] b t rfl (by rw [hr1]; rfl)
    refine ih (step_inv S key h hok.1 (hok.2 t h1).1 h1) (step_right S key h hr hok.1 (hp o (List.mem_cons_self ..)) hct h1)
      (hok.2 t h1).2 (fun x hx => hp x (List.mem_cons_of_mem _ hx)) ?_ h2
    intro b1 b2 u he hu
    exact hc (o :: b1) b2 u (by rw [he]; rfl) (by rw [hr1]; exact hu)

theorem run_coming {w w' : W} {r : String} {E : FilterFlow.Entry} (h : Inv S key w) (hr : FilterFlow.Coming r E w.st)
    (hE : E.room = r) {b : List Op} (hok : OkRun S key w b) (hp : ∀ o ∈ b, Plain r o)
    (hk : ∀ b1 b2 u, b = b1 ++ b2 → run S key w b1 = some u → FilterFlow.skipped u.st E = false ∧ FilterFlow.now u.st r = E.f)
    (hrun : run S key w b = some w') : FilterFlow.Coming r E w'.st ∨ FilterFlow.Right r E.f w'.st := by
  induction b generalizing w with
  | nil => simp only [run, Option.some.injEq] at hrun; subst hrun; exact Or.inl hr
  | cons o b ih =>
    simp only [run, Option.bind_eq_some_iff] at hrun
    obtain ⟨t, h1, h2⟩ := hrun
    have hr1 : ∀ b1, run S key w (o :: b1) = run S key t b1 := fun b1 => by simp [run, h1]
    have hct : FilterFlow.now t.st r = E.f := (hk [o] b t rfl (by rw [hr1]; rfl)).2
    have hinv := step_inv S key h hok.1 (hok.2 t h1).1 h1
    have hk' : ∀ b1 b2 u, b = b1 ++ b2 → run S key t b1 = some u → FilterFlow.skipped u.st E = false ∧ FilterFlow.now u.st r = E.f :=
      fun b1 b2 u he hu => hk (o :: b1) b2 u (by rw [he]; rfl) (by rw [hr1]; exact hu)
    have hp' : ∀ x ∈ b, Plain r x := fun x hx => hp x (List.mem_cons_of_mem _ hx)
    have hstep : FilterFlow.Coming r E t.st ∨ FilterFlow.Right r E.f t.st := by
      rcases step_cases S key h hok.1 h1 with ⟨p, rfl, hs⟩ | ⟨a, b, c, d⟩
      · exact FilterFlow.step_coming S h.linv hr hE (hk [] _ w rfl rfl).1 (plain_with key (hp _ (List.mem_cons_self ..))) hct hs
      · exact Or.inl (FilterFlow.coming_of hr b c)
    rcases hstep with hx | hx
    · exact ih hinv hx (hok.2 t h1).2 hp' hk' h2
    · exact Or.inr (run_right S key hinv hx (hok.2 t h1).2 hp' (fun b1 b2 u he hu => (hk' b1 b2 u he hu).2) h2)

theorem tells_serving {r : String} {o : FilterFlow.Op} (h : FilterFlow.Tells r o) : serving o = false ∧ ∀ a b c, o ≠ .process a b c := by
  cases o <;> first | exact h.elim | exact ⟨rfl, fun _ _ _ h => by cases h⟩

/-- The copy of a room that is current. -/
theorem copy {ops : List Op} {w : W} (hok : OkRun S key {} ops) (h : run S key {} ops = some w) {r : String}
    (hcur : Current S key ops w r) : (w.st.lists.all r).map (·.f) = some (FilterFlow.now w.st r) := by
  cases hcur with
  | told a b o s s1 split before subscribed tells inOrder hstep after plain caughtUp =>
    subst split
    rw [run_append S key before] at h
    obtain ⟨oka, okb⟩ := okRun_split S key hok
    have hinv := run_inv S key (inv_init S key) oka before
    have okb := okb s before
    have hinv1 := step_inv S key hinv okb.1 (okb.2 s1 hstep).1 hstep
    obtain ⟨hsv, hnp⟩ := tells_serving tells
    have hs : FilterFlow.step S s.st o = some s1.st := by
      have := hstep
      simp only [step, hsv, Bool.false_and, Bool.false_eq_true, if_false, withReq_id key hnp, Option.map_eq_some_iff] at this
      obtain ⟨t, ht, rfl⟩ := this
      exact ht
    obtain ⟨E, hE, hf, hco, hk⟩ := FilterFlow.tell S subscribed tells inOrder hs
    have hfe : E.f = FilterFlow.now w.st r := hf.trans (after [] b s1 rfl rfl).2
    have h2 : run S key s1 b = some w := by
      simp only [run, hstep, Option.bind_some] at h
      exact h
    have := run_coming S key hinv1 hco hE (okb.2 s1 hstep).2 plain
      (fun b1 b2 u he hu => ⟨hk u.st (after b1 b2 u he hu).1, by rw [hfe]; exact (after b1 b2 u he hu).2⟩) h2
    rcases this with hx | hx
    · exfalso
      rcases hx with ⟨q1, q2, hq, _⟩ | ⟨_, x, y, hq, _⟩
      · exact caughtUp.2 E (by rw [hq]; simp) hE
      · exact caughtUp.2 E (by rw [hq]; simp) hE
    · rw [← hfe]; exact hx.2.1
  | loaded a b rooms invites pos s s1 split before first there noInvite quiet hstep after plain =>
    subst split
    rw [run_append S key before] at h
    obtain ⟨oka, okb⟩ := okRun_split S key hok
    have hinv := run_inv S key (inv_init S key) oka before
    have okb := okb s before
    have hinv1 := step_inv S key hinv okb.1 (okb.2 s1 hstep).1 hstep
    have hs : FilterFlow.step S s.st (.load rooms invites pos) = some s1.st := by
      have := hstep
      simp only [step, serving, Bool.false_and, Bool.false_eq_true, if_false, withReq, Option.map_eq_some_iff] at this
      obtain ⟨t, ht, rfl⟩ := this
      exact ht
    have h2 : run S key s1 b = some w := by
      simp only [run, hstep, Option.bind_some] at h
      exact h
    have := FilterFlow.load_right S (f := FilterFlow.now w.st r) hinv.linv first there noInvite quiet hs (after [] b s1 rfl rfl)
    exact (run_right S key hinv1 this (okb.2 s1 hstep).2 plain after h2).2.1

/-! ## C138 -/

/-- What the client shows is the server's list. -/
theorem shows {w : W} (h : Inv S key w) (hout : w.out = none) {next : RList} (hcur : w.cur = some next) (hwhole : Whole w next) :
    ∃ l, Lists.getList w.st.lists key = some l ∧ l.sr.ids.Nodup ∧ w.count = l.sr.ids.length ∧
      ListSync.Sorted S key (next.sort.getD []) w.st.lists.all l.sr.ids ∧ ∀ i : Nat, i < w.count → w.m.get i = l.sr.ids[i]? := by
  obtain ⟨⟨_, hb⟩, hcount⟩ := h.idle hout
  simp only [hcur] at hb
  obtain ⟨_, l, hl, hso, hsh⟩ := hb
  have hc : w.count = l.sr.ids.length := by
    rw [hcount (by rw [hcur]; rfl)]
    simp only [size, hl, Option.map_some, Option.getD_some]
  refine ⟨l, hl, (h.linv.inv.list key l (Lists.lookup_mem hl)).1.nodup, hc, hso, fun i hi => ?_⟩
  have := hsh i (hwhole i (by omega) (by omega)) (by rw [hc] at hi; omega)
  rw [this, ListOps.getI, if_neg (by omega)]
  rfl

/-- After a response every index below the count has a room, and no room is shown twice. -/
theorem C138_once_partial (ops : List Op) (w : W) (hok : OkRun S key {} ops) (h : run S key {} ops = some w) (hout : w.out = none)
    (next : RList) (hcur : w.cur = some next) (hwhole : Whole w next) :
    (∀ i : Int, 0 ≤ i → i < w.count → ∃ r, ShownAt w i r) ∧ ∀ i j r, ShownAt w i r → ShownAt w j r → i = j := by
  obtain ⟨l, _, hnd, hc, _, hget⟩ := shows S key (run_inv S key (inv_init S key) hok h) hout hcur hwhole
  refine ⟨fun i h0 h1 => ?_, fun i j r hi hj => ?_⟩
  · obtain ⟨n, rfl⟩ := Int.eq_ofNat_of_zero_le h0
    have hn : n < l.sr.ids.length := by omega
    exact ⟨l.sr.ids[n], h0, h1, by rw [hget n (by omega), List.getElem?_eq_getElem hn]⟩
  · obtain ⟨n, rfl⟩ := Int.eq_ofNat_of_zero_le hi.1
    obtain ⟨k, rfl⟩ := Int.eq_ofNat_of_zero_le hj.1
    have h1 := hi.2.2
    have h2 := hj.2.2
    rw [hget n (by have := hi.2.1; omega)] at h1
    rw [hget k (by have := hj.2.1; omega)] at h2
    have hn : n < l.sr.ids.length := by have := hi.2.1; omega
    have := (List.getElem?_inj hn hnd).1 (h1.trans h2.symm)
    rw [this]

/-- After a response a room of which the connection knows the present data, and which is neither left nor upgraded, is shown if and only
if it matches the filters of the request as it is now.  Missing: what is missing of C137 and C81, see `Current`, `Ok` and `OkRun`; and filters
with both room types and spaces (`Filters.C10_violated`). -/
theorem C138_shown_partial (ops : List Op) (w : W) (hok : OkRun S key {} ops) (h : run S key {} ops = some w) (hout : w.out = none)
    (next : RList) (hcur : w.cur = some next) (hwhole : Whole w next) (r : String) (hr : Current S key ops w r)
    (hn : (FilterFlow.now w.st r).upgraded = none) (hleft : (FilterFlow.now w.st r).hasLeft = false)
    (hf : (next.filters.getD {}).roomTypes = [] ∨ (next.filters.getD {}).spaces = []) :
    (∃ i, ShownAt w i r) ↔ Filters.Matches S.lower (fun _ => none) (next.filters.getD {}) (FilterFlow.now w.st r) := by
  have hinv := run_inv S key (inv_init S key) hok h
  obtain ⟨l, hl, hnd, hc, _, hget⟩ := shows S key hinv hout hcur hwhole
  have hfl := hinv.filt next l hcur hl
  have hcopy := copy S key hok h hr
  have hshown : (∃ i, ShownAt w i r) ↔ r ∈ l.sr.ids := by
    constructor
    · rintro ⟨i, h0, h1, h2⟩
      obtain ⟨n, rfl⟩ := Int.eq_ofNat_of_zero_le h0
      rw [hget n (by omega)] at h2
      exact List.mem_of_getElem? h2
    · intro hm
      obtain ⟨n, hn, he⟩ := List.getElem_of_mem hm
      exact ⟨n, by omega, by omega, by rw [hget n (by omega), List.getElem?_eq_getElem hn, he]⟩
  rw [hshown]
  simp only [Option.map_eq_some_iff] at hcopy
  obtain ⟨rm, h1, h2⟩ := hcopy
  rw [← h2] at hn hleft ⊢
  rw [hinv.linv.right r rm h1 hn hleft key l hl, hfl, FilterFlow.incl_finder S.lower _ (fun _ => none) _ _ hn]
  exact Filters.C10_include_partial _ _ _ _ hf

/-- In a list that is sorted by name, rooms are shown in the order of the names they have now. -/
theorem C138_names_partial (ops : List Op) (w : W) (hok : OkRun S key {} ops) (h : run S key {} ops = some w) (hout : w.out = none)
    (next : RList) (hcur : w.cur = some next) (hwhole : Whole w next) (rest : List String) (hby : next.sort = some ("by_name" :: rest))
    (r r' : String) (hr : Current S key ops w r) (hr' : Current S key ops w r') (i j : Int) (hi : ShownAt w i r) (hj : ShownAt w j r')
    (hij : i < j) :
    ¬ S.lower (S.trim (FilterFlow.now w.st r').name) < S.lower (S.trim (FilterFlow.now w.st r).name) := by
  obtain ⟨l, _, hnd, hc, hso, hget⟩ := shows S key (run_inv S key (inv_init S key) hok h) hout hcur hwhole
  obtain ⟨n, rfl⟩ := Int.eq_ofNat_of_zero_le hi.1
  obtain ⟨k, rfl⟩ := Int.eq_ofNat_of_zero_le hj.1
  have h1 := hi.2.2
  have h2 := hj.2.2
  have hb1 : n < l.sr.ids.length := by have := hi.2.1; omega
  have hb2 : k < l.sr.ids.length := by have := hj.2.1; omega
  rw [hget n (by omega), List.getElem?_eq_getElem hb1, Option.some.injEq] at h1
  rw [hget k (by omega), List.getElem?_eq_getElem hb2, Option.some.injEq] at h2
  have := List.pairwise_iff_getElem.1 hso n k hb1 hb2 (by omega)
  rw [h1, h2, hby] at this
  have hm : ∀ x, Current S key ops w x →
      (Lists.findM S w.st.lists.all key x).name = S.lower (S.trim (FilterFlow.now w.st x).name) := by
    intro x hx
    have := copy S key hok h hx
    simp only [Option.map_eq_some_iff] at this
    obtain ⟨rm, e1, e2⟩ := this
    simp only [Lists.findM, e1, Lists.metaOf, ← e2]
  intro hlt
  apply this
  simp only [Option.getD_some, SortableRooms.Precedes, SortableRooms.before]
  left
  rw [hm r hr, hm r' hr']
  exact hlt

end Verif.ListFlow
