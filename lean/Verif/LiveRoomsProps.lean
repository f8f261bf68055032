import Verif.LiveRooms
import Verif.ListOpsProps
/-!
# Properties of the rooms in responses (C106)
-/
namespace Verif.LiveRooms
open Verif.Ranges Verif.ListOps

variable {α : Type} [DecidableEq α]

/-! ### Specification -/

/-- The client sees the room in the list. -/
def Shown (l : RoomList α) (x : α) : Prop := if l.getAll then x ∈ l.order else Visible l.ranges l.order x

/-- The client follows the room. -/
def Follows (s : St α) (x : α) : Prop := x ∈ s.subs ∨ ∃ l ∈ s.lists, Shown l x

/-- What C63 and C06 give for a request: the rooms it brings into view come with full data. -/
def OkReq (s : St α) (q : Req α) : Prop := ∀ x, Follows (request q) x → Follows s x ∨ x ∈ q.full

/-- What `SetRoom` and sorting guarantee, without the layout of C06. -/
structure OkDelta (l : RoomList α) (room : α) (d : Delta α) : Prop where
  ranges : valid l.ranges = true
  nodup : l.order.Nodup
  adm : Admissible d.sort d.accept l.order room d.op
  here : d.op ≠ .add → room ∈ l.order
  sub : l.getAll = false → ¬ MissedSub l.ranges l.order room d.op

def OkUpdate (s : St α) (u : Update α) : Prop :=
  ∀ (i : Nat) (l : RoomList α) (d : Delta α), s.lists[i]? = some l → u.deltas[i]? = some (some d) → OkDelta l u.room d

/-- The place of the room in the list, or the end of the list. -/
def place (l : List α) (room : α) (out : Int) : Int := (indexOf l room).getD out

/-- The room passed a window: between its places before and after is an index of a window. -/
def Passed (l : RoomList α) (after : List α) (room : α) : Prop :=
  ∃ i, Covers l.ranges i ∧
    ((place l.order room l.order.length ≤ i ∧ i ≤ place after room (after.length - 1)) ∨
     (place after room (after.length - 1) ≤ i ∧ i ≤ place l.order room l.order.length))

/-- Why news of a room are sent to a client that does not follow it. -/
inductive Stray (s s' : St α) (u : Update α) : Prop
  /-- the unread counts changed -/
  | counts : u.counts = true → Stray s s' u
  /-- the response has operations for a list of the room already -/
  | earlier (i : Nat) (l : RoomList α) (d : Delta α) : u.isEvent = true → s.lists[i]? = some l → u.deltas[i]? = some (some d) →
      l.hasOps = true → Stray s s' u
  /-- the room passed a window of a list -/
  | passed (i : Nat) (l l' : RoomList α) (d : Delta α) : u.isEvent = true → s.lists[i]? = some l → u.deltas[i]? = some (some d) →
      s'.lists[i]? = some l' → Passed l l'.order u.room → Stray s s' u
  /-- the only room of a list was removed from it -/
  | only (i : Nat) (l : RoomList α) (d : Delta α) : u.isEvent = true → s.lists[i]? = some l → u.deltas[i]? = some (some d) →
      d.op = .del → l.order = [u.room] → Stray s s' u

/-! ### The operations of a list -/

theorem finish_some {rs : Ranges} {after : List α} {room : α} {op : LOp} {f t : Int} {w : Bool} {res : Result α}
    (h : calculateListOps.finish rs after room op f t w = some res) :
    res.after = after ∧ ∃ ps, calculateMoveIndexes rs f t = some ps ∧ (ps = [] → res.ops = [] ∧ res.subs = []) := by
  unfold calculateListOps.finish at h
  cases h1 : calculateMoveIndexes rs f t with
  | none => rw [h1] at h; cases h
  | some ps =>
    rw [h1] at h
    simp only [Option.bind_eq_bind, Option.bind_some] at h
    cases h2 : loop ⟨rs, room, op, w, t, after, ps.length⟩ ps with
    | none => rw [h2] at h; cases h
    | some x =>
      rw [h2] at h
      simp at h
      refine ⟨by rw [← h], ps, rfl, ?_⟩
      intro e
      subst e
      simp [loop] at h2
      subst h2
      rw [← h]; exact ⟨rfl, rfl⟩

theorem finish_passed {rs : Ranges} (hv : valid rs = true) {after : List α} {room : α} {op : LOp} {f t : Int} {w : Bool} {res : Result α}
    (h : calculateListOps.finish rs after room op f t w = some res) (hn : res.ops ≠ [] ∨ res.subs ≠ []) :
    ∃ i, Covers rs i ∧ ((f ≤ i ∧ i ≤ t) ∨ (t ≤ i ∧ i ≤ f)) := by
  obtain ⟨_, ps, h1, h2⟩ := finish_some h
  have hne : ps ≠ [] := by
    intro e
    obtain ⟨e1, e2⟩ := h2 e
    rcases hn with h | h
    · exact h e1
    · exact h e2
  obtain ⟨ps', k1, k2, _⟩ := C04_move_indexes hv f t
  rw [h1] at k1
  cases k1
  cases hf : rs.filter fun r => decide (touches f t r) with
  | nil =>
    rw [hf] at k2
    exact absurd k2.eq_nil hne
  | cons r rest =>
    have hmem : r ∈ rs.filter fun r => decide (touches f t r) := by rw [hf]; exact List.mem_cons_self
    obtain ⟨m1, m2⟩ := List.mem_filter.1 hmem
    have ht : touches f t r := by simpa using m2
    have hle := (valid_le hv r m1).2
    unfold touches at ht
    by_cases hft : f ≤ t
    · by_cases hr : r.1 ≤ f
      · exact ⟨f, ⟨r, m1, hr, by omega⟩, Or.inl ⟨by omega, hft⟩⟩
      · exact ⟨r.1, ⟨r, m1, by omega, hle⟩, Or.inl ⟨by omega, by omega⟩⟩
    · by_cases hr : r.1 ≤ t
      · exact ⟨t, ⟨r, m1, hr, by omega⟩, Or.inr ⟨by omega, by omega⟩⟩
      · exact ⟨r.1, ⟨r, m1, by omega, hle⟩, Or.inr ⟨by omega, by omega⟩⟩

theorem indexOf_mem {l : List α} {x : α} (h : x ∈ l) : indexOf l x = some (l.idxOf x : Int) := by simp [indexOf, h]
theorem indexOf_not_mem {l : List α} {x : α} (h : x ∉ l) : indexOf l x = none := by simp [indexOf, h]

/-- If there is anything to do for a list, the room passed a window, or it was the only room. -/
theorem calc_passed {l : RoomList α} {room : α} {d : Delta α} (hok : OkDelta l room d) {res : Result α}
    (h : calculateListOps l.ranges d.sort d.accept l.order room d.op = some res) (hn : res.ops ≠ [] ∨ res.subs ≠ []) :
    Passed l res.after room ∨ (d.op = .del ∧ l.order = [room]) := by
  have hadm := hok.adm
  have hhere := hok.here
  unfold calculateListOps at h
  cases hop : d.op with
  | add =>
    rw [hop] at hadm h
    obtain ⟨a1, a2, a3, _⟩ := hadm
    rw [indexOf_not_mem a2] at h
    simp only [Option.getD_none] at h
    left
    obtain ⟨i, i1, i2⟩ := finish_passed hok.ranges h hn
    have ha := (finish_some h).1
    rw [if_pos ⟨a1, a2⟩] at ha i2
    have hmem : room ∈ d.sort (l.order ++ [room]) := a3.mem_iff.2 (by simp)
    refine ⟨i, i1, ?_⟩
    unfold place
    rw [ha, indexOf_not_mem a2, indexOf_mem hmem]
    rw [indexOf_mem hmem] at i2
    simpa using i2
  | change =>
    rw [hop] at hadm h hhere
    have hm := hhere (by simp)
    rw [indexOf_mem hm] at h
    simp only [Option.getD_some] at h
    left
    obtain ⟨i, i1, i2⟩ := finish_passed hok.ranges h hn
    have ha := (finish_some h).1
    have hmem : room ∈ d.sort l.order := hadm.1.mem_iff.2 hm
    refine ⟨i, i1, ?_⟩
    unfold place
    rw [ha, indexOf_mem hm, indexOf_mem hmem]
    rw [indexOf_mem hmem] at i2
    simpa using i2
  | del =>
    rw [hop] at h hhere
    have hm := hhere (by simp)
    rw [indexOf_mem hm] at h
    simp only [Option.getD_some] at h
    split at h
    · rename_i hlen
      right
      refine ⟨rfl, ?_⟩
      have he : l.order.erase room = [] := by
        cases hc : l.order.erase room with
        | nil => rfl
        | cons a b => rw [hc] at hlen; simp at hlen
      have hl := List.length_erase_of_mem hm
      rw [he] at hl
      have hl1 : l.order.length = 1 := by
        have := List.length_pos_of_mem hm
        simp at hl; omega
      obtain ⟨y, hy⟩ := List.length_eq_one_iff.1 hl1
      rw [hy] at hm ⊢
      simp at hm; rw [hm]
    · left
      obtain ⟨i, i1, i2⟩ := finish_passed hok.ranges h hn
      have ha := (finish_some h).1
      refine ⟨i, i1, ?_⟩
      unfold place
      rw [ha, indexOf_mem hm, indexOf_not_mem (nodup_not_mem_erase hok.nodup)]
      simpa using i2

/-! ### One list -/

theorem isEmpty_not {β : Type} {l : List β} (h : (!l.isEmpty) = true) : l ≠ [] := by
  intro e; subst e; simp at h

/-- What the update does to a list with a delta: rooms that come into view are built; and if there are updates the client
sees the room before or after, or one of the causes of stray news applies. -/
theorem forList_some {u : Update α} {l : RoomList α} {d : Delta α} (hok : OkDelta l u.room d) {r : ListRes α}
    (h : forList u l (some d) = some r) :
    (∀ x, Shown r.list x → Shown l x ∨ x ∈ r.built) ∧
    (r.updates = true → Shown l u.room ∨ Shown r.list u.room ∨ l.hasOps = true ∨ Passed l r.list.order u.room ∨
      (d.op = .del ∧ l.order = [u.room])) := by
  unfold forList at h
  simp only at h
  cases hres : resort l u.room d with
  | none => rw [hres] at h; cases h
  | some p =>
    obtain ⟨q, ops⟩ := p
    rw [hres] at h
    simp only [Option.some.injEq] at h
    subst h
    unfold resort at hres
    by_cases hg : l.getAll = true
    · rw [if_pos hg] at hres
      have hadm := hok.adm
      have hhere := hok.here
      cases hop : d.op with
      | add =>
        rw [hop] at hres hadm
        simp only [Option.some.injEq, Prod.mk.injEq] at hres
        obtain ⟨rfl, rfl⟩ := hres
        simp only [Shown, hg, if_true]
        rw [if_pos ⟨hadm.1, hadm.2.1⟩]
        refine ⟨?_, fun _ => Or.inr (Or.inl (by simp))⟩
        intro x hx
        rcases List.mem_append.1 hx with hx | hx
        · exact Or.inl hx
        · right; simp at hx; simp [hx]
      | del =>
        rw [hop] at hres hhere
        simp only [Option.some.injEq, Prod.mk.injEq] at hres
        obtain ⟨rfl, rfl⟩ := hres
        simp only [Shown, hg, if_true]
        exact ⟨fun x hx => Or.inl (List.mem_of_mem_erase hx), fun _ => Or.inl (hhere (by simp))⟩
      | change =>
        rw [hop] at hres hhere
        simp only [Option.some.injEq, Prod.mk.injEq] at hres
        obtain ⟨rfl, rfl⟩ := hres
        simp only [Shown, hg, if_true]
        exact ⟨fun x hx => Or.inl hx, fun _ => Or.inl (hhere (by simp))⟩
    · rw [if_neg hg] at hres
      have hg' : l.getAll = false := by simpa using hg
      cases hc : calculateListOps l.ranges d.sort d.accept l.order u.room d.op with
      | none => rw [hc] at hres; cases hres
      | some res =>
        rw [hc] at hres
        simp only [Option.some.injEq, Prod.mk.injEq] at hres
        obtain ⟨rfl, rfl⟩ := hres
        simp only [Shown, hg', Bool.false_eq_true, if_false]
        refine ⟨?_, ?_⟩
        · intro x hx
          by_cases hb : Visible l.ranges l.order x
          · exact Or.inl hb
          · right
            exact List.mem_append_right _ (C06_subs_partial hok.ranges d.sort d.accept hok.nodup u.room d.op hok.adm (hok.sub hg') hc x hx hb)
        · intro hup
          have key : (!res.ops.isEmpty || !res.subs.isEmpty) = true → Passed l res.after u.room ∨ (d.op = .del ∧ l.order = [u.room]) := by
            intro hh
            refine calc_passed hok hc ?_
            rcases Bool.or_eq_true _ _ ▸ hh with h | h
            · exact Or.inl (isEmpty_not h)
            · exact Or.inr (isEmpty_not h)
          rcases Bool.or_eq_true_iff.1 hup with hu | hu
          · rcases Bool.or_eq_true_iff.1 hu with h | h
            · exact Or.inr (Or.inr (Or.inr (key h)))
            · right; left
              unfold inView at h
              by_cases hm : u.room ∈ res.after
              · rw [indexOf_mem hm] at h
                refine ⟨_, inside_isSome_iff.1 h, ?_⟩
                unfold getI
                rw [if_neg (by omega)]
                simp only [Int.toNat_natCast]
                rw [List.getElem?_eq_getElem (List.idxOf_lt_length_of_mem hm)]
                simp
              · rw [indexOf_not_mem hm] at h; cases h
          · rcases Bool.or_eq_true_iff.1 hu with h | h
            · exact Or.inr (Or.inr (Or.inl h))
            · exact Or.inr (Or.inr (Or.inr (key (Bool.or_eq_true_iff.2 (Or.inl h)))))

theorem forLists_spec (u : Update α) : ∀ (ls : List (RoomList α)) (ds : List (Option (Delta α))) (rs : List (ListRes α)),
    forLists u ls ds = some rs → rs.length = ls.length ∧
      ∀ (i : Nat) (r : ListRes α), rs[i]? = some r → ∃ l, ls[i]? = some l ∧ forList u l (ds[i]?).join = some r := by
  intro ls
  induction ls with
  | nil => intro ds rs h; simp only [forLists, Option.some.injEq] at h; subst h; exact ⟨rfl, by simp⟩
  | cons l ls ih =>
    intro ds rs h
    cases ds with
    | nil =>
      simp only [forLists, Option.map_eq_some_iff] at h
      obtain ⟨rs', h1, rfl⟩ := h
      obtain ⟨k1, k2⟩ := ih [] rs' h1
      refine ⟨by simp [k1], ?_⟩
      intro i r hr
      cases i with
      | zero => simp at hr; subst hr; exact ⟨l, by simp, rfl⟩
      | succ i => simp at hr; simpa using k2 i r hr
    | cons d ds =>
      simp only [forLists] at h
      cases hf : forList u l d with
      | none => rw [hf] at h; cases h
      | some r0 =>
        rw [hf] at h
        simp only [Option.map_eq_some_iff] at h
        obtain ⟨rs', h1, rfl⟩ := h
        obtain ⟨k1, k2⟩ := ih ds rs' h1
        refine ⟨by simp [k1], ?_⟩
        intro i r hr
        cases i with
        | zero => simp at hr; subst hr; exact ⟨l, by simp, by simpa using hf⟩
        | succ i => simp at hr; simpa using k2 i r hr

/-! ### An update -/

theorem addNews_same (s : St α) (room : α) (b : Bool) : (addNews s room b).full = s.full ∧ (addNews s room b).subs = s.subs ∧
    (addNews s room b).lists = s.lists := by
  unfold addNews
  split
  · split <;> exact ⟨rfl, rfl, rfl⟩
  · exact ⟨rfl, rfl, rfl⟩

theorem addNews_news {s : St α} {room : α} {b : Bool} {x : α} (h : x ∈ (addNews s room b).news) :
    x ∈ s.news ∨ (x = room ∧ b = true ∧ room ∉ s.full) := by
  unfold addNews at h
  split at h
  · rename_i hb
    split at h
    · exact Or.inl h
    · rename_i hn
      rcases List.mem_cons.1 h with h | h
      · exact Or.inr ⟨h, hb, fun hf => hn (Or.inl hf)⟩
      · exact Or.inl h
  · exact Or.inl h

/-- The client has, or is about to be sent, full data of every room it follows. -/
def Inv (s : St α) (has : List α) : Prop := ∀ x, Follows s x → x ∈ has ∨ x ∈ s.full

/-- An update keeps full data with the rooms the client follows. News it adds are of a room the client has, or are stray: of
a room the client follows neither before nor after, for one of four reasons. -/
theorem C106_update (s s' : St α) (u : Update α) (has : List α) (hinv : Inv s has) (hok : OkUpdate s u) (h : update s u = some s') :
    Inv s' has ∧ ∀ x ∈ s'.news, x ∈ s.news ∨ x ∈ has ∨
      (x = u.room ∧ ¬ Follows s x ∧ ¬ Follows s' x ∧ Stray s s' u) := by
  unfold update at h
  by_cases hskip : (u.isEvent && u.skip) = true
  · rw [if_pos hskip] at h
    cases h
    exact ⟨hinv, fun x hx => Or.inl hx⟩
  rw [if_neg hskip] at h
  cases hf : forLists u s.lists u.deltas with
  | none => rw [hf] at h; cases h
  | some rs =>
    rw [hf] at h
    simp only [Option.some.injEq] at h
    obtain ⟨hlen, hspec⟩ := forLists_spec u _ _ _ hf
    -- what happens to each list
    have hlist : ∀ (i : Nat) (r : ListRes α), rs[i]? = some r → ∃ l, s.lists[i]? = some l ∧
        (∀ x, Shown r.list x → Shown l x ∨ x ∈ r.built) ∧
        (r.updates = true → ∃ d, u.deltas[i]? = some (some d) ∧ (Shown l u.room ∨ Shown r.list u.room ∨ l.hasOps = true ∨
          Passed l r.list.order u.room ∨ (d.op = .del ∧ l.order = [u.room]))) := by
      intro i r hr
      obtain ⟨l, hl, hfl⟩ := hspec i r hr
      refine ⟨l, hl, ?_⟩
      cases hd : u.deltas[i]? with
      | none =>
        rw [hd] at hfl
        simp only [Option.join, Option.bind_none, forList, Option.some.injEq] at hfl
        subst hfl
        exact ⟨fun x hx => Or.inl hx, fun h => by cases h⟩
      | some od =>
        cases od with
        | none =>
          rw [hd] at hfl
          simp only [Option.join, Option.bind_some, id, forList, Option.some.injEq] at hfl
          subst hfl
          exact ⟨fun x hx => Or.inl hx, fun h => by cases h⟩
        | some d =>
          rw [hd] at hfl
          obtain ⟨k1, k2⟩ := forList_some (hok i l d hl hd) (by simpa using hfl)
          exact ⟨k1, fun hu => ⟨d, rfl, k2 hu⟩⟩
    generalize hsub : forSubs s u = sub at h
    generalize hb : u.old ++ (if sub.2 then [u.room] else []) ++ rs.flatMap (·.built) = built at h
    generalize hs1 : (St.mk (rs.map ListRes.list) s.wanted (if sub.2 then u.room :: s.subs else s.subs) (built ++ s.full)
      (s.news.filter fun r => decide (r ∉ built)) : St α) = s1 at h
    have e1 : s'.full = built ++ s.full ∧ s'.subs = (if sub.2 then u.room :: s.subs else s.subs) ∧ s'.lists = rs.map (·.list) := by
      rw [← h]
      obtain ⟨a1, a2, a3⟩ := addNews_same (addNews s1 u.room ((sub.1 || rs.any (·.updates)) && u.isEvent)) u.room u.counts
      obtain ⟨b1, b2, b3⟩ := addNews_same s1 u.room ((sub.1 || rs.any (·.updates)) && u.isEvent)
      rw [a1, a2, a3, b1, b2, b3, ← hs1]
      exact ⟨rfl, rfl, rfl⟩
    have hinv' : Inv s' has := by
      rintro x (hx | ⟨l', hl', hx⟩)
      · rw [e1.2.1] at hx
        rw [e1.1]
        by_cases hs2 : sub.2 = true
        · rw [if_pos hs2] at hx
          rcases List.mem_cons.1 hx with rfl | hx
          · right
            refine List.mem_append_left _ ?_
            rw [← hb, if_pos hs2]; simp
          · rcases hinv x (Or.inl hx) with h | h
            · exact Or.inl h
            · exact Or.inr (List.mem_append_right _ h)
        · rw [if_neg hs2] at hx
          rcases hinv x (Or.inl hx) with h | h
          · exact Or.inl h
          · exact Or.inr (List.mem_append_right _ h)
      · rw [e1.2.2] at hl'
        obtain ⟨r, hr, rfl⟩ := List.mem_map.1 hl'
        obtain ⟨i, hi⟩ := List.mem_iff_getElem?.1 hr
        obtain ⟨l, k1, k2, _⟩ := hlist i r hi
        rw [e1.1]
        rcases k2 x hx with h | h
        · rcases hinv x (Or.inr ⟨l, List.mem_of_getElem? k1, h⟩) with h | h
          · exact Or.inl h
          · exact Or.inr (List.mem_append_right _ h)
        · right
          refine List.mem_append_left _ ?_
          rw [← hb]
          exact List.mem_append_right _ (List.mem_flatMap.2 ⟨r, hr, h⟩)
    refine ⟨hinv', ?_⟩
    intro x hx
    -- news that were not there: of the room of the update, which is not sent in full
    have key : x ∈ s.news ∨ (x = u.room ∧ u.room ∉ s'.full ∧ (((sub.1 || rs.any (·.updates)) && u.isEvent) = true ∨ u.counts = true)) := by
      rw [← h] at hx
      have hful : s'.full = s1.full := by rw [e1.1, ← hs1]
      rcases addNews_news hx with hx | ⟨r1, r2, r3⟩
      · rcases addNews_news hx with hx | ⟨r1, r2, r3⟩
        · left
          rw [← hs1] at hx
          exact (List.mem_filter.1 hx).1
        · exact Or.inr ⟨r1, by rw [hful]; exact r3, Or.inl r2⟩
      · refine Or.inr ⟨r1, ?_, Or.inr r2⟩
        rw [hful]
        rw [(addNews_same _ _ _).1] at r3
        exact r3
    rcases key with hx | ⟨rfl, hnf, hcause⟩
    · exact Or.inl hx
    right
    by_cases hhas : u.room ∈ has
    · exact Or.inl hhas
    right
    have hnf' : ¬ Follows s' u.room := fun hfo => by
      rcases hinv' _ hfo with h | h
      · exact hhas h
      · exact hnf h
    have hnfs : ¬ Follows s u.room := fun hfo => by
      rcases hinv _ hfo with h | h
      · exact hhas h
      · apply hnf; rw [e1.1]; exact List.mem_append_right _ h
    refine ⟨rfl, hnfs, hnf', ?_⟩
    rcases hcause with hcause | hcause
    · obtain ⟨c1, c2⟩ := Bool.and_eq_true_iff.1 hcause
      rcases Bool.or_eq_true_iff.1 c1 with c1 | c1
      · exfalso
        unfold forSubs at hsub
        by_cases m1 : u.room ∈ s.subs
        · exact hnfs (Or.inl m1)
        · rw [if_neg m1] at hsub
          by_cases m2 : u.room ∈ s.wanted
          · rw [if_pos m2] at hsub
            rw [← hsub] at c1
            apply hnf'
            left
            rw [e1.2.1, ← hsub, if_pos c1]; simp
          · rw [if_neg m2] at hsub
            rw [← hsub] at c1; cases c1
      · obtain ⟨r, hr, hu⟩ := List.any_eq_true.1 c1
        obtain ⟨i, hi⟩ := List.mem_iff_getElem?.1 hr
        obtain ⟨l, k1, _, k3⟩ := hlist i r hi
        obtain ⟨d, hd, hcases⟩ := k3 hu
        have hl' : s'.lists[i]? = some r.list := by rw [e1.2.2, List.getElem?_map, hi]; rfl
        rcases hcases with g | g | g | g | g
        · exact absurd (Or.inr ⟨l, List.mem_of_getElem? k1, g⟩) hnfs
        · exact absurd (Or.inr ⟨r.list, List.mem_of_getElem? hl', g⟩) hnf'
        · exact .earlier i l d c2 k1 hd g
        · exact .passed i l r.list d c2 k1 hd hl' g
        · exact .only i l d c2 k1 hd g.1 g.2
    · exact .counts hcause

/-! ### Histories -/

/-- Histories of a connection: its state and the rooms of which the client was sent full data in earlier responses. -/
inductive Run : St α → List α → Prop
  | init : Run {} []
  | request {s : St α} {has : List α} (q : Req α) : Run s has → OkReq s q → Run (request q) (s.full ++ has)
  | update {s s' : St α} {has : List α} (u : Update α) : Run s has → OkUpdate s u → update s u = some s' →
      (Stray s s' u → Follows s u.room ∨ Follows s' u.room) → Run s' has

/-- C106 without stray news: at any moment of a connection's life the client has full data of each room that the response
has only news of, and it has or is sent full data of each room it follows. What is missing: the four reasons for stray news
(`C106_violated_earlier`, `C106_violated_passed`, `C106_violated_only`, `C106_violated_counts`), and rooms that come into view
without their data (C06, C63). -/
theorem C106_partial {s : St α} {has : List α} (h : Run s has) : Inv s has ∧ ∀ x ∈ s.news, x ∈ has := by
  induction h with
  | init =>
    refine ⟨?_, fun x hx => by cases hx⟩
    rintro x (h | ⟨l, h, _⟩) <;> cases h
  | @request s has q _ hq ih =>
    refine ⟨?_, fun x hx => by cases hx⟩
    intro x hx
    rcases hq x hx with h | h
    · rcases ih.1 x h with h | h
      · exact Or.inl (List.mem_append_right _ h)
      · exact Or.inl (List.mem_append_left _ h)
    · exact Or.inr h
  | @update s s' has u _ hok hu hst ih =>
    obtain ⟨k1, k2⟩ := C106_update s s' u has ih.1 hok hu
    refine ⟨k1, ?_⟩
    intro x hx
    rcases k2 x hx with h | h | ⟨rfl, h1, h2, h3⟩
    · exact ih.2 x h
    · exact h
    · rcases hst h3 with h | h
      · exact absurd h h1
      · exact absurd h h2

/-- Full data is sent again only when it is needed: for a room the client has now subscribed to, for a room of a list that has a change
and that is seen in it afterwards, for one that is new to a list, or for the room of the event if the event asks for it. The rooms of
`old` are those that newer rooms replace. -/
theorem C106_full {s s' : St α} {u : Update α} (h : update s u = some s') (hv : ∀ l ∈ s.lists, valid l.ranges = true)
    {x : α} (hx : x ∈ s'.full) (hn : x ∉ s.full) (ho : x ∉ u.old) :
    (x = u.room ∧ x ∉ s.subs ∧ x ∈ s.wanted ∧ u.joined = true) ∨
    ∃ (i : Nat) (l l' : RoomList α) (d : Delta α), s.lists[i]? = some l ∧ s'.lists[i]? = some l' ∧ u.deltas[i]? = some (some d) ∧
      ((x = u.room ∧ u.isEvent = true ∧ u.force = true) ∨ (x = u.room ∧ l.getAll = true ∧ d.op = .add) ∨
        (l.getAll = false ∧ Visible l'.ranges l'.order x)) := by
  have news : ∀ (t : St α) (r : α) (b : Bool), (addNews t r b).full = t.full ∧ (addNews t r b).lists = t.lists := by
    intro t r b
    unfold addNews
    split
    · split <;> exact ⟨rfl, rfl⟩
    · exact ⟨rfl, rfl⟩
  unfold update at h
  by_cases hskip : (u.isEvent && u.skip) = true
  · rw [if_pos hskip] at h
    cases h
    exact absurd hx hn
  rw [if_neg hskip] at h
  cases hf : forLists u s.lists u.deltas with
  | none => rw [hf] at h; cases h
  | some rs =>
    rw [hf] at h
    simp only [Option.some.injEq] at h
    subst h
    rw [(news _ _ _).1, (news _ _ _).1] at hx
    rw [(news _ _ _).2, (news _ _ _).2]
    simp only [List.mem_append, List.mem_flatMap] at hx
    rcases hx with ((hx | hx) | ⟨r, hr, hx⟩) | hx
    · exact absurd hx ho
    · left
      unfold forSubs at hx
      split at hx
      · cases hx
      · split at hx
        · rename_i h1 h2
          split at hx
          · rename_i h3
            rw [List.mem_singleton.1 hx]
            exact ⟨rfl, h1, h2, h3⟩
          · cases hx
        · cases hx
    · right
      obtain ⟨i, hi⟩ := List.getElem?_of_mem hr
      obtain ⟨l, hl, hfl⟩ := (forLists_spec u _ _ _ hf).2 i r hi
      have hi' : (rs.map (·.list))[i]? = some r.list := by rw [List.getElem?_map, hi]; rfl
      cases hd : (u.deltas[i]?).join with
      | none => rw [hd] at hfl; simp only [forList, Option.some.injEq] at hfl; subst hfl; cases hx
      | some d =>
        rw [hd] at hfl
        have hd' : u.deltas[i]? = some (some d) := by
          cases he : u.deltas[i]? with
          | none => rw [he] at hd; cases hd
          | some y => rw [he] at hd; simp only [Option.join_some] at hd; rw [hd]
        refine ⟨i, l, r.list, d, hl, hi', hd', ?_⟩
        unfold forList at hfl
        simp only at hfl
        cases hres : resort l u.room d with
        | none => rw [hres] at hfl; cases hfl
        | some p =>
          obtain ⟨q, ops⟩ := p
          rw [hres] at hfl
          simp only [Option.some.injEq] at hfl
          subst hfl
          rcases List.mem_append.1 hx with hy | hy
          · left
            split at hy
            · rename_i hc
              simp only [Bool.and_eq_true] at hc
              exact ⟨List.mem_singleton.1 hy, hc⟩
            · cases hy
          · right
            unfold resort at hres
            by_cases hg : l.getAll = true
            · rw [if_pos hg] at hres
              left
              cases hop : d.op with
              | add =>
                rw [hop] at hres
                simp only [Option.some.injEq, Prod.mk.injEq] at hres
                obtain ⟨rfl, rfl⟩ := hres
                exact ⟨List.mem_singleton.1 hy, hg, rfl⟩
              | del => rw [hop] at hres; cases hres; cases hy
              | change => rw [hop] at hres; cases hres; cases hy
            · rw [if_neg hg] at hres
              right
              cases hc : calculateListOps l.ranges d.sort d.accept l.order u.room d.op with
              | none => rw [hc] at hres; cases hres
              | some res =>
                rw [hc] at hres
                simp only [Option.some.injEq, Prod.mk.injEq] at hres
                obtain ⟨rfl, rfl⟩ := hres
                exact ⟨by simpa using hg, C06_subs_shown (hv l (List.mem_of_getElem? hl)) _ _ _ _ _ hc hy⟩
    · exact absurd hx hn

/-! ### Stray news -/

/-- Rooms 1 to 4 by recency, and a window of the first two. -/
def exList (hasOps : Bool) : RoomList Nat := ⟨[(0, 1)], false, [1, 2, 3, 4], hasOps⟩

def exUp (room : Nat) (sort : List Nat → List Nat) : Update Nat :=
  { room := room, isEvent := true, force := false, skip := false, joined := true, counts := false,
    deltas := [some ⟨.change, sort, true⟩], old := [] }

/-- A message moves room 4 into the window: it is sent in full. -/
example : ∃ s1 : St Nat, update { lists := [exList false] } (exUp 4 fun _ => [4, 1, 2, 3]) = some s1 ∧ 4 ∈ s1.full ∧
    (∀ l ∈ [exList false], valid l.ranges = true) :=
  ⟨_, rfl, by decide +kernel, by decide +kernel⟩

/-- A message in a room outside of the window, that does not change its place, is sent if the response has an operation for
the list: after a message in room 4 moved it to the front, also the message in room 3. -/
theorem C106_violated_earlier : ∃ s1 s2 : St Nat,
    update (request ⟨[exList false], [], [], [1, 2]⟩) (exUp 4 fun _ => [4, 1, 2, 3]) = some s1 ∧
    update s1 (exUp 3 fun l => l) = some s2 ∧ s2.full = [4, 1, 2] ∧ s2.news = [3] :=
  ⟨_, _, rfl, rfl, by decide +kernel, by decide +kernel⟩

/-- A room that passes over the window is sent. -/
theorem C106_violated_passed : ∃ s1 : St Nat,
    update (request ⟨[⟨[(1, 2)], false, [1, 2, 3, 4], false⟩], [], [], [2, 3]⟩) (exUp 4 fun _ => [4, 1, 2, 3]) = some s1 ∧
    s1.full = [1, 2, 3] ∧ s1.news = [4] := ⟨_, rfl, by decide +kernel, by decide +kernel⟩

/-- The only room of a list is sent when it is removed, though it is in no window. -/
theorem C106_violated_only : ∃ s1 : St Nat,
    update (request ⟨[⟨[(1, 2)], false, [1], false⟩], [], [], []⟩)
      { exUp 1 id with deltas := [some ⟨.del, id, true⟩] } = some s1 ∧ s1.full = [] ∧ s1.news = [1] :=
  ⟨_, rfl, by decide +kernel, by decide +kernel⟩

/-- New unread counts are sent for any room of the user. -/
theorem C106_violated_counts : ∃ s1 : St Nat,
    update (request ⟨[exList false], [], [], [1, 2]⟩) { exUp 4 id with isEvent := false, counts := true } = some s1 ∧
    s1.full = [1, 2] ∧ s1.news = [4] := ⟨_, rfl, by decide +kernel, by decide +kernel⟩

/-! ### Example -/

theorem exVisible {x : Nat} {l : List Nat} (h : Visible [(0, 1)] l x) : l[0]? = some x ∨ l[1]? = some x := by
  obtain ⟨i, ⟨r, hr, h1, h2⟩, hi⟩ := h
  simp only [List.mem_singleton] at hr
  subst hr
  simp only at h1 h2
  have : i = 0 ∨ i = 1 := by omega
  rcases this with rfl | rfl
  · exact Or.inl hi
  · exact Or.inr hi

/-- The hypotheses of `C106_partial` are met: a message moves room 4 to the front of the list, and it is sent. -/
example : ∃ s : St Nat, Run s [] ∧ s.full = [4, 1, 2] ∧ s.lists.map (·.order) = [[4, 1, 2, 3]] := by
  have h0 : Run (request ⟨[exList false], [], [], [1, 2]⟩ : St Nat) ([] ++ []) := by
    refine Run.request (s := {}) _ .init ?_
    rintro x (h | ⟨l, h, hx⟩)
    · cases h
    · simp only [request, List.mem_singleton] at h
      subst h
      right
      rcases exVisible hx with h | h <;> simp [exList] at h <;> simp [h]
  have hu : update (request ⟨[exList false], [], [], [1, 2]⟩) (exUp 4 fun _ => [4, 1, 2, 3]) =
      some ⟨[⟨[(0, 1)], false, [4, 1, 2, 3], true⟩], [], [], [4, 1, 2], []⟩ := by decide +kernel
  refine ⟨_, Run.update _ h0 ?_ hu ?_, by decide, by decide⟩
  · intro i l d hl hd
    cases i with
    | zero =>
      simp only [request, exUp, List.getElem?_cons_zero, Option.some.injEq] at hl hd
      subst hl; subst hd
      refine ⟨by decide, by decide, ⟨?_, by decide⟩, fun _ => by decide, fun _ h => by cases h.1⟩
      exact (List.perm_middle (l₁ := [1, 2, 3]) (l₂ := []) (a := 4)).symm
    | succ i => simp [request] at hl
  · intro _
    right; right
    exact ⟨_, List.mem_singleton.2 rfl, 0, ⟨(0, 1), by simp, by decide⟩, by decide⟩

end Verif.LiveRooms
