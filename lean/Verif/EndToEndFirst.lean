import Verif.EndToEndState
import Verif.StoreGap
/-!
# The first message of a room

The message with the first state of a room comes before all that makes anybody a member of the room for the request handler.
-/
namespace Verif.EndToEnd
open Verif.Store (DB Row TI St Ev)

theorem key_cur {ops : List Store.Op} (hok : ∀ o ∈ ops, Store.OkOp o) {x : Row} (hx : x ∈ (Store.run ops).rows)
    (hk : x.isState = true ∨ x.ev.hasKey = true) : (Store.run ops).cur x.room ≠ 0 := by
  have k1 := (Store.C40_current _ hok x.room).1
  rw [show (fun _ => true) = Store.always from rfl] at k1
  have hne : ∃ y, lastState (Store.run ops) x.room x.ev.key = some y := by
    cases hl : lastState (Store.run ops) x.room x.ev.key with
    | some y => exact ⟨y, rfl⟩
    | none => exact absurd ⟨rfl, hk, rfl, rfl⟩ (last_none hl x hx)
  obtain ⟨y, hy⟩ := hne
  obtain ⟨n, s', hs', he', _⟩ := (k1 x.ev.key y.ev.id).2 (by rw [last_state, hy]; rfl)
  have := ((Store.run_spec _ hok).inv.srange s' hs').1
  omega

theorem cur_mono (db : DB) (o : Store.Op) (r : String) (h : db.cur r ≠ 0) : (Store.step db o).cur r ≠ 0 := by
  cases o with
  | init room skip block =>
    obtain ⟨_, _, _, h4, h5, _⟩ := Store.init_gap db room skip block
    by_cases hr : r = room
    · subst hr; exact h5 h
    · rw [h4 r hr]; exact h
  | acc room skip limited timeline =>
    simp only [Store.step]
    cases ha : Store.accumulate db room skip limited timeline with
    | none => exact h
    | some p =>
      obtain ⟨db', post⟩ := p
      show db'.cur r ≠ 0
      rcases Store.acc_gap ha with ⟨rfl, _⟩ | ⟨_, _, _, _, h4, h5, _⟩
      · exact h
      · by_cases hr : r = room
        · subst hr; exact h5 h
        · rw [h4 r hr]; exact h

/-- A message with a whole state of the room. -/
def whole (r : String) : Msg → Prop
  | .acc _ _ => False
  | .init r' _ => r' = r
  | .inval r' => r' = r

theorem publish_whole (db : DB) (o : Store.Op) (r : String) : ∀ m ∈ publish db o, whole r m →
    (Store.step db o).cur r ≠ 0 ∧ ∀ n, m = .init r n → db.cur r = 0 := by
  intro m hm hw
  cases o with
  | acc room skip limited timeline =>
    simp only [publish] at hm
    split at hm
    · cases hm
    · split at hm
      · rw [List.mem_singleton] at hm; subst hm; exact hw.elim
      · cases hm
  | init room skip block =>
    simp only [publish] at hm
    split at hm
    · cases hm
    · rename_i db' hi
      have hs : Store.step db (.init room skip block) = db' := by simp [Store.step, hi]
      split at hm
      · cases hm
      · rename_i hc
        split at hm
        · rename_i h0
          rw [List.mem_singleton] at hm
          subst hm
          have hr : room = r := hw
          subst hr
          exact ⟨cur_mono _ _ _ h0, fun n h => nomatch h⟩
        · rename_i h0
          rw [List.mem_singleton] at hm
          subst hm
          have hr : room = r := hw
          subst hr
          have h0 : db.cur room = 0 := by simpa using h0
          exact ⟨by rw [hs]; exact fun h => hc (h.trans h0.symm), fun _ _ => h0⟩

theorem publish_one (db : DB) (o : Store.Op) : publish db o = [] ∨ ∃ m, publish db o = [m] := by
  cases o with
  | acc room skip limited timeline =>
    simp only [publish]
    split
    · exact Or.inl rfl
    · split
      · exact Or.inr ⟨_, rfl⟩
      · exact Or.inl rfl
  | init room skip block =>
    simp only [publish]
    split
    · exact Or.inl rfl
    · split
      · exact Or.inl rfl
      · split
        · exact Or.inr ⟨_, rfl⟩
        · exact Or.inr ⟨_, rfl⟩

structure FM (cfg : Cfg) (s : State) : Prop where
  joined : ∀ u r, Tracker.isUserJoined s.disp.jrt u r = true → s.db.cur r ≠ 0
  wholes : ∀ m ∈ s.bus, ∀ r, whole r m → s.db.cur r ≠ 0
  first : ∀ r p n q, s.bus = p ++ Msg.init r n :: q →
    (∀ u, Tracker.isUserJoined s.disp.jrt u r = false) ∧ ∀ m ∈ p, ∀ u, sayMsg cfg s.db u r m = none

/-- What says that somebody is in the room or not, says it of a room with a state. -/
theorem says_cur {cfg : Cfg} {s : State} {ops : List Op} (hR : Reach s ops) (hok : ∀ o ∈ polls ops, Store.OkOp o) (h : FM cfg s) {m : Msg} (hm : m ∈ s.bus)
    {u r : String} {b : Bool} (hs : sayMsg cfg s.db u r m = some b) : s.db.cur r ≠ 0 := by
  cases m with
  | init room n =>
    simp only [sayMsg] at hs
    split at hs
    · rename_i hr; exact h.wholes _ hm r hr
    · cases hs
  | inval room =>
    simp only [sayMsg] at hs
    split at hs
    · rename_i hr; exact h.wholes _ hm r hr
    · cases hs
  | acc room nids =>
    simp only [sayMsg] at hs
    split at hs
    · rename_i hr
      subst hr
      obtain ⟨rows, h1, h2⟩ := Option.bind_eq_some_iff.1 hs
      unfold says at h2
      obtain ⟨x, hx, hxs⟩ := List.mem_filterMap.1 (List.mem_of_getLast? h2)
      have hxr : x ∈ s.db.rows.filter fun r => decide (r.nid ∈ nids) := by
        unfold Store.selectByNIDs at h1
        dsimp only at h1
        split at h1
        · cases h1
        · cases h1; exact hx
      obtain ⟨hx1, hx2⟩ := List.mem_filter.1 hxr
      have hx2 : x.nid ∈ nids := by simpa using hx2
      have hpend : (room, x.nid) ∈ pend s.bus := mem_pend' hm hx2
      obtain ⟨y, hy, hyr, _, hyn⟩ := mem_posOf.1 (hR.base.bus.mem hpend)
      have : y = x := Store.row_unique hR.base.ti.asc hy hx1 hyn
      subst this
      rw [says_row] at hxs
      split at hxs
      · rename_i hk
        rw [hR.db] at hx1 ⊢
        rw [← hyr]
        exact key_cur hok hx1 (Or.inr hk.1)
      · cases hxs
    · cases hs
where
  mem_pend' {room : String} {nids : List Nat} {n : Nat} : ∀ {bus : List Msg}, Msg.acc room nids ∈ bus → n ∈ nids → (room, n) ∈ pend bus
    | [], h, _ => nomatch h
    | m :: bus, h, hn => by
      rcases List.mem_cons.1 h with rfl | h
      · exact List.mem_append_left _ (List.mem_map_of_mem hn)
      · have ih := mem_pend' h hn
        cases m with
        | acc => exact List.mem_append_right _ ih
        | init => exact ih
        | inval => exact ih

theorem fm_run (cfg : Cfg) (ops : List Op) (hok : ∀ o ∈ polls ops, Store.OkOp o) (hk : ∀ o ∈ polls ops, KeyOk o) : FM cfg (run cfg {} ops) := by
  induction ops using Util.snocRec with
  | nil =>
    refine ⟨fun u r h => ?_, by simp [run], fun r p n q h => ?_⟩
    · simp [run, Tracker.isUserJoined, Tracker.empty] at h
    · simp [run] at h
  | append_singleton ops o ih =>
    have hR := reach cfg ops
    have hM' := mi_run cfg (ops ++ [o]) hok hk
    have hR' := reach cfg (ops ++ [o])
    have hsub : ∀ x ∈ polls ops, x ∈ polls (ops ++ [o]) := fun x hx => by rw [polls_append]; exact List.mem_append_left _ hx
    have hok' : ∀ o ∈ polls ops, Store.OkOp o := fun x hx => hok x (hsub x hx)
    have hk' : ∀ o ∈ polls ops, KeyOk o := fun x hx => hk x (hsub x hx)
    have hM := mi_run cfg ops hok' hk'
    have ih := ih hok' hk'
    rw [show run cfg {} (ops ++ [o]) = step cfg (run cfg {} ops) o by simp [run]] at hM' hR' ⊢
    generalize run cfg {} ops = s at *
    cases o with
    | poll o =>
      have ho : Store.OkOp o := hok o (by simp [polls])
      have hRel := Store.run_spec _ hok'
      rw [← hR.db] at hRel
      obtain ⟨hRel', hE⟩ := Store.step_spec hRel o ho
      have hstab : ∀ m ∈ s.bus, ∀ u r, sayMsg cfg s.db u r m = none → sayMsg cfg (Store.step s.db o) u r m = none := by
        intro m hm u r hn
        rw [say_stable hRel.inv hRel'.inv hE (hM.valid m hm) (fun he => ?_)]
        · exact hn
        · subst he; simp [sayMsg] at hn
      refine ⟨fun u r h => cur_mono _ _ _ (ih.joined u r h), fun m hm r hw => ?_, fun r p n q hb => ?_⟩
      · rcases List.mem_append.1 hm with hm | hm
        · exact cur_mono _ _ _ (ih.wholes m hm r hw)
        · exact (publish_whole s.db o r m hm hw).1
      · have hold : ∀ q', s.bus = p ++ Msg.init r n :: q' → (∀ u, Tracker.isUserJoined s.disp.jrt u r = false) ∧
            ∀ m ∈ p, ∀ u, sayMsg cfg (Store.step s.db o) u r m = none := fun q' hq' => by
          obtain ⟨a, b⟩ := ih.first r p n q' hq'
          exact ⟨a, fun m hm u => hstab m (by rw [hq']; simp [hm]) u r (b m hm u)⟩
        have hb : s.bus ++ publish s.db o = p ++ Msg.init r n :: q := hb
        rcases publish_one s.db o with hp | ⟨m, hp⟩
        · rw [hp, List.append_nil] at hb
          exact hold q hb
        · rw [hp] at hb
          rcases List.eq_nil_or_concat q with rfl | ⟨q', y, rfl⟩
          · obtain ⟨h1, h2⟩ := List.append_inj' hb rfl
            subst h1
            simp only [List.cons.injEq, and_true] at h2
            have h0 := (publish_whole s.db o r m (by rw [hp]; simp) (by rw [h2]; rfl)).2 n h2
            refine ⟨fun u => ?_, fun m' hm' u => ?_⟩
            · cases hj : Tracker.isUserJoined s.disp.jrt u r with
              | false => exact hj
              | true => exact absurd h0 (ih.joined u r hj)
            · apply hstab m' hm'
              rcases Option.eq_none_or_eq_some (sayMsg cfg s.db u r m') with hs | ⟨b, hs⟩
              · exact hs
              · exact absurd h0 (says_cur hR hok' ih hm' hs)
          · have : s.bus ++ [m] = (p ++ Msg.init r n :: q') ++ [y] := by rw [hb]; simp
            exact hold q' (List.append_inj' this rfl).1
    | recv =>
      cases hb : s.bus with
      | nil => rw [show step cfg s .recv = s by simp [step, hb]]; exact ih
      | cons m rest =>
        have hstep : step cfg s .recv = handle cfg { s with bus := rest } m := by simp [step, hb]
        have hB : Base { s with bus := rest } (pend (m :: rest)) := by rw [← hb]; exact ⟨hR.base.ti, hR.base.bus, hR.base.jrt⟩
        obtain ⟨_, h2, h3⟩ := handle_base (cfg := cfg) hB
        have hI : Store.Inv s.db := by rw [hR.db]; exact (Store.run_spec _ hok').inv
        have hv := hM.valid
        rw [hb] at hv
        have hj := handle_joined (cfg := cfg) hB hI (hv m (by simp))
        rw [hstep]
        refine ⟨fun u r h => ?_, fun x hx r hw => ?_, fun r p n q hq => ?_⟩
        · rw [h2]
          rw [hj] at h
          rcases Option.eq_none_or_eq_some (sayMsg cfg s.db u r m) with hs | ⟨b, hs⟩
          · simp only [hs, Option.getD_none] at h
            exact ih.joined u r h
          · exact says_cur hR hok' ih (by rw [hb]; simp) hs
        · rw [h3] at hx
          rw [h2]
          exact ih.wholes x (by rw [hb]; exact List.mem_cons_of_mem _ hx) r hw
        · rw [h3] at hq
          have hq : rest = p ++ Msg.init r n :: q := hq
          obtain ⟨a, b⟩ := ih.first r (m :: p) n q (by rw [hb, hq]; rfl)
          rw [h2]
          refine ⟨fun u => ?_, fun x hx => b x (List.mem_cons_of_mem _ hx)⟩
          rw [hj]
          show (sayMsg cfg s.db u r m).getD (Tracker.isUserJoined s.disp.jrt u r) = false
          rw [b m (by simp) u, Option.getD_none]
          exact a u
    | «open» => exact ⟨ih.joined, ih.wholes, ih.first⟩
    | request xs => exact ⟨ih.joined, ih.wholes, ih.first⟩
    | take vis xs => exact ⟨ih.joined, ih.wholes, ih.first⟩
    | restart =>
      refine ⟨fun u r h => ?_, fun m hm => (by cases hm), fun r p n q h => ?_⟩
      · have ha := (hM'.agrees u r).2
        rcases Option.eq_none_or_eq_some (cur (step cfg s .restart).db r u) with hn | ⟨id, hid⟩
        · have := ha hn
          simp only [later, step, restart, List.filterMap_nil, List.getLast?_nil, Option.getD_none] at this
          simp only [step, restart] at h
          rw [h] at this
          cases this
        · obtain ⟨x, hx, hxr, hxk, _⟩ := cur_row hid
          rw [hR'.db] at hx ⊢
          rw [← hxr]
          exact key_cur hok hx hxk
      · have h : ([] : List Msg) = p ++ Msg.init r n :: q := h
        cases p <;> cases h

/-- While the first state of a room is under way, nobody is a member of the room for the request handler. -/
theorem no_init (cfg : Cfg) (ops : List Op) (hok : ∀ o ∈ polls ops, Store.OkOp o) (hk : ∀ o ∈ polls ops, KeyOk o) {u r : String}
    (hj : u ∈ (run cfg {} ops).disp.jrt.joinedUsers r) : ∀ n, Msg.init r n ∉ (run cfg {} ops).bus := by
  intro n hm
  obtain ⟨p, q, hq⟩ := List.append_of_mem hm
  have := ((fm_run cfg ops hok hk).first r p n q hq).1 u
  rw [Dispatcher.mem_joined_iff] at hj
  rw [hj] at this
  cases this

end Verif.EndToEnd
