import Verif.EndToEndFirst
/-!
# C114 and C116 with state blocks and restarts
-/
namespace Verif.EndToEnd
open Verif.Store (DB Row TI St Ev)

/-! ## Specification -/

/-- Anything may happen but a second connection and loading a room with no timeline. -/
def OneConn : Op → Prop
  | .open => False
  | .request xs => ∀ x ∈ xs, 1 ≤ x.2
  | .take _ xs => ∀ x ∈ xs, 1 ≤ x.2
  | _ => True

/-! ## The connections of the members are closed -/

theorem user_key {cfg : Cfg} (hu0 : cfg.user ≠ "") {ops : List Store.Op} (hnk : ∀ o ∈ ops, NoKey o) :
    ∀ x ∈ (Store.run ops).rows, x.ev.stateKey = cfg.user → x.ev.hasKey = true := by
  intro x hx hk
  obtain ⟨o, ho, heo⟩ := rows_event ops x hx
  cases h : x.ev.hasKey with
  | true => rfl
  | false => exact absurd (hk.symm.trans (hnk o ho _ heo h)) hu0

theorem in_cur {cfg : Cfg} {db : DB} {r : String} {d : Nat} (hkey : ∀ x ∈ db.rows, x.ev.stateKey = cfg.user → x.ev.hasKey = true)
    (hin : In cfg db r d) : ∃ id, cur db r cfg.user = some id := by
  obtain ⟨e, he, hr, _⟩ := hin.joined
  obtain ⟨x, hx, ht, hk, rfl⟩ := mem_mrows.1 he
  rw [← last_cur]
  cases hl : lastMember db r cfg.user with
  | some y => exact ⟨_, rfl⟩
  | none =>
    unfold lastMember at hl
    rw [List.getLast?_eq_none_iff, List.filter_eq_nil_iff] at hl
    exact absurd (by simp only [Bool.and_eq_true, decide_eq_true_eq, Bool.or_eq_true]; exact ⟨⟨⟨hr, Or.inr (hkey x hx hk)⟩, ht⟩, hk⟩) (hl x hx)

theorem cur_ne {ops : List Store.Op} (hok : ∀ o ∈ ops, Store.OkOp o) {r u id : String} (h : cur (Store.run ops) r u = some id) :
    (Store.run ops).cur r ≠ 0 := by
  have k1 := (Store.C40_current _ hok r).1
  rw [show (fun _ => true) = Store.always from rfl] at k1
  obtain ⟨n, s', hs', he', _⟩ := (k1 _ _).2 h
  have := ((Store.run_spec _ hok).inv.srange s' hs').1
  omega

theorem unregister_mem (us : List String) (u : String) : ∀ (s : Dispatcher.State) (out : List String), u ∈ out ∨ u ∈ s.receivers ∧ u ∈ us →
    u ∈ (us.foldl (fun (p : Dispatcher.State × List String) u =>
      if u ∈ p.1.receivers then ({ p.1 with receivers := p.1.receivers.filter (· ≠ u) }, p.2 ++ [u]) else p) (s, out)).2 := by
  induction us with
  | nil => intro s out h; rcases h with h | ⟨_, h⟩; exact h; cases h
  | cons v us ih =>
    intro s out h
    rw [List.foldl_cons]
    by_cases hv : v ∈ s.receivers
    · rw [if_pos hv]
      apply ih
      rcases h with h | ⟨h1, h2⟩
      · exact Or.inl (by simp [h])
      · by_cases he : u = v
        · exact Or.inl (by simp [he])
        · exact Or.inr ⟨by simp [h1, he], by simpa [he] using h2⟩
    · rw [if_neg hv]
      apply ih
      rcases h with h | ⟨h1, h2⟩
      · exact Or.inl h
      · rcases List.mem_cons.1 h2 with rfl | h2
        · exact absurd h1 hv
        · exact Or.inr ⟨h1, h2⟩

theorem inval_drops {cfg : Cfg} {s : State} {ops : List Store.Op} (hdb : s.db = Store.run ops) (hok : ∀ o ∈ ops, Store.OkOp o) {r id : String}
    (hcur : cur s.db r cfg.user = some id) (hrec : cfg.user ∈ s.disp.receivers) : (handle cfg s (.inval r)).conn = none := by
  simp only [handle]
  rw [if_pos]
  rw [unregister_eq]
  refine unregister_mem _ _ _ _ (Or.inr ⟨hrec, ?_⟩)
  rw [hdb] at hcur ⊢
  simp only [List.mem_append, mem_members hok]
  by_cases h1 : cfg.mem id = "join"
  · exact Or.inl (Or.inl ⟨id, hcur, by simp [h1]⟩)
  · by_cases h2 : cfg.mem id = "invite"
    · exact Or.inl (Or.inr ⟨id, hcur, by simp [h2]⟩)
    · exact Or.inr ⟨id, hcur, by simp [h1, h2]⟩

/-! ## The first message of a room -/

theorem publish_init {db : DB} {r : String} (h0 : db.cur r ≠ 0) (o : Store.Op) : ∀ n, Msg.init r n ∉ publish db o := by
  intro n hm
  cases o with
  | acc room skip limited timeline =>
    simp only [publish] at hm
    split at hm
    · cases hm
    · split at hm
      · simp at hm
      · cases hm
  | init room skip block =>
    simp only [publish] at hm
    split at hm
    · cases hm
    · split at hm
      · cases hm
      · split at hm
        · simp at hm
        · rename_i hz
          simp only [List.mem_singleton, Msg.init.injEq] at hm
          exact hz (by rw [← hm.1]; exact h0)

theorem not_resets {r : String} {m : Msg} (h1 : ∀ n, m ≠ .init r n) (h2 : m ≠ .inval r) : ¬ resets r m := by
  cases m with
  | acc => exact fun h => h
  | init r' n => exact fun h : r' = r => h1 n (by rw [h])
  | inval r' => exact fun h : r' = r => h2 (by rw [h])

/-! ## The invariant -/

theorem main_blocks {cfg : Cfg} (hu : cfg.user ≠ Dispatcher.allUsers) (hu0 : cfg.user ≠ "") {pre : List Op} {r : String}
    (hbus : ∀ n, Msg.init r n ∉ (run cfg {} pre).bus) (hj : cfg.user ∈ (run cfg {} pre).disp.jrt.joinedUsers r) (post : List Op) :
    (∀ o ∈ polls (pre ++ .open :: post), Store.OkOp o) → (∀ o ∈ polls (pre ++ .open :: post), NoKey o) → (∀ o ∈ post, OneConn o) →
    In cfg (run cfg {} (pre ++ .open :: post)).db r (run cfg {} pre).handed →
    ((run cfg {} (pre ++ .open :: post)).conn = none ∨ After cfg r (run cfg {} pre).handed (run cfg {} (pre ++ .open :: post))) ∧
      ∀ n, Msg.init r n ∉ (run cfg {} (pre ++ .open :: post)).bus := by
  induction post using Util.snocRec with
  | nil =>
    intro _ _ _ _
    rw [show run cfg {} (pre ++ [Op.open]) = step cfg (run cfg {} pre) .open by simp [run]]
    exact ⟨Or.inr (after_open hj), hbus⟩
  | append_singleton post o ih =>
    intro hok hnk hpost hin
    have hR := reach cfg (pre ++ .open :: post)
    have he : pre ++ .open :: (post ++ [o]) = (pre ++ .open :: post) ++ [o] := by simp
    rw [he] at hok hnk hin ⊢
    have hrun : run cfg {} ((pre ++ .open :: post) ++ [o]) = step cfg (run cfg {} (pre ++ .open :: post)) o := by simp [run]
    rw [hrun] at hin ⊢
    have hok' : ∀ o ∈ polls (pre ++ .open :: post), Store.OkOp o := fun x hx => hok x (by rw [polls_append]; exact List.mem_append_left _ hx)
    have hnk' : ∀ o ∈ polls (pre ++ .open :: post), NoKey o := fun x hx => hnk x (by rw [polls_append]; exact List.mem_append_left _ hx)
    have ih := ih hok' hnk' fun x hx => hpost x (List.mem_append_left _ hx)
    have ho := hpost o (by simp)
    have hds : (run cfg {} pre).handed ≤ (run cfg {} (pre ++ .open :: post)).db.seq :=
      Nat.le_trans ((reach cfg pre).base.bus.le_seq (reach cfg pre).base.ti) (seq_mono cfg pre _)
    generalize run cfg {} (pre ++ .open :: post) = s at ih hR hin hds
    generalize (run cfg {} pre).handed = d at ih hin hds
    have hhs := hR.base.bus.le_seq hR.base.ti
    have hcur : In cfg s.db r d → ∃ id, cur s.db r cfg.user = some id := by
      intro h
      refine in_cur ?_ h
      rw [hR.db]
      exact user_key hu0 hnk'
    cases o with
    | poll o =>
      obtain ⟨_, _, new, k1, k2, _⟩ := poll_new hR.base.ti o
      have hin' : In cfg s.db r d := In.back k1 k2 hds hin
      obtain ⟨id, hid⟩ := hcur hin'
      obtain ⟨h1, h2⟩ := ih hin'
      refine ⟨h1.imp id' fun h1 => ⟨h1.1, fun c hc => ?_⟩, fun n hm => ?_⟩
      · obtain ⟨e1, e2, e3⟩ := h1.2 c hc
        exact ⟨e1, e2, poll_ok hR.base.ti hhs e3 o⟩
      · rcases List.mem_append.1 hm with hm | hm
        · exact h2 n hm
        · refine publish_init ?_ o n hm
          rw [hR.db] at hid ⊢
          exact cur_ne hok' hid
    | recv =>
      cases hb : s.bus with
      | nil =>
        have hstep : step cfg s .recv = s := by simp only [step, hb]
        rw [hstep] at hin ⊢
        exact ih hin
      | cons m rest =>
        have hstep : step cfg s .recv = handle cfg { s with bus := rest } m := by simp only [step, hb]
        rw [hstep] at hin ⊢
        have hB : Base { s with bus := rest } (pend (m :: rest)) := by rw [← hb]; exact ⟨hR.base.ti, hR.base.bus, hR.base.jrt⟩
        obtain ⟨h1, h2, h3⟩ := handle_base (cfg := cfg) hB
        rw [h2] at hin
        obtain ⟨k1, k2⟩ := ih hin
        rw [hb] at k2
        refine ⟨?_, ?_⟩
        · rcases Option.eq_none_or_eq_some s.conn with hcn | ⟨c, hcn⟩
          · left
            rcases Option.eq_none_or_eq_some (handle cfg { s with bus := rest } m).conn with hh | ⟨c', hh⟩
            · exact hh
            · obtain ⟨c, _, hc, _⟩ := handle_conn hh
              rw [show ({ s with bus := rest } : State).conn = s.conn from rfl, hcn] at hc
              cases hc
          · have ha : After cfg r d s := by
              rcases k1 with h | h
              · rw [hcn] at h; cases h
              · exact h
            by_cases hm : m = .inval r
            · left
              subst hm
              obtain ⟨id, hid⟩ := hcur hin
              exact inval_drops (s := { s with bus := rest }) hR.db hok' hid (ha.2 c hcn).1
            · right
              exact handle_after hu hB (not_resets (fun n h => k2 n (by simp [h])) hm) hin ⟨ha.1, ha.2⟩
        · rw [h3]
          exact fun n hx => k2 n (List.mem_cons_of_mem _ hx)
    | «open» => exact ho.elim
    | restart => exact ⟨Or.inl rfl, fun n hn => by cases hn⟩
    | request xs =>
      obtain ⟨h1, h2⟩ := ih hin
      refine ⟨?_, h2⟩
      rcases h1 with h1 | h1
      · left; simp only [step, h1, Option.map_none]
      · right
        refine ⟨h1.1, fun c' hc' => ?_⟩
        simp only [step, Option.map_eq_some_iff] at hc'
        obtain ⟨c, hc, rfl⟩ := hc'
        obtain ⟨e1, e2, e3⟩ := h1.2 c hc
        refine ⟨e1, e2, ?_⟩
        have hin : In cfg s.db r d := hin
        have hh := hR.base.bus.handed
        simp only [step]
        rw [hR.db] at hin e3 hh ⊢
        exact request_ok hok' hin h1.1 hh e3 xs ho
    | take vis xs =>
      obtain ⟨h1, h2⟩ := ih hin
      refine ⟨?_, h2⟩
      rcases h1 with h1 | h1
      · left; simp only [step, h1, Option.map_none]
      · right
        refine ⟨h1.1, fun c' hc' => ?_⟩
        simp only [step, Option.map_eq_some_iff] at hc'
        obtain ⟨c, hc, rfl⟩ := hc'
        obtain ⟨e1, e2, e3⟩ := h1.2 c hc
        exact ⟨e1, e2, take_ok hR.base.ti hin hhs e3 vis xs ho⟩
where id' {p : Prop} (h : p) : p := h

/-! ## State blocks without new events -/

theorem init_same {ops : List Store.Op} (hok : ∀ o ∈ ops, Store.OkOp o) {room : String} {skip : Nat} {block : List (Option Ev)}
    (ho : Store.OkOp (.init room skip block))
    (he : (Store.step (Store.run ops) (.init room skip block)).cur room = (Store.run ops).cur room) :
    (Store.step (Store.run ops) (.init room skip block)).rows.map Row.core = (Store.run ops).rows.map Row.core := by
  have hok' : ∀ x ∈ ops ++ [.init room skip block], Store.OkOp x := fun x hx => by
    rcases List.mem_append.1 hx with hx | hx
    · exact hok x hx
    · rw [List.mem_singleton] at hx; subst hx; exact ho
  have hrun : Store.step (Store.run ops) (.init room skip block) = Store.run (ops ++ [.init room skip block]) := by simp [Store.run]
  have hRel := Store.run_spec _ hok
  obtain ⟨hRel', hE⟩ := Store.step_spec hRel _ ho
  obtain ⟨_, _, new, e2, e3, _⟩ := Store.initialise_spec hRel room skip block ho
  have k1 := (Store.C40_current _ hok room).1
  have k2 := (Store.C40_current _ hok' room).1
  rw [show (fun _ => true) = Store.always from rfl] at k1
  rw [← hrun, show (fun _ => true) = Store.always from rfl, he] at k2
  have hle := (hRel.cur room).le hRel.inv
  generalize Store.run ops = db at *
  generalize Store.step db (.init room skip block) = db' at *
  rcases new.eq_nil_or_concat with h0 | ⟨new0, x, rfl⟩
  · rw [e2, h0, List.map_nil, List.append_nil]
  · exfalso
    have hx := e3 x (by simp)
    -- the last new event is in the snapshot, which was there before
    have hrep : Store.replay db'.rows room Store.always x.ev.key = some x.ev.id := by
      rw [Store.replay_core, e2, Store.replayC_append, fold_last]
      simp [Store.always, List.filter_append, Row.core, hx.1, hx.2]
    obtain ⟨n, hn⟩ := (k2 _ _).2 hrep
    rw [hE.at hRel.inv hle] at hn
    obtain ⟨_, _, _, y, hy, _, _, hyi, _⟩ := hn
    have hids := hRel'.inv.ids
    have : (db'.rows.map (·.ev.id)) = (db'.rows.map Row.core).map (·.2.2.1.id) := by simp [Row.core]
    rw [this, e2, List.map_append, List.nodup_append] at hids
    exact hids.2.2 x.ev.id (by rw [List.map_map]; exact List.mem_map.2 ⟨y, hy, hyi⟩) x.ev.id (by simp [Row.core]) rfl

theorem poll_blocks {ops : List Store.Op} (hok : ∀ o ∈ ops, Store.OkOp o) {o : Store.Op} (hoo : Store.OkOp o) {r : String}
    (h0 : (Store.run ops).cur r ≠ 0) (hp : Msg.inval r ∉ publish (Store.run ops) o) :
    (Store.run ops).seq ≤ (Store.step (Store.run ops) o).seq ∧ ∃ new : List Row,
      (Store.step (Store.run ops) o).rows.map Row.core = (Store.run ops).rows.map Row.core ++ new.map Row.core ∧
      (∀ x ∈ new, (Store.run ops).seq < x.nid) ∧ ∀ x ∈ new, x.room = r → x.isState = false := by
  by_cases ho : OkOp r (.poll o)
  · exact poll_rows hok hoo ho
  · cases o with
    | acc room skip limited timeline => exact absurd trivial ho
    | init room skip block =>
      have hr : room = r := Classical.byContradiction fun h => ho h
      subst hr
      refine ⟨(poll_new (Store.run_table ops) _).2.1, [], ?_, nofun, nofun⟩
      rw [List.map_nil, List.append_nil]
      by_cases hi : ∃ db', Store.initialise (Store.run ops) room skip block = some db'
      · obtain ⟨db', hi⟩ := hi
        apply init_same hok hoo
        apply Classical.byContradiction
        intro hc
        apply hp
        simp only [Store.step, hi, Option.getD_some] at hc
        simp only [publish, hi]
        rw [if_neg hc, if_pos h0]
        exact List.mem_singleton_self _
      · have : Store.initialise (Store.run ops) room skip block = none := by
          rcases Option.eq_none_or_eq_some (Store.initialise (Store.run ops) room skip block) with h | h
          · exact h
          · exact absurd h hi
        simp [Store.step, this]

/-! ## The state -/

theorem main_si_blocks {cfg : Cfg} (hu : cfg.user ≠ Dispatcher.allUsers) (hu0 : cfg.user ≠ "") {pre : List Op} {r : String}
    (hbus : ∀ n, Msg.init r n ∉ (run cfg {} pre).bus) (hj : cfg.user ∈ (run cfg {} pre).disp.jrt.joinedUsers r) (post : List Op) :
    (∀ o ∈ polls (pre ++ .open :: post), Store.OkOp o) → (∀ o ∈ polls (pre ++ .open :: post), NoKey o) → (∀ o ∈ post, OneConn o) →
    In cfg (run cfg {} (pre ++ .open :: post)).db r (run cfg {} pre).handed →
    Msg.inval r ∈ (run cfg {} (pre ++ .open :: post)).bus ∨ ∀ c, (run cfg {} (pre ++ .open :: post)).conn = some c →
      SI (run cfg {} (pre ++ .open :: post)).db r (run cfg {} pre).handed c := by
  induction post using Util.snocRec with
  | nil =>
    intro _ _ _ _
    right
    intro c hc
    rw [show run cfg {} (pre ++ [Op.open]) = step cfg (run cfg {} pre) .open by simp [run]] at hc ⊢
    simp only [step, Option.some.injEq] at hc
    subst hc
    exact ⟨fun _ => rfl, fun h => absurd rfl h, nofun⟩
  | append_singleton post o ih =>
    intro hok hnk hpost hin
    have hR := reach cfg (pre ++ .open :: post)
    have he : pre ++ .open :: (post ++ [o]) = (pre ++ .open :: post) ++ [o] := by simp
    rw [he] at hok hnk hin ⊢
    have hrun : run cfg {} ((pre ++ .open :: post) ++ [o]) = step cfg (run cfg {} (pre ++ .open :: post)) o := by simp [run]
    rw [hrun] at hin ⊢
    have hok' : ∀ o ∈ polls (pre ++ .open :: post), Store.OkOp o := fun x hx => hok x (by rw [polls_append]; exact List.mem_append_left _ hx)
    have hnk' : ∀ o ∈ polls (pre ++ .open :: post), NoKey o := fun x hx => hnk x (by rw [polls_append]; exact List.mem_append_left _ hx)
    have hpost' : ∀ o ∈ post, OneConn o := fun x hx => hpost x (List.mem_append_left _ hx)
    have hm := main_blocks hu hu0 hbus hj post hok' hnk' hpost'
    have ih := ih hok' hnk' hpost'
    have ho := hpost o (by simp)
    have hds : (run cfg {} pre).handed ≤ (run cfg {} (pre ++ .open :: post)).db.seq :=
      Nat.le_trans ((reach cfg pre).base.bus.le_seq (reach cfg pre).base.ti) (seq_mono cfg pre _)
    generalize run cfg {} (pre ++ .open :: post) = s at ih hR hin hds hm
    generalize (run cfg {} pre).handed = d at ih hin hds hm
    have hhs := hR.base.bus.le_seq hR.base.ti
    have hcur : In cfg s.db r d → ∃ id, cur s.db r cfg.user = some id := by
      intro h
      refine in_cur ?_ h
      rw [hR.db]
      exact user_key hu0 hnk'
    have hmc : In cfg s.db r d → ∀ c, s.conn = some c → After cfg r d s := fun h c hc => by
      rcases (hm h).1 with h | h
      · rw [hc] at h; cases h
      · exact h
    cases o with
    | poll o =>
      have hoo : Store.OkOp o := hok o (by rw [polls_append]; exact List.mem_append_right _ (by simp [polls]))
      obtain ⟨_, _, new, k1, k2, _⟩ := poll_new hR.base.ti o
      have hin' : In cfg s.db r d := In.back k1 k2 hds hin
      by_cases hp : Msg.inval r ∈ publish s.db o
      · left; exact List.mem_append_right _ hp
      · rcases ih hin' with ih | ih
        · left; exact List.mem_append_left _ ih
        · right
          intro c' hc'
          obtain ⟨_, _, e3⟩ := (hmc hin' c' hc').2 c' hc'
          have hsi := ih c' hc'
          obtain ⟨id, hid⟩ := hcur hin'
          simp only [step]
          have hv := view_le e3
          rw [hR.db] at hsi hv hid hp ⊢
          obtain ⟨g1, new, g2, g3, g4⟩ := poll_blocks hok' hoo (cur_ne hok' hid) hp
          exact hsi.grow g2 g3 g1 g4 hv
    | recv =>
      cases hb : s.bus with
      | nil =>
        have hstep : step cfg s .recv = s := by simp only [step, hb]
        rw [hstep] at hin ⊢
        exact ih hin
      | cons m rest =>
        have hstep : step cfg s .recv = handle cfg { s with bus := rest } m := by simp only [step, hb]
        rw [hstep] at hin ⊢
        have hB : Base { s with bus := rest } (pend (m :: rest)) := by rw [← hb]; exact ⟨hR.base.ti, hR.base.bus, hR.base.jrt⟩
        obtain ⟨_, h2, h3⟩ := handle_base (cfg := cfg) hB
        rw [h2] at hin ⊢
        rw [h3]
        by_cases hrest : Msg.inval r ∈ rest
        · exact Or.inl hrest
        · right
          intro c' hc'
          obtain ⟨c, q, hc, rfl⟩ := handle_conn hc'
          by_cases hmi : m = .inval r
          · subst hmi
            obtain ⟨id, hid⟩ := hcur hin
            have := inval_drops (s := { s with bus := rest }) hR.db hok' hid ((hmc hin c hc).2 c hc).1
            rw [hc'] at this
            cases this
          · rcases ih hin with ih | ih
            · rw [hb] at ih
              rcases List.mem_cons.1 ih with ih | ih
              · exact absurd ih.symm hmi
              · exact absurd ih hrest
            · exact (ih c hc).queue q
    | «open» => exact ho.elim
    | restart => exact Or.inr fun c hc => by cases hc
    | request xs =>
      rcases ih hin with ih | ih
      · exact Or.inl ih
      · right
        intro c' hc'
        simp only [step, Option.map_eq_some_iff] at hc'
        obtain ⟨c, hc, rfl⟩ := hc'
        have hin : In cfg s.db r d := hin
        have h1 := hmc hin c hc
        obtain ⟨_, _, e3⟩ := h1.2 c hc
        have hsi := ih c hc
        have hh := hR.base.bus.handed
        simp only [step]
        rw [hR.db] at hin e3 hh hsi ⊢
        exact request_si hok' hin h1.1 hh e3 (fun a ha => in_base hu0 hok' hnk' hin ha) hsi xs ho
    | take vis xs =>
      rcases ih hin with ih | ih
      · exact Or.inl ih
      · right
        intro c' hc'
        simp only [step, Option.map_eq_some_iff] at hc'
        obtain ⟨c, hc, rfl⟩ := hc'
        have hin : In cfg s.db r d := hin
        obtain ⟨_, _, e3⟩ := (hmc hin c hc).2 c hc
        have hsi := ih c hc
        have hb : ∀ a, d ≤ a → BaseOk s.db r a (stateOf s.db r a) := by
          rw [hR.db] at hin ⊢
          exact fun a ha => in_base hu0 hok' hnk' hin ha
        exact take_si hR.base.ti hin hhs e3 hb hsi vis xs ho

/-! ## The properties -/

/-- **C114**, with state blocks and restarts: whatever the pollers store before and after the connection is made, state blocks for the room
included, and in whatever order messages are taken, requests handled and updates taken: the timeline that a client has of a room over a connection that
is not closed is a stretch of the room's stored timeline with nothing left out, and every event behind it is in a message not yet taken or in the queue.
(A state block with new events for the room closes the connection when its message is taken.)

Partial: the user must have been in the room, as the store and the dispatcher see it, when the connection was made, and must not leave it since, and
rooms must be loaded with at least one event, see `C114_violated_zero`. -/
theorem C114_blocks_partial (cfg : Cfg) (hu : cfg.user ≠ Dispatcher.allUsers) (hu0 : cfg.user ≠ "") (pre post : List Op)
    (hok : ∀ o ∈ polls (pre ++ .open :: post), Store.OkOp o) (hnk : ∀ o ∈ polls (pre ++ .open :: post), NoKey o)
    (hk : ∀ o ∈ polls pre, KeyOk o) (hpost : ∀ o ∈ post, OneConn o) (r : String) (hj : cfg.user ∈ (run cfg {} pre).disp.jrt.joinedUsers r)
    (hin : In cfg (run cfg {} (pre ++ .open :: post)).db r (run cfg {} pre).handed)
    (c : Conn) (hc : (run cfg {} (pre ++ .open :: post)).conn = some c) (l : List Nat) (hv : c.view r = some l) :
    ∃ before after, posOf (run cfg {} (pre ++ .open :: post)).db r = before ++ l ++ after ∧
      (∀ e ∈ after, (l = [] → (run cfg {} pre).handed < e) → Pending (run cfg {} (pre ++ .open :: post)) c r e) ∧
      (l = [] → before = []) := by
  have hokp : ∀ o ∈ polls pre, Store.OkOp o := fun o ho => hok o (by rw [polls_append]; exact List.mem_append_left _ ho)
  rcases (main_blocks hu hu0 (no_init cfg pre hokp hk hj) hj post hok hnk hpost hin).1 with h | h
  · rw [hc] at h; cases h
  · exact after_stretch (reach cfg (pre ++ .open :: post)) h hc hv

/-- **C116**, with state blocks and restarts: under every key, the state event stored last for the room is what the client of a connection that is not
closed has, or that event is in a message not yet taken or in the connection's queue, or the message that closes the connection has not been taken yet.

Partial: under the conditions of `C114_blocks_partial`. -/
theorem C116_blocks_partial (cfg : Cfg) (hu : cfg.user ≠ Dispatcher.allUsers) (hu0 : cfg.user ≠ "") (pre post : List Op)
    (hok : ∀ o ∈ polls (pre ++ .open :: post), Store.OkOp o) (hnk : ∀ o ∈ polls (pre ++ .open :: post), NoKey o)
    (hk : ∀ o ∈ polls pre, KeyOk o) (hpost : ∀ o ∈ post, OneConn o) (r : String) (hj : cfg.user ∈ (run cfg {} pre).disp.jrt.joinedUsers r)
    (hin : In cfg (run cfg {} (pre ++ .open :: post)).db r (run cfg {} pre).handed)
    (c : Conn) (hc : (run cfg {} (pre ++ .open :: post)).conn = some c) (b : List Row) (hb : c.base r = some b) (k : Store.Key) :
    Msg.inval r ∈ (run cfg {} (pre ++ .open :: post)).bus ∨
    (∃ x, lastState (run cfg {} (pre ++ .open :: post)).db r k = some x ∧ Pending (run cfg {} (pre ++ .open :: post)) c r x.nid) ∨
    ∀ id, id ∈ clientState (run cfg {} (pre ++ .open :: post)).db (c.live r) b k ↔
      (lastState (run cfg {} (pre ++ .open :: post)).db r k).map (·.ev.id) = some id := by
  have hokp : ∀ o ∈ polls pre, Store.OkOp o := fun o ho => hok o (by rw [polls_append]; exact List.mem_append_left _ ho)
  rcases main_si_blocks hu hu0 (no_init cfg pre hokp hk hj) hj post hok hnk hpost hin with h | h
  · exact Or.inl h
  · exact Or.inr (si_state (reach cfg (pre ++ .open :: post)) (h c hc)
      (fun l hl => C114_blocks_partial cfg hu hu0 pre post hok hnk hk hpost r hj hin c hc l hl) hb k)

/-- When all messages and updates are taken, a client whose connection was not closed has the end of the room's timeline and exactly the current state
of the room, whatever the pollers stored. -/
theorem C116_blocks_up_to_date (cfg : Cfg) (hu : cfg.user ≠ Dispatcher.allUsers) (hu0 : cfg.user ≠ "") (pre post : List Op)
    (hok : ∀ o ∈ polls (pre ++ .open :: post), Store.OkOp o) (hnk : ∀ o ∈ polls (pre ++ .open :: post), NoKey o)
    (hk : ∀ o ∈ polls pre, KeyOk o) (hpost : ∀ o ∈ post, OneConn o) (r : String) (hj : cfg.user ∈ (run cfg {} pre).disp.jrt.joinedUsers r)
    (hin : In cfg (run cfg {} (pre ++ .open :: post)).db r (run cfg {} pre).handed)
    (c : Conn) (hc : (run cfg {} (pre ++ .open :: post)).conn = some c)
    (he : (run cfg {} (pre ++ .open :: post)).bus = []) (hq : c.queue = []) :
    (∀ l, c.view r = some l → l ≠ [] → l <:+ posOf (run cfg {} (pre ++ .open :: post)).db r) ∧
    ∀ b, c.base r = some b → ∀ k id, id ∈ clientState (run cfg {} (pre ++ .open :: post)).db (c.live r) b k ↔
      (lastState (run cfg {} (pre ++ .open :: post)).db r k).map (·.ev.id) = some id := by
  have hnp : ∀ e, ¬ Pending (run cfg {} (pre ++ .open :: post)) c r e := by
    rintro e (⟨y, hy, _⟩ | ⟨n, hn, _⟩)
    · rw [hq] at hy; cases hy
    · rw [he] at hn; cases hn
  constructor
  · intro l hv hl
    obtain ⟨b, t, h1, h2, _⟩ := C114_blocks_partial cfg hu hu0 pre post hok hnk hk hpost r hj hin c hc l hv
    have : t = [] := by
      cases t with
      | nil => rfl
      | cons e t => exact absurd (h2 e (by simp) (fun h => absurd h hl)) (hnp e)
    rw [h1, this, List.append_nil]
    exact ⟨b, rfl⟩
  · intro b hb k id
    rcases C116_blocks_partial cfg hu hu0 pre post hok hnk hk hpost r hj hin c hc b hb k with h | ⟨x, _, h⟩ | h
    · rw [he] at h; cases h
    · exact absurd h (hnp _)
    · exact h id

end Verif.EndToEnd
