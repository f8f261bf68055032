import Verif.EndToEndPrivacy
/-!
# C127: events and the memberships of the user
-/
namespace Verif.EndToEnd
open Verif.Store (DB Row TI St Ev)

/-! ## The connection -/

/-- What the connection has of the room, and will give to the client, may be seen. -/
structure ConnOk (cfg : Cfg) (db : DB) (r : String) (c : Conn) : Prop where
  queue : ∀ u ∈ c.queue, u.room = r → Ok cfg db r u.ev
  view : ∀ l, c.view r = some l → ∀ n ∈ l, Ok cfg db r n

theorem load1_ok {cfg : Cfg} {db : DB} (hI : TI db) {r : String} {c : Conn} (h : ConnOk cfg db r c) (x : String × Nat) : ConnOk cfg db r (load1 cfg db c x) := by
  unfold load1
  split
  · refine ⟨h.queue, fun l hl n hn => ?_⟩
    simp only [set] at hl
    split at hl
    · cases hl; cases hn
    · exact h.view l hl n hn
  · rename_i t ht
    refine ⟨h.queue, fun l hl n hn => ?_⟩
    simp only [set] at hl
    split at hl
    · rename_i hr
      cases hl
      obtain ⟨e, he, rfl⟩ := List.mem_map.1 hn
      obtain ⟨a, b, h1, h2, _⟩ := Visibility.C42_timeline ht
      have hm := List.mem_filter.1 (h2.subset he)
      simp only [Bool.and_eq_true, decide_eq_true_eq] at hm
      obtain ⟨y, hy, rfl⟩ := List.mem_map.1 hm.1
      have hp := hI.range y hy
      have := Visibility.C42_sound (mrows_sorted cfg hI) (rooms := [x.1]) (room := x.1) (by simp) (lo := 0) (hi := c.anchor) (by omega) (by omega) h1
        (p := (y.nid : Int)) (by omega) hm.2.1.1.1 hm.2.1.1.2
      subst hr
      refine ⟨by simpa using hp.2, ?_⟩
      rcases this.2.2 with hj | ⟨e, he, hr, hn, _⟩
      · exact Or.inl (joined_at.1 hj)
      · obtain ⟨z, hz, ht, hk, rfl⟩ := mem_mrows.1 he
        exact Or.inr ⟨z, hz, ⟨hr, ht, hk⟩, by simp only at hn; simp only [Int.toNat_natCast]; omega⟩
    · exact h.view l hl n hn

theorem loads_ok {cfg : Cfg} {db : DB} (hI : TI db) {r : String} (xs : List (String × Nat)) : ∀ {c : Conn}, ConnOk cfg db r c → ConnOk cfg db r (loads cfg db c xs) := by
  induction xs with
  | nil => exact fun h => h
  | cons x xs ih => exact fun h => ih (load1_ok hI h x)

theorem request_seen {cfg : Cfg} {db : DB} (hI : TI db) {r : String} {c : Conn} (h : ConnOk cfg db r c) (xs : List (String × Nat)) :
    ConnOk cfg db r (request cfg db c xs) := by
  unfold request
  apply loads_ok hI
  split
  · exact ⟨h.queue, h.view⟩
  · exact h

theorem take_seen {cfg : Cfg} {db : DB} (hI : TI db) {r : String} {c : Conn} (h : ConnOk cfg db r c) (vis : Bool) (xs : List (String × Nat)) :
    ConnOk cfg db r (take cfg db c vis xs) := by
  unfold take
  split
  · exact h
  · split
    · exact h
    · rename_i u q hq
      have hu : u.room = r → Ok cfg db r u.ev := h.queue u (by rw [hq]; simp)
      have h0 : ConnOk cfg db r { c with queue := q } := ⟨fun w hw => h.queue w (by rw [hq]; simp [hw]), h.view⟩
      unfold deliver
      split
      · exact h0
      · have h1 : ConnOk cfg db r (loads cfg db { c with queue := q, anchor := max c.anchor u.nid } xs) := loads_ok hI xs ⟨h0.queue, h0.view⟩
        simp only
        split
        · unfold append
          refine ⟨h1.queue, fun l hl n hn => ?_⟩
          simp only at hl
          split at hl
          · exact h1.view l hl n hn
          · simp only [set] at hl
            split at hl
            · rename_i hr
              cases hl
              rcases List.mem_append.1 hn with hn | hn
              · rw [← hr] at hn
                cases hw : (loads cfg db { c with queue := q, anchor := max c.anchor u.nid } xs).view r with
                | none => rw [hw] at hn; cases hn
                | some l => rw [hw] at hn; exact h1.view l hw n hn
              · rw [List.mem_singleton.1 hn]; exact hu hr.symm
            · exact h1.view l hl n hn
        · split
          · exact h1
          · refine ⟨h1.queue, fun l hl n hn => ?_⟩
            simp only [set] at hl
            split at hl
            · cases hl
            · exact h1.view l hl n hn

/-! ## The dispatcher -/

theorem give_seen {cfg : Cfg} (hu : cfg.user ≠ Dispatcher.allUsers) {s : Dispatcher.State} (hT : Tracker.Inv s.jrt) (room : String) (x : Row) (c : Conn) :
    ∃ L : List Upd, give cfg (Dispatcher.onNewEvent s room (toEvent cfg x) x.nid).2 c = { c with queue := c.queue ++ L } ∧
      ∀ u ∈ L, u = ⟨room, x.nid, x.nid⟩ ∧
        ((Dispatcher.saysEvent cfg.user (toEvent cfg x)).getD (Tracker.isUserJoined s.jrt cfg.user room) = true ∨
          (x.ev.type = "m.room.member" ∧ x.ev.stateKey = cfg.user)) := by
  refine ⟨_, rfl, fun u hu' => ?_⟩
  obtain ⟨d, hd, rfl⟩ := List.mem_map.1 hu'
  obtain ⟨hd, hto⟩ := List.mem_filter.1 hd
  simp only [Bool.and_eq_true, decide_eq_true_eq] at hto
  obtain ⟨f1, f2, f3⟩ := (event_fields s room (toEvent cfg x) x.nid).2 d hd
  refine ⟨by rw [f1, f2, f3]; simp [toEvent], ?_⟩
  obtain ⟨L, h1, _, h3, _⟩ := Dispatcher.event_recipients hT room (toEvent cfg x) x.nid
  have hm : d.to ∈ (if Dispatcher.allUsers ∈ s.receivers then [Dispatcher.allUsers] else []) ++ L := by
    rw [← h1]; exact List.mem_map_of_mem hd
  rw [hto.1] at hm
  have hL : cfg.user ∈ L := by
    rcases List.mem_append.1 hm with h | h
    · split at h
      · exact absurd (List.mem_singleton.1 h) hu
      · cases h
    · exact h
  have hsee := ((h3 _ hu).1 hL).2
  by_cases ht : x.ev.type = "m.room.member"
  · by_cases hk : x.ev.stateKey = cfg.user
    · exact Or.inr ⟨ht, hk⟩
    · left
      cases hh : x.ev.hasKey <;> simp [Dispatcher.MaySee, Dispatcher.saysEvent, Dispatcher.about, toEvent, ht, hh, hk] at hsee ⊢ <;>
        exact (Dispatcher.mem_joined_iff _ _ _).1 hsee
  · left
    simp [Dispatcher.MaySee, Dispatcher.saysEvent, Dispatcher.about, toEvent, ht] at hsee ⊢
    exact (Dispatcher.mem_joined_iff _ _ _).1 hsee

theorem fold_seen {cfg : Cfg} (hu : cfg.user ≠ Dispatcher.allUsers) {room r : String} {p : List (String × Nat)} (rows : List Row) : ∀ {s : State},
    Base s ((rows.map (·.nid)).map (room, ·) ++ p) → (∀ x ∈ rows, x ∈ s.db.rows ∧ x.room = room) →
    (room = r → walk cfg s.db r (Tracker.isUserJoined s.disp.jrt cfg.user r) rows) → (∀ c, s.conn = some c → ConnOk cfg s.db r c) →
    ∀ c, ((rows.map fun x => (x, x.nid)).foldl (dispatch cfg room) s).conn = some c → ConnOk cfg s.db r c := by
  induction rows with
  | nil => intro s _ _ _ hc; exact hc
  | cons x rows ih =>
    intro s hb hr hw hc
    obtain ⟨h1, h2, _⟩ := dispatch_base (cfg := cfg) hb
    have hj : Tracker.isUserJoined (dispatch cfg room s (x, x.nid)).disp.jrt cfg.user r =
        (if room = r then Dispatcher.saysEvent cfg.user (toEvent cfg x) else none).getD (Tracker.isUserJoined s.disp.jrt cfg.user r) :=
      Dispatcher.says_event _ _ _ _ _ _
    have := ih (s := dispatch cfg room s (x, x.nid)) h1 (fun y hy => by rw [h2]; exact hr y (by simp [hy])) (fun hroom => by
      rw [h2, hj, if_pos hroom]
      exact (hw hroom).2) (by
      intro c hc'
      rw [h2]
      simp only [dispatch, Option.map_eq_some_iff] at hc'
      obtain ⟨c0, hc0, rfl⟩ := hc'
      obtain ⟨L, e1, e2⟩ := give_seen hu hb.jrt room x c0
      have k := hc c0 hc0
      rw [e1]
      refine ⟨fun u hu' hur => ?_, k.view⟩
      rcases List.mem_append.1 hu' with hu' | hu'
      · exact k.queue u hu' hur
      · obtain ⟨rfl, hs⟩ := e2 u hu'
        simp only at hur
        have hx := hr x (by simp)
        refine ⟨(hb.ti.range x hx.1).2, ?_⟩
        rcases hs with hs | hs
        · left
          refine (hw hur).1 ?_
          rw [← hur]; exact hs
        · exact Or.inr ⟨x, hx.1, ⟨hx.2.trans hur, hs⟩, rfl⟩)
    rw [h2] at this
    exact this

/-! ## The invariant -/

structure PI (cfg : Cfg) (r : String) (s : State) : Prop where
  later : later cfg s.db s.disp.jrt s.bus cfg.user r = true → JoinedThen cfg s.db r s.db.seq
  good : Good cfg s.db r (Tracker.isUserJoined s.disp.jrt cfg.user r) s.bus
  conn : ∀ c, s.conn = some c → ConnOk cfg s.db r c

/-- A snapshot says that a user is joined only if the user's last member event is a join. -/
theorem snap_from {cfg : Cfg} {ops : List Store.Op} (hok : ∀ o ∈ ops, Store.OkOp o) {r : String} (h0 : (Store.run ops).cur r ≠ 0) (u : String)
    (h : (Store.stripped (Store.run ops) ((Store.run ops).cur r)).bind (says cfg u) = some true) :
    ∃ id, cur (Store.run ops) r u = some id ∧ cfg.mem id = "join" := by
  have hR := Store.run_spec ops hok
  have hH := (Store.C40_current ops hok r).1
  rw [show (fun _ => true) = Store.always from rfl] at hH
  generalize Store.run ops = db at *
  obtain ⟨s, hs, he⟩ : ∃ s ∈ db.snaps, s.id = db.cur r := by
    have hc := hR.cur r
    cases hf : (Store.specRun ops).cur r with
    | none => rw [hf] at hc; exact absurd hc h0
    | some g => rw [hf] at hc; obtain ⟨⟨s, h1, h2, _⟩, _⟩ := hc; exact ⟨s, h1, h2⟩
  rw [← he, Store.stripped_spec hR.inv hs, Option.bind_some] at h
  obtain ⟨x, hx, hsx⟩ := List.mem_filterMap.1 (List.mem_of_getLast? h)
  simp only [List.mem_filter, decide_eq_true_eq] at hx
  rw [says_row] at hsx
  split at hsx
  · rename_i hk
    refine ⟨x.ev.id, (hH _ _).1 ⟨x.nid, s, hs, he, x, hx.1, hx.2, hk.2, rfl, rfl⟩, ?_⟩
    unfold verdict at hsx
    split at hsx
    · assumption
    · split at hsx <;> cases hsx
  · cases hsx

/-- The events of a timeline that was just stored are read back. -/
theorem select_post {db db' : DB} (hI : TI db) {post : List Row} (e2 : db'.rows.map Row.core = db.rows.map Row.core ++ post.map Row.core)
    (hgt : ∀ x ∈ post, db.seq < x.nid) : ∃ rows, Store.selectByNIDs db' (post.map (·.nid)) = some rows ∧ rows.map Row.core = post.map Row.core := by
  have hf : (db'.rows.filter fun x => decide (x.nid ∈ post.map (·.nid))).map Row.core = post.map Row.core := by
    have h1 : (db'.rows.filter fun x => decide (x.nid ∈ post.map (·.nid))).map Row.core =
        (db'.rows.map Row.core).filter fun c => decide (c.1 ∈ post.map (·.nid)) := by rw [List.filter_map]; rfl
    rw [h1, e2, List.filter_append]
    have h2 : (db.rows.map Row.core).filter (fun c => decide (c.1 ∈ post.map (·.nid))) = [] := by
      rw [List.filter_eq_nil_iff]
      intro c hc
      obtain ⟨x, hx, rfl⟩ := List.mem_map.1 hc
      simp only [decide_eq_true_eq]
      intro hm
      obtain ⟨y, hy, he⟩ := List.mem_map.1 hm
      have := hgt y hy
      have := (hI.range x hx).2
      simp only [Row.core] at he
      omega
    have h3 : (post.map Row.core).filter (fun c => decide (c.1 ∈ post.map (·.nid))) = post.map Row.core := by
      rw [List.filter_eq_self]
      intro c hc
      obtain ⟨x, hx, rfl⟩ := List.mem_map.1 hc
      simp only [decide_eq_true_eq]
      exact List.mem_map.2 ⟨x, hx, rfl⟩
    rw [h2, h3, List.nil_append]
  refine ⟨_, ?_, hf⟩
  have hl := congrArg List.length hf
  rw [List.length_map, List.length_map] at hl
  unfold Store.selectByNIDs
  rw [if_neg]
  rw [List.length_map, hl]; simp

theorem pi_poll {cfg : Cfg} {ops : List Op} {s : State} (hR : Reach s ops) (o : Store.Op) (hok : ∀ o ∈ polls ops, Store.OkOp o) (ho : Store.OkOp o) (hM : MI cfg s)
    {r : String} (hk : ∀ x ∈ (Store.step s.db o).rows, x.ev.stateKey = cfg.user → x.ev.hasKey = true) (h : PI cfg r s) : PI cfg r (step cfg s (.poll o)) := by
  have hok' : ∀ x ∈ polls ops ++ [o], Store.OkOp x := fun x hx => by
    rcases List.mem_append.1 hx with hx | hx
    · exact hok x hx
    · rw [List.mem_singleton] at hx; subst hx; exact ho
  have hrun : Store.step s.db o = Store.run (polls ops ++ [o]) := by rw [hR.db]; simp [Store.run]
  have hRel := Store.run_spec _ hok
  rw [← hR.db] at hRel
  obtain ⟨hRel', hE⟩ := Store.step_spec hRel o ho
  have hI := hR.base.ti
  have hmm' : cfg.user ∈ membersWith cfg (Store.step s.db o) r (· == "join") → ∃ id, cur (Store.step s.db o) r cfg.user = some id ∧ cfg.mem id = "join" := by
    rw [hrun]; intro h; simpa using (mem_members (cfg := cfg) (r := r) (u := cfg.user) (p := (· == "join")) hok').1 h
  obtain ⟨hI', hseq, new, he, hn, hpd⟩ := poll_new hI o
  have hg := grown he hn hseq
  have hjoin : ∀ id, cur (Store.step s.db o) r cfg.user = some id → cfg.mem id = "join" → JoinedThen cfg (Store.step s.db o) r (Store.step s.db o).seq :=
    fun id h1 h2 => cur_join hI' hk h1 h2 (Nat.le_refl _)
  have hgrow := later_grow (cfg := cfg) hRel.inv hRel'.inv hE (r := r) s.disp.jrt s.bus hM.valid
  have hold : later cfg (Store.step s.db o) s.disp.jrt s.bus cfg.user r = true →
      JoinedThen cfg (Store.step s.db o) r s.db.seq ∨ JoinedThen cfg (Store.step s.db o) r (Store.step s.db o).seq := by
    intro hl
    rcases hgrow.1 hl with hl | hl
    · exact Or.inl ((h.later hl).grow hg (Nat.le_refl _))
    · obtain ⟨id, h1, h2⟩ := hmm' hl
      exact Or.inr (hjoin id h1 h2)
  have hquiet : (∀ y ∈ (Store.step s.db o).rows, Member cfg r y → y.nid ≤ s.db.seq) →
      later cfg (Store.step s.db o) s.disp.jrt s.bus cfg.user r = true → JoinedThen cfg (Store.step s.db o) r (Store.step s.db o).seq := by
    intro hq hl
    rcases hold hl with hj | hj
    · exact hj.on hseq fun y hy hm hlt _ => by have := hq y hy hm; omega
    · exact hj
  have hother : (∀ x ∈ new, x.room ≠ r) → ∀ y ∈ (Store.step s.db o).rows, Member cfg r y → y.nid ≤ s.db.seq := by
    intro hne y hy hm
    have hy' : y.core ∈ s.db.rows.map Row.core ++ new.map Row.core := by rw [← he]; exact List.mem_map_of_mem hy
    rcases List.mem_append.1 hy' with h | h
    · obtain ⟨x, hx, hc⟩ := List.mem_map.1 h
      have := (hI.range x hx).2
      have := (Store.core_eq hc).1
      omega
    · obtain ⟨x, hx, hc⟩ := List.mem_map.1 h
      exact absurd ((Store.core_eq hc).2.1.trans hm.1) (hne x hx)
  have hgood : Good cfg (Store.step s.db o) r (Tracker.isUserJoined s.disp.jrt cfg.user r) s.bus :=
    good_grow hRel.inv hRel'.inv hE hg he hn s.bus _ hM.valid h.good
  have hconn : ∀ c, s.conn = some c → ConnOk cfg (Store.step s.db o) r c := fun c hc =>
    ⟨fun u hu hur => ((h.conn c hc).queue u hu hur).grow hg, fun l hl n hn => ((h.conn c hc).view l hl n hn).grow hg⟩
  suffices H : (later cfg (Store.step s.db o) s.disp.jrt (s.bus ++ publish s.db o) cfg.user r = true → JoinedThen cfg (Store.step s.db o) r (Store.step s.db o).seq) ∧
      Good cfg (Store.step s.db o) r (Tracker.isUserJoined s.disp.jrt cfg.user r) (s.bus ++ publish s.db o) from ⟨H.1, H.2, hconn⟩
  cases o with
  | acc room skip limited timeline =>
    obtain ⟨db', post, e1, _, _, e2, e3, _⟩ := Store.accumulate_spec hRel room skip limited timeline ho
    have hdb : Store.step s.db (.acc room skip limited timeline) = db' := by simp [Store.step, e1]
    have hpub : publish s.db (.acc room skip limited timeline) = if post.length ≠ 0 then [.acc room (post.map (·.nid))] else [] := by
      simp only [publish, e1]
    rw [hpub]
    generalize Store.step s.db (.acc room skip limited timeline) = D at *
    replace hdb := hdb.symm
    subst hdb
    have hcores : post.map Row.core = new.map Row.core := List.append_cancel_left (e2.symm.trans he)
    have hgt : ∀ x ∈ post, s.db.seq < x.nid := fun x hx => by
      have : x.core ∈ new.map Row.core := hcores ▸ List.mem_map_of_mem hx
      obtain ⟨y, hy, hc⟩ := List.mem_map.1 this
      have := hn y hy
      have := (Store.core_eq hc).1
      omega
    have hin : ∀ x ∈ post, ∃ y ∈ db'.rows, y.core = x.core := fun x hx => by
      have : x.core ∈ db'.rows.map Row.core := by rw [e2]; exact List.mem_append_right _ (List.mem_map_of_mem hx)
      obtain ⟨y, hy, hc⟩ := List.mem_map.1 this
      exact ⟨y, hy, hc⟩
    have hle : ∀ x ∈ post, x.nid ≤ db'.seq := fun x hx => by
      obtain ⟨y, hy, hc⟩ := hin x hx
      rw [← (Store.core_eq hc).1]; exact (hI'.range y hy).2
    by_cases hp : post = []
    · subst hp
      simp only [List.length_nil, ne_eq, not_true_eq_false, if_false, List.append_nil]
      refine ⟨hquiet (hother fun x hx => ?_), hgood⟩
      have : x.core ∈ new.map Row.core := List.mem_map_of_mem hx
      rw [← hcores] at this
      cases this
    · rw [if_pos (by simpa using hp)]
      by_cases hr : room = r
      · subst hr
        obtain ⟨rows, hs1, hs2⟩ := select_post hI e2 hgt
        have hsay : sayMsg cfg db' cfg.user room (.acc room (post.map (·.nid))) = says cfg cfg.user post := by
          simp only [sayMsg, if_pos, hs1, Option.bind_some]
          exact says_core hs2
        have hasc : post.Pairwise fun a b => a.nid < b.nid := by
          have : (db'.rows.map Row.core).Pairwise fun a b => a.1 < b.1 := by rw [List.pairwise_map]; exact hI'.asc
          rw [e2, List.pairwise_append] at this
          have := this.2.1
          rw [List.pairwise_map] at this
          exact this
        have hall : ∀ y ∈ db'.rows, y.room = room → s.db.seq < y.nid → ∃ x ∈ post, x.core = y.core := by
          intro y hy _ hlt
          have hy' : y.core ∈ s.db.rows.map Row.core ++ post.map Row.core := by rw [← e2]; exact List.mem_map_of_mem hy
          rcases List.mem_append.1 hy' with h | h
          · obtain ⟨x, hx, hc⟩ := List.mem_map.1 h
            have := (hI.range x hx).2
            have := (Store.core_eq hc).1
            omega
          · obtain ⟨x, hx, hc⟩ := List.mem_map.1 h
            exact ⟨x, hx, hc⟩
        have hwalk := fun v hv => walk_rows (cfg := cfg) (db := db') hk (r := room) post s.db.seq v hv hin (fun x hx => (e3 x hx).1) hasc hgt hall
        refine ⟨fun hl => ?_, good_snoc _ _ _ hgood fun hni => ⟨fun _ rows' hs' => ?_, trivial⟩⟩
        · rw [later_snoc, hsay] at hl
          by_cases hb : later cfg db' s.disp.jrt s.bus cfg.user room = true
          · rcases hold hb with hj | hj
            · rw [hb] at hl
              exact (hwalk true fun _ => hj).2 hl _ hseq hle
            · exact hj
          · have hb' : later cfg db' s.disp.jrt s.bus cfg.user room = false := by simpa using hb
            rw [hb'] at hl
            exact (hwalk false (fun h => by cases h)).2 hl _ hseq hle
        · rw [hs1] at hs'
          cases hs'
          refine walk_grow (db := db') ⟨fun x hx => ⟨x, hx, rfl⟩, fun x hx _ => ⟨x, hx, rfl⟩, Nat.le_refl _⟩ post rows _ hs2.symm hle (hwalk _ fun hv => ?_).1
          have hv' : later cfg db' s.disp.jrt s.bus cfg.user room = true := hv
          rw [hgrow.2 hni] at hv'
          exact (h.later hv').grow hg (Nat.le_refl _)
      · have hne : ∀ x ∈ new, x.room ≠ r := fun x hx => by
          have : x.core ∈ post.map Row.core := hcores ▸ List.mem_map_of_mem hx
          obtain ⟨y, hy, hc⟩ := List.mem_map.1 this
          rw [← (Store.core_eq hc).2.1, (e3 y hy).1]
          exact hr
        refine ⟨fun hl => hquiet (hother hne) ?_, good_snoc _ _ _ hgood fun _ => ⟨fun h => absurd h hr, trivial⟩⟩
        rw [later_snoc] at hl
        simpa [sayMsg, hr] using hl
  | init room skip block =>
    have hpub : publish s.db (.init room skip block) = if (Store.step s.db (.init room skip block)).cur room = s.db.cur room then []
        else if s.db.cur room ≠ 0 then [.inval room] else [.init room ((Store.step s.db (.init room skip block)).cur room)] := by
      cases hi : Store.initialise s.db room skip block with
      | none => simp [publish, Store.step, hi]
      | some db' => simp only [publish, Store.step, hi, Option.getD_some]
    have hgd : Good cfg (Store.step s.db (.init room skip block)) r (Tracker.isUserJoined s.disp.jrt cfg.user r) (s.bus ++ publish s.db (.init room skip block)) := by
      rw [hpub]
      split
      · rw [List.append_nil]; exact hgood
      · split
        · exact good_snoc _ _ _ hgood fun _ => Or.inr trivial
        · exact good_snoc _ _ _ hgood fun _ => trivial
    refine ⟨fun hl => ?_, hgd⟩
    by_cases hr : room = r
    · subst hr
      rw [hpub] at hl
      split at hl
      · rename_i hc
        rw [List.append_nil] at hl
        refine hquiet (fun y hy hm => cur_same hI hI' hg hk ?_ hy hm) hl
        have k1 := (Store.C40_current _ hok room).1
        have k2 := (Store.C40_current _ hok' room).1
        rw [← hR.db, show (fun _ => true) = Store.always from rfl] at k1
        rw [← hrun, show (fun _ => true) = Store.always from rfl, hc] at k2
        have hle := (hRel.cur room).le hRel.inv
        apply Option.ext
        intro id
        unfold cur
        rw [← k1, ← k2]
        simp only [hE.at hRel.inv hle]
      · rename_i hc
        split at hl
        · rw [later_snoc] at hl
          simp only [sayMsg, if_pos, Option.getD_some, decide_eq_true_eq] at hl
          obtain ⟨id, h1, h2⟩ := hmm' hl
          exact hjoin id h1 h2
        · rename_i h0
          have h0 : s.db.cur room = 0 := by simpa using h0
          rw [later_snoc] at hl
          simp only [sayMsg, if_pos] at hl
          cases hs : (Store.stripped (Store.step s.db (.init room skip block)) ((Store.step s.db (.init room skip block)).cur room)).bind (says cfg cfg.user) with
          | some b =>
            rw [hs] at hl
            simp only [Option.getD_some] at hl
            subst hl
            have hne : (Store.run (polls ops ++ [.init room skip block])).cur room ≠ 0 := by
              rw [← hrun]; exact fun h => hc (h.trans h0.symm)
            rw [hrun] at hs
            obtain ⟨id, h1, h2⟩ := snap_from hok' hne cfg.user hs
            rw [← hrun] at h1
            exact hjoin id h1 h2
          | none =>
            rw [hs] at hl
            simp only [Option.getD_none] at hl
            rcases hgrow.1 hl with hl | hl
            · exfalso
              have hcn : cur s.db room cfg.user = none := by
                rcases Option.eq_none_or_eq_some (cur s.db room cfg.user) with h | ⟨id, hid⟩
                · exact h
                · exfalso
                  have k1 := (Store.C40_current _ hok room).1
                  rw [← hR.db, show (fun _ => true) = Store.always from rfl] at k1
                  obtain ⟨n, s', hs', he', _⟩ := (k1 _ _).2 hid
                  have := (hRel.inv.srange s' hs').1
                  omega
              rw [(hM.agrees cfg.user room).2 hcn] at hl
              cases hl
            · obtain ⟨id, h1, h2⟩ := hmm' hl
              exact hjoin id h1 h2
    · have hno : sayMsg cfg (Store.step s.db (.init room skip block)) cfg.user r (.inval room) = none ∧
          ∀ n, sayMsg cfg (Store.step s.db (.init room skip block)) cfg.user r (.init room n) = none := ⟨by simp [sayMsg, hr], fun n => by simp [sayMsg, hr]⟩
      have hl' : later cfg (Store.step s.db (.init room skip block)) s.disp.jrt s.bus cfg.user r = true := by
        rw [hpub] at hl
        split at hl
        · rw [List.append_nil] at hl; exact hl
        · split at hl
          · rw [later_snoc, hno.1] at hl; exact hl
          · rw [later_snoc, hno.2] at hl; exact hl
      obtain ⟨_, _, new', e2, e3, _⟩ := Store.initialise_spec hRel room skip block ho
      have hcores : new'.map Row.core = new.map Row.core := List.append_cancel_left (e2.symm.trans he)
      refine hquiet (hother fun x hx => ?_) hl'
      have : x.core ∈ new'.map Row.core := hcores ▸ List.mem_map_of_mem hx
      obtain ⟨y, hy, hc⟩ := List.mem_map.1 this
      rw [← (Store.core_eq hc).2.1, (e3 y hy).1]
      exact hr

theorem pi_recv {cfg : Cfg} (hu : cfg.user ≠ Dispatcher.allUsers) {ops : List Op} {s : State} (hR : Reach s ops) (hok : ∀ o ∈ polls ops, Store.OkOp o) (hM : MI cfg s)
    {r : String} (hcalm : ∀ rest nids, s.bus = .inval r :: rest → .acc r nids ∉ rest) (h : PI cfg r s) : PI cfg r (step cfg s .recv) := by
  cases hb : s.bus with
  | nil => rw [show step cfg s .recv = s by simp [step, hb]]; exact h
  | cons m rest =>
    have hstep : step cfg s .recv = handle cfg { s with bus := rest } m := by simp [step, hb]
    have hB : Base { s with bus := rest } (pend (m :: rest)) := by rw [← hb]; exact ⟨hR.base.ti, hR.base.bus, hR.base.jrt⟩
    obtain ⟨_, h2, h3⟩ := handle_base (cfg := cfg) hB
    have hI : Store.Inv s.db := by rw [hR.db]; exact (Store.run_spec _ hok).inv
    have hv := hM.valid m (by rw [hb]; simp)
    have hj := handle_joined (cfg := cfg) hB hI hv cfg.user r
    have hlat := h.later
    have hgd := h.good
    rw [hb] at hlat hgd
    rw [hstep]
    refine ⟨fun hl => ?_, ?_, fun c hc => ?_⟩
    · rw [h2, h3] at hl
      rw [h2]
      rw [later_cons cfg s.db s.disp.jrt (handle cfg { s with bus := rest } m).disp.jrt m rest cfg.user r hj] at hl
      exact hlat hl
    · rw [h2, h3, hj]
      cases m with
      | acc room nids => exact hgd.2
      | init room snap => exact hgd
      | inval room =>
        by_cases hr : room = r
        · subst hr
          exact good_idle _ _ fun nids => hcalm rest nids hb
        · rw [show sayMsg cfg s.db cfg.user r (.inval room) = none by simp [sayMsg, hr]]
          exact hgd.resolve_left hr
    · rw [h2]
      cases m with
      | acc room nids =>
        obtain ⟨rows, k1, k2, k3⟩ := select_acc hB.ti hB.bus
        simp only [handle, k1] at hc
        rw [← k2, zip_self] at hc
        have hb' : Base { s with bus := rest } ((rows.map (·.nid)).map (room, ·) ++ pend rest) := by rw [k2]; exact hB
        exact fold_seen hu rows hb' (fun x hx => ⟨(k3 x hx).1, (k3 x hx).2.1⟩) (fun hroom => hgd.1 hroom rows k1) h.conn c hc
      | init room snap =>
        simp only [handle] at hc
        split at hc
        · exact h.conn c hc
        · rename_i rows _
          simp only [Option.map_eq_some_iff] at hc
          obtain ⟨c0, hc0, rfl⟩ := hc
          rw [give_zero (initial_spec s.disp room (rows.map (toEvent cfg))).2.1]
          exact h.conn c0 hc0
      | inval room =>
        simp only [handle] at hc
        split at hc
        · cases hc
        · exact h.conn c hc

theorem pi_run {cfg : Cfg} (hu : cfg.user ≠ Dispatcher.allUsers) (r : String) (ops : List Op) (hok : ∀ o ∈ polls ops, Store.OkOp o) (hk : ∀ o ∈ polls ops, KeyOk o)
    (hkey : ∀ x ∈ (run cfg {} ops).db.rows, x.ev.stateKey = cfg.user → x.ev.hasKey = true) (hcalm : Calm cfg r ops) : PI cfg r (run cfg {} ops) := by
  induction ops using Util.snocRec with
  | nil =>
    refine ⟨fun h => ?_, trivial, fun c hc => by simp [run] at hc⟩
    simp [later, run, Tracker.isUserJoined, Tracker.empty] at h
  | append_singleton ops o ih =>
    have hR := reach cfg ops
    have hsub : ∀ x ∈ polls ops, x ∈ polls (ops ++ [o]) := fun x hx => by rw [polls_append]; exact List.mem_append_left _ hx
    have hok' : ∀ o ∈ polls ops, Store.OkOp o := fun x hx => hok x (hsub x hx)
    have hk' : ∀ o ∈ polls ops, KeyOk o := fun x hx => hk x (hsub x hx)
    have hM := mi_run cfg ops hok' hk'
    have hc' : Calm cfg r ops := fun pre post rest nids he hb => hcalm pre (post ++ [o]) rest nids (by rw [he]; simp) hb
    have hlast : ∀ rest nids, o = .recv → (run cfg {} ops).bus = .inval r :: rest → .acc r nids ∉ rest := fun rest nids ho hb =>
      hcalm ops [] rest nids (by rw [ho]) hb
    rw [show run cfg {} (ops ++ [o]) = step cfg (run cfg {} ops) o by simp [run]] at hkey ⊢
    have hrows : ∀ x ∈ (run cfg {} ops).db.rows, ∃ y ∈ (step cfg (run cfg {} ops) o).db.rows, y.core = x.core := by
      intro x hx
      cases o with
      | poll o =>
        obtain ⟨_, _, new, he, _⟩ := poll_new hR.base.ti o
        exact EndToEnd.fwd he hx
      | recv =>
        cases hb : (run cfg {} ops).bus with
        | nil => rw [show step cfg (run cfg {} ops) .recv = run cfg {} ops by simp [step, hb]]; exact ⟨x, hx, rfl⟩
        | cons m rest =>
          have hB : Base { run cfg {} ops with bus := rest } (pend (m :: rest)) := by rw [← hb]; exact ⟨hR.base.ti, hR.base.bus, hR.base.jrt⟩
          rw [show step cfg (run cfg {} ops) .recv = handle cfg { run cfg {} ops with bus := rest } m by simp [step, hb], (handle_base (cfg := cfg) hB).2.1]
          exact ⟨x, hx, rfl⟩
      | «open» => exact ⟨x, hx, rfl⟩
      | request xs => exact ⟨x, hx, rfl⟩
      | take vis xs => exact ⟨x, hx, rfl⟩
      | restart => exact ⟨x, hx, rfl⟩
    have ih := ih hok' hk' (fun x hx hs => by
      obtain ⟨y, hy, hc⟩ := hrows x hx
      have := (Store.core_eq hc).2.2.1
      rw [← this] at hs ⊢
      exact hkey y hy hs) hc'
    generalize run cfg {} ops = s at *
    cases o with
    | poll o => exact pi_poll hR o hok' (hok o (by simp [polls])) hM hkey ih
    | recv => exact pi_recv hu hR hok' hM (fun rest nids hb => hlast rest nids rfl hb) ih
    | «open» => exact ⟨ih.later, ih.good, fun c hc => by simp only [step, Option.some.injEq] at hc; subst hc; exact ⟨nofun, nofun⟩⟩
    | request xs =>
      refine ⟨ih.later, ih.good, fun c hc => ?_⟩
      simp only [step, Option.map_eq_some_iff] at hc
      obtain ⟨c0, hc0, rfl⟩ := hc
      exact request_seen hR.base.ti (ih.conn c0 hc0) xs
    | take vis xs =>
      refine ⟨ih.later, ih.good, fun c hc => ?_⟩
      simp only [step, Option.map_eq_some_iff] at hc
      obtain ⟨c0, hc0, rfl⟩ := hc
      exact take_seen hR.base.ti (ih.conn c0 hc0) vis xs
    | restart =>
      refine ⟨fun hl => ?_, trivial, fun c hc => by simp [step, restart] at hc⟩
      have hmm : cfg.user ∈ membersWith cfg s.db r (· == "join") ↔ ∃ id, cur s.db r cfg.user = some id ∧ cfg.mem id = "join" := by
        rw [hR.db]; simpa using mem_members (cfg := cfg) (r := r) (u := cfg.user) (p := (· == "join")) hok'
      have hnd : (((s.db.rows.map (·.room)).eraseDups.map fun room => (room, membersWith cfg s.db room (· == "join"))).map (·.1)).Nodup := by
        rw [List.map_map, show ((fun x : String × List String => x.1) ∘ fun room => (room, membersWith cfg s.db room (· == "join"))) = id from rfl,
          List.map_id]
        exact eraseDups_nodup _ _ (Nat.le_refl _)
      have hj : cfg.user ∈ (Tracker.startup ((s.db.rows.map (·.room)).eraseDups.map fun room => (room, membersWith cfg s.db room (· == "join")))).joinedUsers r := by
        rw [Dispatcher.mem_joined_iff]
        simpa [later, step, restart] using hl
      rw [(Tracker.startup_fields _ hnd).1] at hj
      obtain ⟨us, hm, hus⟩ := hj
      obtain ⟨room, _, he⟩ := List.mem_map.1 hm
      cases he
      obtain ⟨id, h1, h2⟩ := hmm.1 hus
      exact cur_join hR.base.ti hkey h1 h2 (Nat.le_refl _)

/-! ## C127 -/

/-- C127 for leaves that are known: every event a client has of a room was stored after a join of its user, and before the user's next leave or ban, or
is a member event of the user — for all orders of poller responses, messages, requests and restarts, whatever rooms the lists bring into view. `Calm` is
needed, see `C127_violated_reload`. -/
theorem C127_joined (cfg : Cfg) (hu : cfg.user ≠ Dispatcher.allUsers) (ops : List Op) (hok : ∀ o ∈ polls ops, Store.OkOp o) (hk : ∀ o ∈ polls ops, KeyOk o)
    (hkey : ∀ x ∈ (run cfg {} ops).db.rows, x.ev.stateKey = cfg.user → x.ev.hasKey = true) (r : String) (hcalm : Calm cfg r ops)
    (c : Conn) (hc : (run cfg {} ops).conn = some c) (l : List Nat) (hl : c.view r = some l) :
    ∀ n ∈ l, JoinedThen cfg (run cfg {} ops).db r n ∨ Own cfg (run cfg {} ops).db r n :=
  fun n hn => (((pi_run hu r ops hok hk hkey hcalm).conn c hc).view l hl n hn).2

/-- If no leave was missed, the last member event is a join. -/
theorem in_room {cfg : Cfg} {db : DB} (hI : TI db) {r : String} {n : Nat} (hs : NoneMissed cfg db r) (h : JoinedThen cfg db r n) : InRoom cfg db r n := by
  obtain ⟨x, hx, h1, h2, h3, h4⟩ := h
  have main : ∀ k, ∀ x ∈ db.rows, Member cfg r x → cfg.mem x.ev.id = "join" → x.nid ≤ n →
      (∀ y ∈ db.rows, Member cfg r y → x.nid < y.nid → y.nid ≤ n → cfg.mem y.ev.id ≠ "leave" ∧ cfg.mem y.ev.id ≠ "ban") → n - x.nid ≤ k → InRoom cfg db r n := by
    intro k
    induction k with
    | zero =>
      intro x hx h1 h2 h3 _ hk
      exact ⟨x, hx, h1, h2, h3, fun y _ _ hy => by omega⟩
    | succ k ih =>
      intro x hx h1 h2 h3 h4 hk
      by_cases hlast : ∀ y ∈ db.rows, Member cfg r y → y.nid ≤ n → y.nid ≤ x.nid
      · exact ⟨x, hx, h1, h2, h3, hlast⟩
      · -- the next member event
        obtain ⟨y, hy, hm, hyn, hxy⟩ : ∃ y ∈ db.rows, Member cfg r y ∧ y.nid ≤ n ∧ x.nid < y.nid := by
          apply Classical.byContradiction
          intro hno
          apply hlast
          intro y hy hm hyn
          apply Classical.byContradiction
          intro hc
          exact hno ⟨y, hy, hm, hyn, by omega⟩
        have hnext : ∀ d, ∀ y ∈ db.rows, Member cfg r y → y.nid ≤ n → x.nid < y.nid → y.nid - x.nid ≤ d →
            ∃ z ∈ db.rows, Member cfg r z ∧ z.nid ≤ n ∧ x.nid < z.nid ∧ ∀ w ∈ db.rows, Member cfg r w → w.nid ≤ x.nid ∨ z.nid ≤ w.nid := by
          intro d
          induction d with
          | zero => intro y _ _ _ hxy hd; omega
          | succ d ihd =>
            intro y hy hm hyn hxy hd
            by_cases hfirst : ∀ w ∈ db.rows, Member cfg r w → w.nid ≤ x.nid ∨ y.nid ≤ w.nid
            · exact ⟨y, hy, hm, hyn, hxy, hfirst⟩
            · apply Classical.byContradiction
              intro hno
              apply hfirst
              intro w hw hwm
              apply Classical.byContradiction
              intro hc
              have h5 : ¬ w.nid ≤ x.nid := fun k => hc (Or.inl k)
              have h6 : ¬ y.nid ≤ w.nid := fun k => hc (Or.inr k)
              exact hno (ihd w hw hwm (by omega) (by omega) (by omega))
        obtain ⟨z, hz, hzm, hzn, hxz, hfirst⟩ := hnext _ y hy hm hyn hxy (Nat.le_refl _)
        have hzj : cfg.mem z.ev.id = "join" := by
          rcases hs x hx z hz h1 hzm h2 hxz hfirst with h | h | h
          · exact h
          · exact absurd h (h4 z hz hzm hxz hzn).1
          · exact absurd h (h4 z hz hzm hxz hzn).2
        exact ih z hz hzm hzj hzn (fun w hw hwm hlt hle => h4 w hw hwm (by omega) hle) (by omega)
  exact main _ x hx h1 h2 h3 h4 (Nat.le_refl _)

/-- C127 (partial): every event a client has of a room was stored while the last stored member event of its user was a join, or is a member event of the
user. Missing: what happens when the members of a room are read anew while events stored before are still under way (`C127_violated_reload`), and
when a leave was missed (`C127_violated_missed`). -/
theorem C127_partial (cfg : Cfg) (hu : cfg.user ≠ Dispatcher.allUsers) (ops : List Op) (hok : ∀ o ∈ polls ops, Store.OkOp o) (hk : ∀ o ∈ polls ops, KeyOk o)
    (hkey : ∀ x ∈ (run cfg {} ops).db.rows, x.ev.stateKey = cfg.user → x.ev.hasKey = true) (r : String) (hcalm : Calm cfg r ops)
    (hs : NoneMissed cfg (run cfg {} ops).db r) (c : Conn) (hc : (run cfg {} ops).conn = some c) (l : List Nat) (hl : c.view r = some l) :
    ∀ n ∈ l, InRoom cfg (run cfg {} ops).db r n ∨ Own cfg (run cfg {} ops).db r n := by
  intro n hn
  rcases C127_joined cfg hu ops hok hk hkey r hcalm c hc l hl n hn with h | h
  · exact Or.inl (in_room (reach cfg ops).base.ti hs h)
  · exact Or.inr h

end Verif.EndToEnd
