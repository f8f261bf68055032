import Verif.ReceiptFlowProps
/-!
C126: which receipts a client is told, in the model of `ReceiptFlow` without any restriction: requests may fail, responses may be
lost, connections may be destroyed and the tables may not be readable.
-/
namespace Verif.ReceiptFlow
open Verif Receipts ConnFlow

/-- Some poller has delivered the receipt. -/
def Delivered (edus : List Edu) (x : Key × Info) : Prop := ∃ edu ∈ edus, edu.type = "m.receipt" ∧ x ∈ edu.content

/-- The receipt is public or the user's own. -/
def Visible (user : String) (x : Key × Info) : Prop := x.1.2.1 = true → x.1.2.2 = user

/-- A receipt as it is sent. -/
def sentAs (r : Receipt) : Key × Info := (r.key, ⟨r.ts, r.thread⟩)

theorem pack_mem {l : List Receipt} {x : Key × Info} (h : x ∈ (pack l).content) : ∃ r ∈ l, x = sentAs r := by
  have hg := (get_iff (pack_distinct l) x.1 x.2).2 h
  obtain ⟨r, hr, he⟩ := pack_get l x.1 x.2 hg
  obtain ⟨h1, h2⟩ := chosen_mem hr
  exact ⟨r, h1, by rw [sentAs, h2, ← he]⟩

theorem sentAs_toReceipt (room : String) (e : Key × Info) : sentAs (toReceipt room e) = e := rfl

/-- A row of a table. -/
structure Row (edus : List Edu) (room : String) (priv : Bool) (r : Receipt) : Prop where
  room : r.room = room
  priv : r.priv = priv
  edu : Delivered edus (sentAs r)

theorem Delivered.more {edus : List Edu} {x : Key × Info} (h : Delivered edus x) (edu : Edu) : Delivered (edus ++ [edu]) x := by
  obtain ⟨e, he, h⟩ := h
  exact ⟨e, List.mem_append_left _ he, h⟩

theorem Row.more {edus : List Edu} {room : String} {priv : Bool} {r : Receipt} (h : Row edus room priv r) (edu : Edu) :
    Row (edus ++ [edu]) room priv r := ⟨h.room, h.priv, h.edu.more edu⟩

theorem upsert_rows {edus : List Edu} {room : String} {priv : Bool} {t : List Receipt} {r : Receipt} (ht : ∀ x ∈ t, Row edus room priv x)
    (hr : Row edus room priv r) :
    (∀ x ∈ (upsert priv t r).1, Row edus room priv x) ∧ ∀ x ∈ (upsert priv t r).2.toList, Row edus room priv x := by
  have hr' : ({ r with priv := priv } : Receipt) = r := by
    have := hr.priv
    cases r; subst this; rfl
  unfold upsert
  rw [hr']
  split
  · refine ⟨?_, by simpa using hr⟩
    intro x hx
    rcases List.mem_append.1 hx with hx | hx
    · exact ht x hx
    · rw [List.mem_singleton.1 hx]; exact hr
  · split
    · refine ⟨?_, by simpa using hr⟩
      intro x hx
      obtain ⟨y, hy, rfl⟩ := List.mem_map.1 hx
      split
      · rename_i hk
        have h1 := ht y hy
        simp only [Receipt.ukey, Prod.mk.injEq] at hk
        have : ({ y with event := r.event, ts := r.ts } : Receipt) = r := by
          have h2 := h1.priv.trans hr.priv.symm
          obtain ⟨h3, h4, h5⟩ := hk
          cases y; cases r
          simp only at h2 h3 h4 h5
          subst h2 h3 h4 h5
          rfl
        rw [this]
        exact hr
      · exact ht y hy
    · exact ⟨ht, by simp⟩

theorem upsertAll_rows {edus : List Edu} {room : String} {priv : Bool} (rs : List Receipt) {t : List Receipt}
    (ht : ∀ x ∈ t, Row edus room priv x) (hr : ∀ x ∈ rs, Row edus room priv x) :
    (∀ x ∈ (upsertAll priv t rs).1, Row edus room priv x) ∧ ∀ x ∈ (upsertAll priv t rs).2, Row edus room priv x := by
  induction rs using Verif.Util.snocRec with
  | nil => exact ⟨ht, by simp [upsertAll]⟩
  | append_singleton rs r ih =>
    obtain ⟨h1, h2⟩ := ih (fun x hx => hr x (List.mem_append_left _ hx))
    obtain ⟨h3, h4⟩ := upsert_rows h1 (hr r (List.mem_append_right _ (List.mem_singleton.2 rfl)))
    have he : upsertAll priv t (rs ++ [r]) =
        ((upsert priv (upsertAll priv t rs).1 r).1, (upsertAll priv t rs).2 ++ (upsert priv (upsertAll priv t rs).1 r).2.toList) := by
      unfold upsertAll
      rw [List.foldl_append]
      rfl
    rw [he]
    refine ⟨h3, ?_⟩
    intro x hx
    rcases List.mem_append.1 hx with hx | hx
    · exact h2 x hx
    · exact h4 x hx

theorem insert_rows {edus : List Edu} {db db' : DB} {room : String} {edu : Edu} {new : List Receipt}
    (hp : ∀ x ∈ db.pub, Row edus room false x) (hq : ∀ x ∈ db.priv, Row edus room true x)
    (h : Insert db room edu (some (db', new))) :
    (∀ x ∈ db'.pub, Row (edus ++ [edu]) room false x) ∧ (∀ x ∈ db'.priv, Row (edus ++ [edu]) room true x) ∧
    ∀ x ∈ new, ∃ p, Row (edus ++ [edu]) room p x := by
  obtain ⟨pub, priv, hu, h⟩ := h
  have hrow : (∀ x ∈ pub, Row (edus ++ [edu]) room false x) ∧ ∀ x ∈ priv, Row (edus ++ [edu]) room true x := by
    by_cases ht : edu.type = "m.receipt"
    · obtain ⟨h1, h2⟩ := mem_unpack ht hu
      constructor
      · intro x hx
        obtain ⟨h3, e, he, rfl⟩ := (h1 x).1 hx
        exact ⟨rfl, h3, edu, List.mem_append_right _ (List.mem_singleton.2 rfl), ht, he⟩
      · intro x hx
        obtain ⟨h3, e, he, rfl⟩ := (h2 x).1 hx
        exact ⟨rfl, h3, edu, List.mem_append_right _ (List.mem_singleton.2 rfl), ht, he⟩
    · rw [Unpack, if_pos ht] at hu
      rw [hu.1, hu.2]
      constructor <;> intro x hx <;> cases hx
  cases h1 : bulkInsert false db.pub pub with
  | none => rw [h1] at h; cases h
  | some r1 =>
    rw [h1] at h
    cases h2 : bulkInsert true db.priv priv with
    | none => rw [h2] at h; cases h
    | some r2 =>
      rw [h2] at h
      have e1 := bulkInsert_some h1
      have e2 := bulkInsert_some h2
      obtain ⟨a1, b1⟩ := upsertAll_rows pub (fun x hx => (hp x hx).more edu) hrow.1
      obtain ⟨a2, b2⟩ := upsertAll_rows priv (fun x hx => (hq x hx).more edu) hrow.2
      rw [← e1] at a1 b1
      rw [← e2] at a2 b2
      cases h
      refine ⟨a1, a2, ?_⟩
      intro x hx
      rcases List.mem_append.1 hx with hx | hx
      · exact ⟨_, b1 x hx⟩
      · exact ⟨_, b2 x hx⟩

/-- What may be told to the user. -/
def Fit (user : String) (edus : List Edu) (x : Key × Info) : Prop := Delivered edus x ∧ Visible user x

/-- All receipts of the response may be. -/
def FitAll (user : String) (edus : List Edu) (o : Option Edu) : Prop := ∀ edu, o = some edu → edu.type = "m.receipt" ∧ ∀ x ∈ edu.content, Fit user edus x

theorem initial_fit {edus : List Edu} {db : DB} {user room : String} {inScope : String → Bool} {rooms : List (String × List String)}
    (hp : ∀ x ∈ db.pub, Row edus room false x) (hq : ∀ x ∈ db.priv, Row edus room true x) :
    FitAll user edus (processInitial db user inScope rooms room) := by
  intro edu he
  unfold processInitial at he
  split at he
  · cases he
  · cases he
    refine ⟨rfl, ?_⟩
    intro x hx
    obtain ⟨r, hr, rfl⟩ := pack_mem hx
    have hpub : ∀ y ∈ db.pub, Fit user edus (sentAs { y with priv := false }) := by
      intro y hy
      have h1 := hp y hy
      have : ({ y with priv := false } : Receipt) = y := by
        have := h1.priv
        cases y; subst this; rfl
      rw [this]
      exact ⟨h1.edu, fun hh => by
        have hh : y.priv = true := hh
        rw [h1.priv] at hh; cases hh⟩
    unfold gathered at hr
    rcases List.mem_append.1 hr with hr | hr
    · split at hr
      · split at hr
        · unfold forEvents at hr
          obtain ⟨y, hy, rfl⟩ := List.mem_map.1 hr
          exact hpub y (List.mem_filter.1 hy).1
        · cases hr
      · cases hr
    · unfold forUser at hr
      have hr := (List.mem_filter.1 hr).1
      rcases List.mem_append.1 hr with hr | hr
      · obtain ⟨y, hy, rfl⟩ := List.mem_map.1 hr
        exact hpub y (List.mem_filter.1 hy).1
      · obtain ⟨y, hy, rfl⟩ := List.mem_map.1 hr
        obtain ⟨hy, hu⟩ := List.mem_filter.1 hy
        have h1 := hq y hy
        have : ({ y with priv := true } : Receipt) = y := by
          have := h1.priv
          cases y; subst this; rfl
        rw [this]
        simp only [Bool.and_eq_true, decide_eq_true_eq] at hu
        exact ⟨h1.edu, fun _ => hu.2⟩

theorem append_fit {edus : List Edu} {user room : String} {o : Option Edu} {r : Receipt} {res : Resp} (ho : FitAll user edus o)
    (hr : r.room = room) (hf : Fit user edus (sentAs r))
    (ha : AppendLive (fun _ => true) (fun x => if x = room then o else none) r res) : FitAll user edus (res room) := by
  subst hr
  unfold AppendLive at ha
  simp only [Bool.not_true, Bool.false_eq_true, if_false, if_true] at ha
  cases o with
  | none =>
    simp only at ha
    rw [ha]
    simp only [if_true]
    intro edu he
    cases he
    refine ⟨rfl, ?_⟩
    intro x hx
    obtain ⟨y, hy, rfl⟩ := pack_mem hx
    rw [List.mem_singleton.1 hy]
    exact hf
  | some edu =>
    simp only at ha
    obtain ⟨pub, priv, hu, hres⟩ := ha
    rw [hres]
    simp only [if_true]
    obtain ⟨ht, hc⟩ := ho edu rfl
    obtain ⟨h1, h2⟩ := mem_unpack ht hu
    intro edu' he
    cases he
    refine ⟨rfl, ?_⟩
    intro x hx
    obtain ⟨y, hy, rfl⟩ := pack_mem hx
    rcases List.mem_append.1 hy with hy | hy
    · rcases List.mem_append.1 hy with hy | hy
      · obtain ⟨_, e, he, rfl⟩ := (h1 y).1 hy
        exact hc e he
      · obtain ⟨_, e, he, rfl⟩ := (h2 y).1 hy
        exact hc e he
    · rw [List.mem_singleton.1 hy]
      exact hf

theorem handed_mem {user : String} {p : List Receipt} {r : Receipt} (h : r ∈ handed user p) : r ∈ p ∧ Visible user (sentAs r) := by
  unfold handed at h
  obtain ⟨⟨u, r'⟩, hx, rfl⟩ := List.mem_map.1 h
  obtain ⟨hx, hu⟩ := List.mem_filter.1 hx
  have hu : u = user := of_decide_eq_true hu
  subst hu
  obtain ⟨h1, h2⟩ := (C45_live_private _ _ _ _ _).1 hx
  refine ⟨h1, fun hp => ?_⟩
  rcases h2 with ⟨_, h2, _⟩ | ⟨h2, _⟩
  · exact h2.symm
  · have hp : r'.priv = true := hp
    rw [h2] at hp; cases hp

variable {user room : String}

structure Auth (user room : String) (s : State) : Prop where
  ci : CI s.c
  pub : ∀ x ∈ s.db.pub, Row s.edus room false x
  priv : ∀ x ∈ s.db.priv, Row s.edus room true x
  bus : ∀ p ∈ s.bus, ∀ r ∈ p, ∃ b, Row s.edus room b r
  queue : ∀ r ∈ s.queue, r.room = room ∧ Fit user s.edus (sentAs r)
  all : s.c.All (FitAll user s.edus)
  has : ∀ x ∈ s.c.has, Fit user s.edus x

theorem Fit.more {edus : List Edu} {x : Key × Info} (h : Fit user edus x) (edu : Edu) : Fit user (edus ++ [edu]) x := ⟨h.1.more edu, h.2⟩

theorem out_all {c : Client (Option Edu) Told} {P : Option Edu → Prop} (h : c.All P) {o : Option Edu} (ho : P o) :
    ({ c with busy := c.busy.map fun b => { b with out := o } } : Client _ _).All P := by
  refine ⟨h.1, ?_⟩
  intro b hb
  obtain ⟨b', _, rfl⟩ := Option.map_eq_some_iff.1 hb
  exact ho

theorem has_put {edus : List Edu} {h h' : Told} (hd : ∀ x ∈ h, Fit user edus x)
    (hh : h' = h ∨ ∃ o, FitAll user edus o ∧ h' = put h o) : ∀ x ∈ h', Fit user edus x := by
  rcases hh with rfl | ⟨o, ho, rfl⟩
  · exact hd
  · intro x hx
    cases o with
    | none => exact hd x hx
    | some edu =>
      rcases List.mem_append.1 hx with hx | hx
      · exact hd x hx
      · exact (ho edu rfl).2 x hx

theorem run_auth {ok : Mode} {s : State} (h : Run user room ok s) : Auth user room s := by
  induction h with
  | start => exact ⟨start_ci _, (by intro x hx; cases hx), (by intro x hx; cases hx), (by intro x hx; cases hx), (by intro x hx; cases hx),
      start_all _ _, (by intro x hx; cases hx)⟩
  | @deliver s edu db new _ hi ih =>
    obtain ⟨h1, h2, h3⟩ := insert_rows ih.pub ih.priv hi
    refine ⟨ih.ci, h1, h2, ?_, fun r hr => ⟨(ih.queue r hr).1, (ih.queue r hr).2.more edu⟩,
      ih.all.mono (fun o ho e he => ⟨(ho e he).1, fun x hx => ((ho e he).2 x hx).more edu⟩), fun x hx => (ih.has x hx).more edu⟩
    have hold : ∀ p ∈ s.bus, ∀ r ∈ p, ∃ b, Row (s.edus ++ [edu]) room b r := by
      intro p hp r hr
      obtain ⟨b, hb⟩ := ih.bus p hp r hr
      exact ⟨b, hb.more edu⟩
    intro p hp r hr
    have hp : p ∈ if new.length = 0 then s.bus else s.bus ++ [new] := hp
    split at hp
    · exact hold p hp r hr
    · rcases List.mem_append.1 hp with hp | hp
      · exact hold p hp r hr
      · rw [List.mem_singleton.1 hp] at hr
        exact h3 r hr
  | @handle s p bus _ hb ih =>
    have hbus : ∀ q ∈ bus, ∀ r ∈ q, ∃ b, Row s.edus room b r := fun q hq => ih.bus q (by rw [hb]; exact List.mem_cons_of_mem _ hq)
    unfold handle
    split
    · refine ⟨ih.ci, ih.pub, ih.priv, hbus, ?_, ih.all, ih.has⟩
      intro r hr
      rcases List.mem_append.1 hr with hr | hr
      · exact ih.queue r hr
      · obtain ⟨h1, h2⟩ := handed_mem hr
        obtain ⟨b, h3⟩ := ih.bus p (by rw [hb]; exact List.mem_cons_self) r h1
        exact ⟨h3.room, h3.edu, h2⟩
    · exact ⟨ih.ci, ih.pub, ih.priv, hbus, ih.queue, ih.all, ih.has⟩
  | again body arrives _ hb hc ih =>
    obtain ⟨h1, h2⟩ := repeated_all (put := put) ih.ci hb hc arrives ih.all
    exact ⟨repeated_ci ih.ci hb hc arrives, ih.pub, ih.priv, ih.bus, ih.queue, h1, has_put ih.has h2⟩
  | @ask s body on _ hb hc ih =>
    have h1 := serve_ci ih.ci (b := ⟨body, on, none⟩) hc
    have h2 : (s.c.serve ⟨body, on, none⟩).All (FitAll user s.edus) := serve_all ih.all (by intro e he; cases he)
    unfold ask
    dsimp only
    split
    · exact ⟨h1, ih.pub, ih.priv, ih.bus, (by intro e he; cases he), h2, ih.has⟩
    · exact ⟨h1, ih.pub, ih.priv, ih.bus, ih.queue, h2, ih.has⟩
  | pass _ hb _ ih => exact ⟨ih.ci, ih.pub, ih.priv, ih.bus, ih.queue, ih.all, ih.has⟩
  | load inScope rooms readOk _ hb _ _ hin hr hk ih =>
    refine ⟨out_ci ih.ci hb _, ih.pub, ih.priv, ih.bus, ih.queue, out_all ih.all ?_, ih.has⟩
    split
    · exact initial_fit ih.pub ih.priv
    · intro e he; cases he
  | come _ _ _ _ ih => exact ⟨ih.ci, ih.pub, ih.priv, ih.bus, ih.queue, ih.all, ih.has⟩
  | @take s b r q res _ hb _ hq _ ha ih =>
    have h1 := ih.queue r (by rw [hq]; exact List.mem_cons_self)
    refine ⟨out_ci ih.ci hb _, ih.pub, ih.priv, ih.bus, (fun x hx => ih.queue x (by rw [hq]; exact List.mem_cons_of_mem _ hx)),
      out_all ih.all ?_, ih.has⟩
    exact append_fit (ih.all.2 b hb) h1.1 h1.2 ha
  | @drop s b r q _ hb _ hq ih =>
    exact ⟨ih.ci, ih.pub, ih.priv, ih.bus, (fun x hx => ih.queue x (by rw [hq]; exact List.mem_cons_of_mem _ hx)), ih.all, ih.has⟩
  | done fails arrives _ hb _ hf ih =>
    obtain ⟨h1, h2⟩ := finish_all (put := put) ih.ci hb fails arrives ih.all
    exact ⟨finish_ci ih.ci hb fails arrives, ih.pub, ih.priv, ih.bus, ih.queue, h1, has_put ih.has h2⟩
  | lose _ ih => exact ⟨lose_ci ih.ci, ih.pub, ih.priv, ih.bus, (by intro e he; cases he), lose_all _, ih.has⟩
  | restart _ ih =>
    exact ⟨lose_ci ih.ci, ih.pub, ih.priv, (by intro e he; cases he), (by intro e he; cases he), lose_all _, ih.has⟩

/-- **C126**: a client is never told a private receipt of another user. -/
theorem C126_private (user room : String) (ok : Mode) (s : State) (h : Run user room ok s) (event other : String) (i : Info)
    (hh : ((event, true, other), i) ∈ s.c.has) : other = user := ((run_auth h).has _ hh).2 rfl

/-- **C126**: it is told only receipts that a poller delivered for the room – with their event, user, timestamp and thread, and public
only if they were delivered as public. -/
theorem C126_authentic (user room : String) (ok : Mode) (s : State) (h : Run user room ok s) (x : Key × Info) (hh : x ∈ s.c.has) :
    ∃ edu ∈ s.edus, edu.type = "m.receipt" ∧ x ∈ edu.content := ((run_auth h).has _ hh).1

end Verif.ReceiptFlow
