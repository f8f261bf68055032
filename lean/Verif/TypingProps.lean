import Verif.Typing
/-! C55: typing updates for a room come from one poller at a time. -/
namespace Verif.Typing
open Verif

/-! ### Specification -/

/-- The operation ends the use of a poller for a room. -/
def Releases (pid : Pid) (room : String) : Op → Prop
  | .setTyping _ _ _ => False
  | .terminated p => p = pid
  | .left _ r ok => r = room ∧ ok = true

/-- In the history, the update `pid, room` was passed on, and nothing has ended the use of the poller for the room since. -/
def Holds (ops : List Op) (pid : Pid) (room : String) : Prop :=
  ∃ a e b, ops = a ++ .setTyping pid room e :: b ∧ emit (run a) (.setTyping pid room e) = [(room, e)] ∧ ∀ o ∈ b, ¬ Releases pid room o

/-- C55 as stated: an update is passed on exactly if no other poller holds the room. -/
def OneAtATime : Prop := ∀ (ops : List Op) (pid : Pid) (room e : String),
  emit (run ops) (.setTyping pid room e) = [(room, e)] ↔ ¬ ∃ p, p ≠ pid ∧ Holds ops p room

/-! ### Where it fails: pollers without device id -/

/-- C55 is violated by pollers without device id (application services): such a poller never holds the room, so that the
updates of others are passed on as well. -/
theorem C55_violated : ¬ OneAtATime := by
  intro h
  have h1 := (h [.setTyping ("@bot", "") "!r" "x"] ("@a", "A") "!r" "y").1 (by decide)
  exact h1 ⟨("@bot", ""), by decide, [], "x", [], rfl, by decide, by simp⟩

/-! ### Where it holds -/

def Proper (pid : Pid) : Prop := pid.1 ≠ "" ∧ pid.2 ≠ ""

theorem run_snoc (ops : List Op) (op : Op) : run (ops ++ [op]) = step (run ops) op := by
  simp only [run, List.foldl_append, List.foldl_cons, List.foldl_nil]

theorem emit_iff (m : List (String × Pid)) (pid : Pid) (room e : String) :
    emit m (.setTyping pid room e) = [(room, e)] ↔ accepts m pid room = true := by
  simp only [emit]; split <;> simp_all

theorem Holds.init {ops : List Op} {op : Op} {pid : Pid} {room : String} (h : Holds ops pid room) (ho : ¬ Releases pid room op) :
    Holds (ops ++ [op]) pid room := by
  obtain ⟨a, e, b, rfl, h1, h2⟩ := h
  refine ⟨a, e, b ++ [op], by simp, h1, ?_⟩
  intro o hm
  rcases List.mem_append.1 hm with hm | hm
  · exact h2 o hm
  · rw [List.mem_singleton.1 hm]; exact ho

/-- Room keys are unique in the map. -/
theorem nodup_run (ops : List Op) : ((run ops).map (·.1)).Nodup := by
  induction ops using Verif.Util.snocRec with
  | nil => simp [run]
  | append_singleton ops op ih =>
    rw [run_snoc]
    cases op with
    | setTyping pid room e =>
      simp only [step]
      split
      · simp only [Assoc.set, Assoc.del, List.map_append, List.map_cons, List.map_nil]
        rw [List.nodup_append]
        refine ⟨(List.filter_sublist.map _).nodup ih, by simp, ?_⟩
        intro a ha b hb
        obtain ⟨e, he, rfl⟩ := List.mem_map.1 ha
        rw [List.mem_singleton.1 hb]
        simpa using (List.mem_filter.1 he).2
      · exact ih
    | terminated pid => exact (List.filter_sublist.map _).nodup ih
    | left u r ok =>
      cases ok
      · exact ih
      · exact (List.filter_sublist.map _).nodup ih

theorem get_iff {m : List (String × Pid)} (hn : (m.map (·.1)).Nodup) (room : String) (p : Pid) :
    Assoc.get m room = some p ↔ (room, p) ∈ m := by
  refine ⟨Assoc.get_mem, ?_⟩
  intro hm
  induction m with
  | nil => cases hm
  | cons e m ih =>
    simp only [List.map_cons, List.nodup_cons] at hn
    rcases List.mem_cons.1 hm with hm | hm
    · subst hm; simp [Assoc.get]
    · have hne : ¬ e.1 = room := fun he => hn.1 (List.mem_map.2 ⟨_, hm, he.symm⟩)
      have := ih hn.2 hm
      simpa [Assoc.get, hne] using this

/-- The assigned poller is the one that holds the room. -/
theorem assigned_holds (ops : List Op) (room : String) (p : Pid) (h : Assoc.get (run ops) room = some p) : Holds ops p room := by
  induction ops using Verif.Util.snocRec with
  | nil => cases h
  | append_singleton ops op ih =>
    have hn := nodup_run ops
    rw [run_snoc] at h
    cases op with
    | setTyping pid r e =>
      simp only [step] at h
      cases ha : assigned (run ops) r with
      | some q => rw [ha] at h; exact (ih h).init (fun hr => hr)
      | none =>
        rw [ha] at h
        simp only at h
        rw [Assoc.get_set] at h
        by_cases hr : room = r
        · subst hr
          rw [if_pos rfl] at h
          have := Option.some.inj h
          subst this
          exact ⟨ops, e, [], rfl, (emit_iff _ _ _ _).2 (by simp [accepts, ha]), by simp⟩
        · rw [if_neg hr] at h; exact (ih h).init (fun hr => hr)
    | terminated q =>
      simp only [step] at h
      have hm := Assoc.get_mem h
      obtain ⟨hm1, hm2⟩ := List.mem_filter.1 hm
      simp only [decide_eq_true_eq] at hm2
      exact (ih ((get_iff hn room p).2 hm1)).init (fun hr => hm2 hr.symm)
    | left u r ok =>
      simp only [step] at h
      cases ok
      · exact (ih h).init (fun hr => by simp [Releases] at hr)
      · simp only [if_true] at h
        rw [Assoc.get_del] at h
        by_cases hr : room = r
        · rw [if_pos hr] at h; cases h
        · rw [if_neg hr] at h; exact (ih h).init (fun h' => hr h'.1.symm)

/-- A proper poller that holds a room is assigned. -/
theorem holds_assigned (ops : List Op) (room : String) (p : Pid) (hp : Proper p) (h : Holds ops p room) :
    Assoc.get (run ops) room = some p := by
  obtain ⟨a, e, b, rfl, h1, h2⟩ := h
  rw [emit_iff] at h1
  induction b using Verif.Util.snocRec with
  | nil =>
    rw [run_snoc]
    simp only [step]
    simp only [accepts] at h1
    cases ha : assigned (run a) room with
    | none => simp only; rw [Assoc.get_set, if_pos rfl]
    | some q =>
      rw [ha] at h1
      simp only [decide_eq_true_eq] at h1
      subst h1
      simp only [assigned] at ha
      cases hg : Assoc.get (run a) room with
      | none => rw [hg] at ha; cases ha
      | some x =>
        rw [hg] at ha
        simp only [Option.filter] at ha
        split at ha
        · simpa using ha
        · cases ha
  | append_singleton b op ih =>
    have ih := ih fun o ho => h2 o (by simp [ho])
    have hop := h2 op (by simp)
    have hrw : a ++ .setTyping p room e :: (b ++ [op]) = (a ++ .setTyping p room e :: b) ++ [op] := by simp
    rw [hrw, run_snoc]
    cases op with
    | setTyping q r e' =>
      simp only [step]
      split
      · rename_i hnone
        rw [Assoc.get_set]
        by_cases hr : room = r
        · subst hr
          simp [assigned, ih, Option.filter, hp.1, hp.2] at hnone
        · rw [if_neg hr]; exact ih
      · exact ih
    | terminated q =>
      simp only [step]
      have hn := nodup_run (a ++ .setTyping p room e :: b)
      have hn' : (((run (a ++ .setTyping p room e :: b)).filter fun e => decide (e.2 ≠ q)).map (·.1)).Nodup :=
        (List.filter_sublist.map _).nodup hn
      rw [get_iff hn']
      refine List.mem_filter.2 ⟨(get_iff hn room p).1 ih, ?_⟩
      simp only [decide_eq_true_eq]
      exact fun he => hop he.symm
    | left u r ok =>
      simp only [step]
      cases ok
      · exact ih
      · simp only [if_true]
        rw [Assoc.get_del]
        by_cases hr : room = r
        · exact absurd ⟨hr.symm, rfl⟩ hop
        · rw [if_neg hr]; exact ih

/-- If every poller has a device id and a user id: an update is passed on exactly if no other poller holds the room, that is, if
every other poller with an update passed on has since ended or somebody left the room. At most one poller holds
a room at any time. -/
theorem C55_partial (ops : List Op) (hp : ∀ pid room e, Op.setTyping pid room e ∈ ops → Proper pid) (room : String) :
    (∀ pid e, emit (run ops) (.setTyping pid room e) = [(room, e)] ↔ ¬ ∃ p, p ≠ pid ∧ Holds ops p room) ∧
    (∀ p q, Holds ops p room → Holds ops q room → p = q) := by
  have hpp : ∀ p, Holds ops p room → Proper p := by
    rintro p ⟨a, e, b, rfl, _⟩
    exact hp p room e (by simp)
  constructor
  · intro pid e
    rw [emit_iff]
    constructor
    · rintro h ⟨p, hne, hh⟩
      have hg := holds_assigned ops room p (hpp p hh) hh
      have hpr := hpp p hh
      simp only [accepts, assigned, hg, Option.filter, hpr.1, hpr.2, ne_eq, not_false_eq_true, decide_true, Bool.and_self,
        if_true, decide_eq_true_eq] at h
      exact hne h
    · intro h
      simp only [accepts]
      split
      · rfl
      · rename_i p ha
        simp only [assigned] at ha
        cases hg : Assoc.get (run ops) room with
        | none => rw [hg] at ha; cases ha
        | some x =>
          rw [hg] at ha
          have hx : x = p := by
            simp only [Option.filter] at ha
            split at ha
            · simpa using ha
            · cases ha
          subst hx
          have := assigned_holds ops room x hg
          simp only [decide_eq_true_eq]
          by_cases he : x = pid
          · exact he
          · exact absurd ⟨x, he, this⟩ h
  · intro p q h1 h2
    have e1 := holds_assigned ops room p (hpp p h1) h1
    rw [holds_assigned ops room q (hpp q h2) h2] at e1
    exact (Option.some.inj e1).symm

/-- One poller holds, another is dropped, then takes over. -/
example : (emit (run [.setTyping ("@a", "A") "!r" "x"]) (.setTyping ("@b", "B") "!r" "y") = []) ∧
    (emit (run [.setTyping ("@a", "A") "!r" "x", .setTyping ("@b", "B") "!r" "y", .terminated ("@a", "A")])
      (.setTyping ("@b", "B") "!r" "z") = [("!r", "z")]) := by decide

end Verif.Typing
