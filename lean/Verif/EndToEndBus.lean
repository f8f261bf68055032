import Verif.EndToEnd
import Verif.StartPosProps
import Verif.RoomsBuilderProps
/-!
# What is under way between the pollers and the connections (for C114)

The events of the messages that are not taken yet are, room by room, the stored timeline events after the last one handed on.
-/
namespace Verif.EndToEnd
open Verif.Store (DB Row TI)

/-! ## Specification -/

/-- The positions of the events of a room that came in timelines, in order. -/
def posOf (db : DB) (room : String) : List Nat := (db.rows.filter fun x => decide (x.room = room) && !x.isState).map (·.nid)

/-- The events of messages, with their rooms. -/
def pend : List Msg → List (String × Nat)
  | [] => []
  | .acc room nids :: ms => nids.map (room, ·) ++ pend ms
  | .init _ _ :: ms => pend ms
  | .inval _ :: ms => pend ms

def inRoom (room : String) (p : List (String × Nat)) : List Nat := (p.filter fun x => decide (x.1 = room)).map (·.2)

theorem pend_append (a b : List Msg) : pend (a ++ b) = pend a ++ pend b := by
  induction a with
  | nil => rfl
  | cons m a ih => cases m <;> simp [pend, ih]

theorem inRoom_append (r : String) (a b : List (String × Nat)) : inRoom r (a ++ b) = inRoom r a ++ inRoom r b := by simp [inRoom]

theorem mem_inRoom {r : String} {p : List (String × Nat)} {n : Nat} : n ∈ inRoom r p ↔ (r, n) ∈ p := by
  simp only [inRoom, List.mem_map, List.mem_filter, decide_eq_true_eq]
  constructor
  · rintro ⟨⟨a, b⟩, ⟨h1, h2⟩, h3⟩
    simp only at h2 h3
    subst h2 h3; exact h1
  · intro h; exact ⟨(r, n), ⟨h, rfl⟩, rfl⟩

/-! ## The store -/

def posC (l : List (Nat × String × Store.Ev × Bool)) (room : String) : List Nat :=
  (l.filter fun c => decide (c.2.1 = room) && !c.2.2.2).map (·.1)

theorem posOf_core (db : DB) (room : String) : posOf db room = posC (db.rows.map Row.core) room := by
  simp only [posOf, posC, List.filter_map, List.map_map]
  rfl

theorem mem_posOf {db : DB} {r : String} {n : Nat} : n ∈ posOf db r ↔ ∃ x ∈ db.rows, x.room = r ∧ x.isState = false ∧ x.nid = n := by
  simp [posOf, and_assoc]

theorem posOf_asc {db : DB} (h : TI db) (r : String) : (posOf db r).Pairwise (· < ·) := by
  unfold posOf
  rw [List.pairwise_map]
  exact h.asc.filter _

theorem nid_inj {db : DB} (h : TI db) {a b : Row} (ha : a ∈ db.rows) (hb : b ∈ db.rows) (he : a.nid = b.nid) : a = b := by
  have := h.asc
  generalize db.rows = l at this ha hb
  induction l with
  | nil => cases ha
  | cons x l ih =>
    rw [List.pairwise_cons] at this
    rcases List.mem_cons.1 ha with ha' | ha' <;> rcases List.mem_cons.1 hb with hb' | hb'
    · rw [ha', hb']
    · subst ha'; have := this.1 b hb'; omega
    · subst hb'; have := this.1 a ha'; omega
    · exact ih this.2 ha' hb'

/-- The events of a timeline are stored after all others, and published. -/
theorem acc_post {db db' : DB} (hI : TI db) {room : String} {skip : Nat} {limited : Bool} {timeline : List (Option Store.Ev)} {post : List Row}
    (h : Store.accumulate db room skip limited timeline = some (db', post)) :
    db'.rows.map Row.core = db.rows.map Row.core ++ post.map Row.core ∧ db.seq ≤ db'.seq ∧
    ∀ x ∈ post, x.room = room ∧ x.isState = false ∧ db.seq < x.nid := by
  rcases Store.acc_rows h with ⟨rfl, rfl, _⟩ | ⟨tagged, ht, hr, hq, hp⟩
  · simp
  · have hit := Store.insert_table hI room false skip tagged
    obtain ⟨new, h1, h2, h3, _⟩ := Store.insertLoop_spec room false tagged db.rows (db.seq + skip)
    have hnew : (Store.insert db room false skip tagged).2 = new := by simp [Store.insert, h1]
    have hpost : post = (Store.insert db room false skip tagged).2 := by
      rcases hp with ⟨a, b⟩ | hp
      · rw [a, b]
      · rw [hp]
        refine Store.find_filterMap _ _ ?_ (ht ▸ hit.2.2.2.1)
        have hd : ((Store.dedup [] timeline).map (·.id)).Nodup := by
          rw [Store.dedup_spec]
          exact (List.filter_sublist.map _).nodup (Store.firsts_nodup _)
        exact ((Store.filterNew_sublist db _).map _).nodup hd
    refine ⟨by rw [hr, hit.2.1, List.map_append, hpost], ?_, fun x hx => ?_⟩
    · rw [hq]; simp only [Store.insert, h2]; omega
    · rw [hpost, hnew] at hx
      have := h3 x hx
      exact ⟨this.2.2.1, this.2.2.2.1, by omega⟩

/-- One section: new rows after all others; those that came in a timeline are published. -/
theorem poll_new {db : DB} (hI : TI db) (o : Store.Op) :
    TI (Store.step db o) ∧ db.seq ≤ (Store.step db o).seq ∧
    ∃ new : List Row, (Store.step db o).rows.map Row.core = db.rows.map Row.core ++ new.map Row.core ∧ (∀ x ∈ new, db.seq < x.nid) ∧
      pend (publish db o) = (new.filter fun x => !x.isState).map fun x => (x.room, x.nid) := by
  refine ⟨(Store.step_table hI o).1, ?_⟩
  cases o with
  | acc room skip limited timeline =>
    simp only [Store.step, publish]
    cases ha : Store.accumulate db room skip limited timeline with
    | none => exact ⟨Nat.le_refl _, [], by simp, by simp, rfl⟩
    | some p =>
      obtain ⟨db', post⟩ := p
      obtain ⟨h1, h2, h3⟩ := acc_post hI ha
      refine ⟨h2, post, h1, fun x hx => (h3 x hx).2.2, ?_⟩
      have hf : (post.filter fun x => !x.isState) = post := by
        rw [List.filter_eq_self]; intro x hx; simp [(h3 x hx).2.1]
      have hm : post.map (fun x => (x.room, x.nid)) = (post.map (·.nid)).map (room, ·) := by
        rw [List.map_map]
        exact List.map_congr_left fun x hx => by simp [(h3 x hx).1]
      rw [hf, hm]
      cases post with
      | nil => rfl
      | cons x post => simp [pend]
  | init room skip block =>
    have hp : pend (publish db (.init room skip block)) = [] := by
      simp only [publish]
      repeat' split
      all_goals rfl
    rw [hp]
    rcases Store.init_rows db room skip block with hs | ⟨hr, hq⟩
    · rw [hs]; exact ⟨Nat.le_refl _, [], by simp, by simp, rfl⟩
    · obtain ⟨new, h1, h2, h3, _⟩ := Store.insertLoop_spec room true ((block.filterMap id).map fun e => (e, false)) db.rows (db.seq + skip)
      refine ⟨by rw [hq]; simp only [Store.insert, h2]; omega, new, by rw [hr]; simp [Store.insert, h1], fun x hx => by
        have := (h3 x hx).1; omega, ?_⟩
      rw [show (new.filter fun x => !x.isState) = [] by
        rw [List.filter_eq_nil_iff]; intro x hx; simp [(h3 x hx).2.2.2.1]]
      rfl

theorem posOf_new {db db' : DB} {new : List Row} (h : db'.rows.map Row.core = db.rows.map Row.core ++ new.map Row.core) (r : String) :
    posOf db' r = posOf db r ++ inRoom r ((new.filter fun x => !x.isState).map fun x => (x.room, x.nid)) := by
  rw [posOf_core, h, posOf_core]
  simp only [posC, inRoom, List.filter_append, List.map_append, List.filter_map, List.map_map, List.filter_filter]
  rfl

/-! ## The messages -/

structure Bus (db : DB) (handed : Nat) (p : List (String × Nat)) : Prop where
  asc : (p.map (·.2)).Pairwise (· < ·)
  gt : ∀ x ∈ p, handed < x.2
  room : ∀ r, inRoom r p = (posOf db r).filter (handed < ·)
  handed : handed = 0 ∨ ∃ x ∈ db.rows, x.nid = handed

theorem Bus.le_seq {db : DB} (hI : TI db) {h : Nat} {p : List (String × Nat)} (hb : Bus db h p) : h ≤ db.seq := by
  rcases hb.handed with h0 | ⟨x, hx, rfl⟩
  · omega
  · exact (hI.range x hx).2

theorem Bus.mem {db : DB} {h : Nat} {p : List (String × Nat)} (hb : Bus db h p) {r : String} {n : Nat} (hm : (r, n) ∈ p) : n ∈ posOf db r := by
  have := mem_inRoom.2 hm
  rw [hb.room] at this
  exact (List.mem_filter.1 this).1

theorem fwd {db db' : DB} {new : List Row} (h : db'.rows.map Row.core = db.rows.map Row.core ++ new.map Row.core) {x : Row} (hx : x ∈ db.rows) :
    ∃ y ∈ db'.rows, y.core = x.core := by
  have : x.core ∈ db'.rows.map Row.core := by rw [h]; exact List.mem_append_left _ (List.mem_map_of_mem hx)
  obtain ⟨y, hy, he⟩ := List.mem_map.1 this
  exact ⟨y, hy, he⟩

theorem bus_poll {db : DB} (hI : TI db) {h : Nat} {bus : List Msg} (hb : Bus db h (pend bus)) (o : Store.Op) :
    Bus (Store.step db o) h (pend (bus ++ publish db o)) := by
  obtain ⟨_, _, new, h1, h2, h3⟩ := poll_new hI o
  have hle := hb.le_seq hI
  have hasc : ((new.filter fun x => !x.isState).map fun x => x.nid).Pairwise (· < ·) := by
    have := (Store.step_table hI o).1.asc
    have h4 : ((Store.step db o).rows.map Row.core).Pairwise fun a b => a.1 < b.1 := by rw [List.pairwise_map]; exact this
    rw [h1, List.pairwise_append] at h4
    have h5 := h4.2.1
    rw [List.pairwise_map] at h5
    rw [List.pairwise_map]
    exact h5.filter _
  have hin : ∀ r, ∀ n ∈ inRoom r ((new.filter fun x => !x.isState).map fun x => (x.room, x.nid)), db.seq < n := by
    intro r n hn
    obtain ⟨x, hx, he⟩ := List.mem_map.1 (mem_inRoom.1 hn)
    simp only [Prod.mk.injEq] at he
    rw [← he.2]
    exact h2 x (List.mem_filter.1 hx).1
  rw [pend_append, h3]
  refine ⟨?_, ?_, ?_, ?_⟩
  · rw [List.map_append, List.pairwise_append]
    refine ⟨hb.asc, by rw [List.map_map]; exact hasc, fun a ha b hb' => ?_⟩
    obtain ⟨⟨r, n⟩, hx, rfl⟩ := List.mem_map.1 ha
    obtain ⟨⟨r', n'⟩, hy, rfl⟩ := List.mem_map.1 hb'
    obtain ⟨x, hx', hx2, hx3, rfl⟩ := mem_posOf.1 (hb.mem hx)
    have := (hI.range x hx').2
    have := hin r' n' (mem_inRoom.2 hy)
    simp only; omega
  · intro x hx
    rcases List.mem_append.1 hx with hx | hx
    · exact hb.gt x hx
    · have := hin x.1 x.2 (mem_inRoom.2 hx)
      omega
  · intro r
    rw [inRoom_append, posOf_new h1, List.filter_append, hb.room]
    congr 1
    symm
    rw [List.filter_eq_self]
    intro n hn
    have := hin r n hn
    simp; omega
  · rcases hb.handed with h0 | ⟨x, hx, he⟩
    · exact Or.inl h0
    · obtain ⟨y, hy, hc⟩ := fwd h1 hx
      exact Or.inr ⟨y, hy, by rw [(Store.core_eq hc).1]; exact he⟩

theorem bus_next {db : DB} {h n : Nat} {room : String} {p : List (String × Nat)} (hb : Bus db h ((room, n) :: p)) : Bus db n p := by
  have hasc := hb.asc
  rw [List.map_cons, List.pairwise_cons] at hasc
  have hgt : ∀ x ∈ p, n < x.2 := fun x hx => hasc.1 _ (List.mem_map_of_mem hx)
  have hn := hb.gt _ (List.mem_cons_self)
  simp only at hn
  refine ⟨hasc.2, hgt, fun r => ?_, Or.inr ?_⟩
  · have he : (posOf db r).filter (n < ·) = ((posOf db r).filter (h < ·)).filter (n < ·) := by
      rw [List.filter_filter]
      apply List.filter_congr
      intro x _
      by_cases hx : n < x
      · simp [hx]; omega
      · simp [hx]
    rw [he, ← hb.room]
    have hself : (inRoom r p).filter (n < ·) = inRoom r p := by
      rw [List.filter_eq_self]
      intro x hx
      have := hgt _ (mem_inRoom.1 hx)
      simpa using this
    by_cases hr : room = r
    · simp only [inRoom, List.filter_cons, hr, decide_true, if_true, List.map_cons, Nat.lt_irrefl, decide_false, Bool.false_eq_true, if_false]
      exact hself.symm
    · simp only [inRoom, List.filter_cons, hr, decide_false, Bool.false_eq_true, if_false]
      exact hself.symm
  · obtain ⟨x, hx, _, _, he⟩ := mem_posOf.1 (hb.mem (List.mem_cons_self))
    exact ⟨x, hx, he⟩

/-- The rows of a message are found, in the order of the numbers. -/
theorem select_acc {db : DB} (hI : TI db) {h : Nat} {room : String} {nids : List Nat} {p : List (String × Nat)}
    (hb : Bus db h (nids.map (room, ·) ++ p)) :
    ∃ rows, Store.selectByNIDs db nids = some rows ∧ rows.map (·.nid) = nids ∧ ∀ x ∈ rows, x ∈ db.rows ∧ x.room = room ∧ x.isState = false := by
  have hmem : ∀ n ∈ nids, n ∈ posOf db room := fun n hn => hb.mem (List.mem_append_left _ (List.mem_map_of_mem hn))
  have hasc : nids.Pairwise (· < ·) := by
    have := hb.asc
    rw [List.map_append, List.pairwise_append, List.map_map] at this
    simpa [Function.comp_def] using this.1
  have he : (db.rows.filter fun r => decide (r.nid ∈ nids)).map (·.nid) = nids := by
    apply RoomsBuilder.sorted_ext
    · rw [List.pairwise_map]; exact hI.asc.filter _
    · exact hasc
    · intro i
      simp only [List.mem_map, List.mem_filter, decide_eq_true_eq]
      constructor
      · rintro ⟨x, ⟨_, h2⟩, rfl⟩; exact h2
      · intro hi
        obtain ⟨x, hx, _, _, rfl⟩ := mem_posOf.1 (hmem i hi)
        exact ⟨x, ⟨hx, hi⟩, rfl⟩
  refine ⟨db.rows.filter fun r => decide (r.nid ∈ nids), ?_, he, fun x hx => ?_⟩
  · simp only [Store.selectByNIDs]
    rw [if_neg]
    rintro ⟨_, h2⟩
    apply h2
    have := congrArg List.length he
    rw [List.length_map] at this
    exact this.symm
  · simp only [List.mem_filter, decide_eq_true_eq] at hx
    obtain ⟨y, hy, h1, h2, h3⟩ := mem_posOf.1 (hmem _ hx.2)
    have := nid_inj hI hx.1 hy h3.symm
    subst this
    exact ⟨hx.1, h1, h2⟩

end Verif.EndToEnd
