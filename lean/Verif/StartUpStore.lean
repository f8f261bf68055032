import Verif.StartUpProps
import Verif.MetadataProps
/-!
# C136 on the tables the store makes
-/
namespace Verif.StartUp

open Verif

/-- The tables of the store (`Store`) as start-up reads them. `g` adds what is read of the JSON of an event; `rooms` are the rooms of the rooms
table; the other columns of that table, and the spaces table, are any. -/
def ofStore (db : Store.DB) (g : Store.Row → Row) (rooms : List String) (info : String → RoomsTable.Row) (kids : List Kid) : DB where
  rows := db.rows.map g
  rooms := rooms.map fun r => (r, match db.snaps.find? (·.id = db.cur r) with
    | some s => { info := info r, evs := s.others, members := s.members }
    | none => { info := info r })
  kids := kids

/-- **C136, on any history.** After any history of timelines and state blocks the tables are as `C136_rooms` asks. -/
theorem C136_store (ops : List Store.Op) (hok : ∀ o ∈ ops, Store.OkOp o) (g : Store.Row → Row)
    (hg : ∀ r, (g r).nid = r.nid ∧ (g r).room = r.room ∧ (g r).type = r.ev.type ∧ (g r).key = r.ev.stateKey)
    (rooms : List String) (hr : rooms.Nodup) (info : String → RoomsTable.Row) (kids : List Kid) :
    Ok (ofStore (Store.run ops) g rooms info kids) := by
  have hrel := Store.run_spec ops hok
  have hcur : ∀ r x, (r, x) ∈ (ofStore (Store.run ops) g rooms info kids).rooms → ∀ n, n ∈ x.evs ∨ n ∈ x.members → ∀ q ∈ (Store.run ops).rows,
      q.nid = n → q ∈ Metadata.currentRows (Store.run ops) r := by
    intro r x hx n hn q hq hqn
    simp only [ofStore, List.mem_map] at hx
    obtain ⟨r', -, hx⟩ := hx
    cases hs : (Store.run ops).snaps.find? (·.id = (Store.run ops).cur r') with
    | none =>
      rw [hs] at hx
      cases hx
      simp at hn
    | some s =>
      rw [hs] at hx
      cases hx
      unfold Metadata.currentRows
      rw [hs]
      refine List.mem_filter.2 ⟨hq, ?_⟩
      simp only [decide_eq_true_eq, Store.Snap.nids, List.mem_append, hqn]
      exact hn.symm
  refine ⟨?_, ?_, ?_, ?_⟩
  · show ((Store.run ops).rows.map g).Pairwise _
    rw [List.pairwise_map]
    refine hrel.inv.asc.imp fun {a b} h => ?_
    rw [(hg a).1, (hg b).1]
    exact h
  · have : (ofStore (Store.run ops) g rooms info kids).rooms.map (·.1) = rooms := by
      simp [ofStore, List.map_map, Function.comp_def]
    rw [this]
    exact hr
  · intro r x hx n hn e he hen
    obtain ⟨q, hq, rfl⟩ := List.mem_map.1 he
    rw [(hg q).1] at hen
    rw [(hg q).2.1]
    exact ((Metadata.currentRows_spec hrel r).1 q (hcur r x hx n hn q hq hen)).2
  · intro r x hx a ha b hb hea heb ht hk
    obtain ⟨q, hq, rfl⟩ := List.mem_map.1 ha
    obtain ⟨p, hp, rfl⟩ := List.mem_map.1 hb
    have h1 := hcur r x hx _ (.inl hea) q hq (hg q).1.symm
    have h2 := hcur r x hx _ (.inl heb) p hp (hg p).1.symm
    rw [(hg q).2.2.1, (hg p).2.2.1] at ht
    rw [(hg q).2.2.2, (hg p).2.2.2] at hk
    have hkey : q.ev.key = p.ev.key := Prod.ext ht hk
    obtain ⟨i, hi, rfl⟩ := List.mem_iff_getElem.1 h1
    obtain ⟨j, hj, rfl⟩ := List.mem_iff_getElem.1 h2
    have hpw := List.pairwise_iff_getElem.1 (Metadata.currentRows_spec hrel r).2.1
    rcases Nat.lt_trichotomy i j with hl | rfl | hl
    · exact absurd hkey (hpw i j hi hj hl)
    · rfl
    · exact absurd hkey.symm (hpw j i hj hi hl)

/-- A history with two rooms. -/
example : (∀ o ∈ [Store.Op.init "!r" 0 [some ⟨"$1", "m.room.create", "", true⟩, some ⟨"$2", "m.room.member", "@a", true⟩],
      .init "!s" 0 [some ⟨"$3", "m.room.create", "", true⟩, some ⟨"$4", "m.room.member", "@b", true⟩],
      .acc "!r" 0 false [some ⟨"$5", "m.room.name", "", true⟩]], Store.OkOp o) ∧
    (ofStore (Store.run [Store.Op.init "!r" 0 [some ⟨"$1", "m.room.create", "", true⟩, some ⟨"$2", "m.room.member", "@a", true⟩],
      .init "!s" 0 [some ⟨"$3", "m.room.create", "", true⟩, some ⟨"$4", "m.room.member", "@b", true⟩],
      .acc "!r" 0 false [some ⟨"$5", "m.room.name", "", true⟩]])
      (fun r => { nid := r.nid, room := r.room, type := r.ev.type, key := r.ev.stateKey }) ["!r", "!s"]
      (fun _ => { snapshot := 0, latest := 0 }) []).rooms.map (fun p => (p.2.evs, p.2.members)) = [([1, 5], [2]), ([3], [4])] := by
  constructor
  · intro o ho
    simp only [List.mem_cons, List.not_mem_nil, or_false] at ho
    rcases ho with rfl | rfl | rfl
    · refine ⟨by decide, ?_⟩
      intro e he
      simp at he
      rcases he with rfl | rfl <;> simp [Store.Clean]
    · refine ⟨by decide, ?_⟩
      intro e he
      simp at he
      rcases he with rfl | rfl <;> simp [Store.Clean]
    · intro e he
      simp at he
      subst he
      simp [Store.Clean]
  · decide +kernel

end Verif.StartUp
