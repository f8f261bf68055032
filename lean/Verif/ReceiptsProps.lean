import Verif.Receipts
import Verif.SqlUtilProps
/-! C45 (packing, privacy) and C66 (storage of receipts). -/
namespace Verif.Receipts

/-! ### Specification -/

/-- `r` is the receipt to show for the key `k` among `l`: the last unthreaded one, or if there is none, the first. -/
def Chosen (l : List Receipt) (k : Key) (r : Receipt) : Prop :=
  (∃ a b, l = a ++ r :: b ∧ r.key = k ∧ r.thread = "" ∧ ∀ x ∈ b, x.key = k → x.thread ≠ "") ∨
  ((∀ x ∈ l, x.key = k → x.thread ≠ "") ∧ ∃ a b, l = a ++ r :: b ∧ r.key = k ∧ ∀ x ∈ a, x.key ≠ k)

/-! ### Maps -/

def Distinct (c : Content) : Prop := (c.map (·.1)).Nodup

theorem get_isSome_iff (c : Content) (k : Key) : (get c k).isSome = true ↔ k ∈ c.map (·.1) := by
  simp only [get, Option.isSome_map, List.find?_isSome, decide_eq_true_eq, List.mem_map]

theorem get_iff {c : Content} (h : Distinct c) (k : Key) (i : Info) : get c k = some i ↔ (k, i) ∈ c := by
  induction c with
  | nil => simp [get]
  | cons e c ih =>
    rw [Distinct, List.map_cons, List.nodup_cons] at h
    have ih := ih h.2
    simp only [get, List.find?_cons] at ih ⊢
    by_cases he : e.1 = k
    · simp only [he, decide_true, Option.map_some, Option.some.injEq, List.mem_cons]
      constructor
      · intro hi; left; rw [← he, ← hi]
      · rintro (hc | hc)
        · rw [← hc]
        · exact absurd (he ▸ List.mem_map_of_mem hc) h.1
    · simp only [he, decide_false, List.mem_cons]
      rw [ih]
      constructor
      · exact Or.inr
      · rintro (hc | hc)
        · exact absurd (by rw [← hc]) he
        · exact hc

theorem set_spec {c : Content} (h : Distinct c) (k : Key) (i : Info) :
    Distinct (set c k i) ∧ ∀ k', get (set c k i) k' = if k = k' then some i else get c k' := by
  by_cases hs : (get c k).isSome = true
  · have hset : set c k i = c.map fun e => if e.1 = k then (k, i) else e := by simp only [set]; rw [if_pos hs]
    have hkeys : (c.map fun e => if e.1 = k then (k, i) else e).map (·.1) = c.map (·.1) := by
      rw [List.map_map]
      apply List.map_congr_left
      intro e _
      simp only [Function.comp]
      split
      · rename_i he; exact he.symm
      · rfl
    have hd : Distinct (set c k i) := by rw [hset, Distinct, hkeys]; exact h
    refine ⟨hd, fun k' => ?_⟩
    apply Option.ext
    intro j
    rw [get_iff hd, hset]
    simp only [List.mem_map]
    by_cases hk : k = k'
    · subst hk
      rw [if_pos rfl]
      constructor
      · rintro ⟨e, he, hej⟩
        by_cases hek : e.1 = k
        · rw [if_pos hek] at hej; exact congrArg some (Prod.mk.inj hej).2
        · rw [if_neg hek] at hej; rw [hej] at hek; exact absurd rfl hek
      · intro hj
        rw [get_isSome_iff] at hs
        obtain ⟨e, he, hek⟩ := List.mem_map.1 hs
        exact ⟨e, he, by rw [if_pos hek, Option.some.inj hj]⟩
    · rw [if_neg hk, get_iff h]
      constructor
      · rintro ⟨e, he, hej⟩
        by_cases hek : e.1 = k
        · rw [if_pos hek] at hej; exact absurd (Prod.mk.inj hej).1 hk
        · rw [if_neg hek] at hej; rw [← hej]; exact he
      · intro hm
        exact ⟨(k', j), hm, by rw [if_neg (fun he => hk he.symm)]⟩
  · have hset : set c k i = c ++ [(k, i)] := by simp only [set]; rw [if_neg hs]
    rw [get_isSome_iff] at hs
    have hd : Distinct (set c k i) := by
      rw [hset, Distinct, List.map_append, List.nodup_append]
      refine ⟨h, by simp, ?_⟩
      intro a ha b hb hab
      simp only [List.map_cons, List.map_nil, List.mem_singleton] at hb
      exact hs (hb ▸ hab ▸ ha)
    refine ⟨hd, fun k' => ?_⟩
    apply Option.ext
    intro j
    rw [get_iff hd, hset, List.mem_append, List.mem_singleton]
    by_cases hk : k = k'
    · subst hk
      rw [if_pos rfl]
      constructor
      · rintro (hm | hm)
        · exact absurd (List.mem_map_of_mem (f := (·.1)) hm) hs
        · rw [(Prod.mk.inj hm).2]
      · intro hj; right; rw [Option.some.inj hj]
    · rw [if_neg hk, get_iff h]
      constructor
      · rintro (hm | hm)
        · exact hm
        · exact absurd (Prod.mk.inj hm).1.symm hk
      · exact Or.inl

theorem packOne_spec {c : Content} (h : Distinct c) (r : Receipt) :
    Distinct (packOne c r) ∧ ∀ k, get (packOne c r) k =
      if r.key = k ∧ (get c k = none ∨ r.thread = "") then some ⟨r.ts, r.thread⟩ else get c k := by
  obtain ⟨h1, h2⟩ := set_spec h r.key ⟨r.ts, r.thread⟩
  by_cases hc : get c r.key = none ∨ r.thread = ""
  · have hp : packOne c r = set c r.key ⟨r.ts, r.thread⟩ := by
      simp only [packOne]
      rw [if_pos]
      rcases hc with hc | hc
      · simp [hc]
      · simp only [hc, decide_true, Bool.and_true]
        cases (get c r.key).isSome <;> rfl
    rw [hp]
    refine ⟨h1, fun k => ?_⟩
    rw [h2]
    by_cases hk : r.key = k
    · subst hk; rw [if_pos rfl, if_pos ⟨rfl, hc⟩]
    · rw [if_neg hk, if_neg (fun hh => hk hh.1)]
  · have hp : packOne c r = c := by
      simp only [packOne]
      rw [if_neg]
      have h1 : (get c r.key).isSome = true := by
        cases hg : get c r.key with
        | none => exact absurd (Or.inl hg) hc
        | some _ => rfl
      have h2 : ¬ r.thread = "" := fun h => hc (Or.inr h)
      simp [h1, h2]
    rw [hp]
    refine ⟨h, fun k => ?_⟩
    rw [if_neg]
    rintro ⟨rfl, hh⟩
    exact hc hh

theorem pack_distinct (l : List Receipt) : Distinct (pack l).content := by
  show Distinct (l.foldl packOne [])
  induction l using Verif.Util.snocRec with
  | nil => simp [Distinct]
  | append_singleton l r ih =>
    rw [List.foldl_append]; exact (packOne_spec ih r).1

theorem pack_snoc (l : List Receipt) (r : Receipt) (k : Key) : get (pack (l ++ [r])).content k =
    if r.key = k ∧ (get (pack l).content k = none ∨ r.thread = "") then some ⟨r.ts, r.thread⟩
    else get (pack l).content k := by
  show get ((l ++ [r]).foldl packOne []) k = _
  rw [List.foldl_append]
  exact (packOne_spec (pack_distinct l) r).2 k

theorem pack_none (l : List Receipt) (k : Key) : get (pack l).content k = none ↔ ∀ r ∈ l, r.key ≠ k := by
  induction l using Verif.Util.snocRec with
  | nil => simp [pack, get]
  | append_singleton l r ih =>
    rw [pack_snoc]
    by_cases hk : r.key = k
    · have hno : ¬ ∀ x ∈ l ++ [r], x.key ≠ k := fun h => h r (by simp) hk
      simp only [hno, iff_false]
      split
      · simp
      · rename_i hc
        intro hn
        exact hc ⟨hk, Or.inl hn⟩
    · rw [if_neg (fun h => hk h.1), ih]
      constructor
      · intro h x hx
        rcases List.mem_append.1 hx with hx | hx
        · exact h x hx
        · rw [List.mem_singleton.1 hx]; exact hk
      · intro h x hx; exact h x (by simp [hx])

theorem chosen_snoc_other {l : List Receipt} {k : Key} {r x : Receipt} (hk : r.key ≠ k) :
    Chosen (l ++ [r]) k x ↔ Chosen l k x := by
  constructor
  · rintro (⟨a, b, hab, h1, h2, h3⟩ | ⟨h0, a, b, hab, h1, h2⟩)
    · rcases List.eq_nil_or_concat b with rfl | ⟨b', y, rfl⟩
      · have := List.append_inj' hab rfl
        simp only [List.cons.injEq, and_true] at this
        exact absurd (this.2 ▸ h1) hk
      · have h4 : l ++ [r] = (a ++ x :: b') ++ [y] := by simpa using hab
        have := (List.append_inj' h4 rfl).1
        exact Or.inl ⟨a, b', this, h1, h2, fun z hz => h3 z (by simp [hz])⟩
    · rcases List.eq_nil_or_concat b with rfl | ⟨b', y, rfl⟩
      · have := List.append_inj' hab rfl
        simp only [List.cons.injEq, and_true] at this
        exact absurd (this.2 ▸ h1) hk
      · have h4 : l ++ [r] = (a ++ x :: b') ++ [y] := by simpa using hab
        have := (List.append_inj' h4 rfl).1
        exact Or.inr ⟨fun z hz => h0 z (by simp [hz]), a, b', this, h1, h2⟩
  · rintro (⟨a, b, rfl, h1, h2, h3⟩ | ⟨h0, a, b, rfl, h1, h2⟩)
    · refine Or.inl ⟨a, b ++ [r], by simp, h1, h2, ?_⟩
      intro z hz
      rcases List.mem_append.1 hz with hz | hz
      · exact h3 z hz
      · rw [List.mem_singleton.1 hz]; intro h; exact absurd h hk
    · refine Or.inr ⟨?_, a, b ++ [r], by simp, h1, h2⟩
      intro z hz
      rcases List.mem_append.1 hz with hz | hz
      · exact h0 z hz
      · rw [List.mem_singleton.1 hz]; intro h; exact absurd h hk

/-- What is packed for a key: the chosen receipt. -/
theorem pack_get (l : List Receipt) (k : Key) :
    (∀ i, get (pack l).content k = some i → ∃ r, Chosen l k r ∧ i = ⟨r.ts, r.thread⟩) := by
  induction l using Verif.Util.snocRec with
  | nil => intro i hi; simp [pack, get] at hi
  | append_singleton l r ih =>
    intro i hi
    rw [pack_snoc] at hi
    by_cases hk : r.key = k
    · split at hi
      · rename_i hc
        refine ⟨r, ?_, (Option.some.inj hi).symm⟩
        by_cases ht : r.thread = ""
        · exact Or.inl ⟨l, [], rfl, hk, ht, by simp⟩
        · rcases hc.2 with hn | hn
          · rw [pack_none] at hn
            refine Or.inr ⟨?_, l, [], rfl, hk, hn⟩
            intro x hx hxk
            rcases List.mem_append.1 hx with hx | hx
            · exact absurd hxk (hn x hx)
            · rw [List.mem_singleton.1 hx]; exact ht
          · exact absurd hn ht
      · rename_i hc
        obtain ⟨x, hx, hix⟩ := ih i hi
        have ht : r.thread ≠ "" := fun h => hc ⟨hk, Or.inr h⟩
        refine ⟨x, ?_, hix⟩
        rcases hx with ⟨a, b, rfl, h1, h2, h3⟩ | ⟨h0, a, b, rfl, h1, h2⟩
        · refine Or.inl ⟨a, b ++ [r], by simp, h1, h2, ?_⟩
          intro z hz
          rcases List.mem_append.1 hz with hz | hz
          · exact h3 z hz
          · rw [List.mem_singleton.1 hz]; intro _; exact ht
        · refine Or.inr ⟨?_, a, b ++ [r], by simp, h1, h2⟩
          intro z hz
          rcases List.mem_append.1 hz with hz | hz
          · exact h0 z hz
          · rw [List.mem_singleton.1 hz]; intro _; exact ht
    · rw [if_neg (fun h => hk h.1)] at hi
      obtain ⟨x, hx, hix⟩ := ih i hi
      exact ⟨x, (chosen_snoc_other hk).2 hx, hix⟩

theorem chosen_mem {l : List Receipt} {k : Key} {r : Receipt} (h : Chosen l k r) : r ∈ l ∧ r.key = k := by
  rcases h with ⟨a, b, rfl, h1, _⟩ | ⟨_, a, b, rfl, h1, _⟩
  · exact ⟨by simp, h1⟩
  · exact ⟨by simp, h1⟩

theorem toReceipt_key (room : String) (e : Key × Info) : (toReceipt room e).key = e.1 := rfl

theorem mem_unpack {room : String} {edu : Edu} (ht : edu.type = "m.receipt") {pub priv : List Receipt}
    (h : Unpack room edu pub priv) :
    (∀ r, r ∈ pub ↔ r.priv = false ∧ ∃ e ∈ edu.content, r = toReceipt room e) ∧
    (∀ r, r ∈ priv ↔ r.priv = true ∧ ∃ e ∈ edu.content, r = toReceipt room e) := by
  rw [Unpack, if_neg (fun hh => hh ht)] at h
  constructor
  · intro r
    rw [h.1.mem_iff, List.mem_map]
    constructor
    · rintro ⟨e, he, rfl⟩
      rw [List.mem_filter] at he
      exact ⟨by simpa [toReceipt] using he.2, e, he.1, rfl⟩
    · rintro ⟨hp, e, he, rfl⟩
      exact ⟨e, List.mem_filter.2 ⟨he, by simpa [toReceipt] using hp⟩, rfl⟩
  · intro r
    rw [h.2.mem_iff, List.mem_map]
    constructor
    · rintro ⟨e, he, rfl⟩
      rw [List.mem_filter] at he
      exact ⟨by simpa [toReceipt] using he.2, e, he.1, rfl⟩
    · rintro ⟨hp, e, he, rfl⟩
      exact ⟨e, List.mem_filter.2 ⟨he, by simpa [toReceipt] using hp⟩, rfl⟩

theorem unpack_nodup {room : String} {edu : Edu} (hd : Distinct edu.content) {pub priv : List Receipt}
    (h : Unpack room edu pub priv) : ((pub ++ priv).map Receipt.key).Nodup := by
  by_cases ht : edu.type = "m.receipt"
  · have h' := h
    rw [Unpack, if_neg (fun hh => hh ht)] at h'
    have e1 : ∀ p : Key × Info → Bool, ((edu.content.filter p).map (toReceipt room)).map Receipt.key =
        (edu.content.filter p).map (·.1) := by
      intro p; rw [List.map_map]; rfl
    rw [List.map_append, List.nodup_append]
    refine ⟨?_, ?_, ?_⟩
    · refine (h'.1.map Receipt.key).nodup_iff.2 ?_
      rw [e1]; exact (List.filter_sublist.map _).nodup hd
    · refine (h'.2.map Receipt.key).nodup_iff.2 ?_
      rw [e1]; exact (List.filter_sublist.map _).nodup hd
    · intro a ha b hb hab
      obtain ⟨x, hx, rfl⟩ := List.mem_map.1 ha
      obtain ⟨y, hy, rfl⟩ := List.mem_map.1 hb
      have h1 := (((mem_unpack ht h).1 x).1 hx).1
      have h2 := (((mem_unpack ht h).2 y).1 hy).1
      have := congrArg (fun k : Key => k.2.1) hab
      simp only [Receipt.key] at this
      rw [h1, h2] at this; cases this
  · rw [Unpack, if_pos ht] at h
    rw [h.1, h.2]; simp

/-! ### C45 -/

/-- Packing receipts of a room and unpacking them, in whatever order the maps are read: exactly one receipt per (event,
kind, user) that had any; it is one of the given ones, namely the last unthreaded one, or, if all are
threaded, the first; public ones come out public and private ones private. -/
theorem C45_round_trip (room : String) (l : List Receipt) (hroom : ∀ r ∈ l, r.room = room) {pub priv : List Receipt}
    (h : Unpack room (pack l) pub priv) :
    (∀ r, r ∈ pub ++ priv → Chosen l r.key r) ∧
    (∀ r ∈ l, ∃ x ∈ pub ++ priv, x.key = r.key) ∧
    ((pub ++ priv).map Receipt.key).Nodup ∧
    (∀ r ∈ pub, r.priv = false) ∧ (∀ r ∈ priv, r.priv = true) := by
  have hm := mem_unpack (edu := pack l) rfl h
  have hd := pack_distinct l
  have hmem : ∀ r, r ∈ pub ++ priv ↔ ∃ e ∈ (pack l).content, r = toReceipt room e := by
    intro r
    rw [List.mem_append, hm.1, hm.2]
    cases hp : r.priv <;> simp
  refine ⟨?_, ?_, unpack_nodup hd h, fun r hr => ((hm.1 r).1 hr).1, fun r hr => ((hm.2 r).1 hr).1⟩
  · intro r hr
    obtain ⟨e, he, hre⟩ := (hmem r).1 hr
    obtain ⟨x, hx, hi⟩ := pack_get l e.1 e.2 ((get_iff hd _ _).2 he)
    have hxk := chosen_mem hx
    have hxr : r = x := by
      rw [hre]
      obtain ⟨⟨a, b, c⟩, ⟨d, f⟩⟩ := e
      obtain ⟨x1, x2, x3, x4, x5, x6⟩ := x
      simp only [Receipt.key, Prod.mk.injEq, Info.mk.injEq] at hxk hi
      have := hroom _ hxk.1
      simp only at this
      simp only [toReceipt, Receipt.mk.injEq]
      exact ⟨this.symm, hxk.2.1.symm, hxk.2.2.2.symm, hi.1, hi.2, hxk.2.2.1.symm⟩
    rw [hxr, hxk.2]; exact hx
  · intro r hr
    cases hg : get (pack l).content r.key with
    | none => exact absurd rfl ((pack_none l r.key).1 hg r hr)
    | some i =>
      exact ⟨toReceipt room (r.key, i), (hmem _).2 ⟨_, (get_iff hd _ _).1 hg, rfl⟩, rfl⟩

theorem pack_of_nodup (l : List Receipt) (h : (l.map Receipt.key).Nodup) (k : Key) (i : Info) :
    get (pack l).content k = some i ↔ ∃ r ∈ l, r.key = k ∧ i = ⟨r.ts, r.thread⟩ := by
  induction l using Verif.Util.snocRec with
  | nil => simp [pack, get]
  | append_singleton l r ih =>
    rw [List.map_append, List.nodup_append] at h
    have ih := ih h.1
    have hnot : ∀ x ∈ l, x.key ≠ r.key := fun x hx he => h.2.2 _ (List.mem_map_of_mem hx) _ (by simp) he
    rw [pack_snoc]
    by_cases hk : r.key = k
    · subst hk
      have hn := (pack_none l r.key).2 hnot
      rw [if_pos ⟨rfl, Or.inl hn⟩]
      constructor
      · intro hi; exact ⟨r, by simp, rfl, (Option.some.inj hi).symm⟩
      · rintro ⟨x, hx, hxk, hi⟩
        rcases List.mem_append.1 hx with hx | hx
        · exact absurd hxk (hnot x hx)
        · rw [List.mem_singleton.1 hx] at hi; rw [hi]
    · rw [if_neg (fun hh => hk hh.1), ih]
      constructor
      · rintro ⟨x, hx, h2⟩; exact ⟨x, by simp [hx], h2⟩
      · rintro ⟨x, hx, hxk, hi⟩
        rcases List.mem_append.1 hx with hx | hx
        · exact ⟨x, hx, hxk, hi⟩
        · rw [List.mem_singleton.1 hx] at hxk; exact absurd hxk hk

/-- A room's EDU in a response is well formed: an `m.receipt` with distinct keys. -/
def Good (edu : Edu) : Prop := edu.type = "m.receipt" ∧ Distinct edu.content

/-- Adding a live receipt to a response changes only the entry of its own event, kind and user in its own room, and
that only if there is none or the new one is unthreaded; whatever order the maps are read in. -/
theorem C45_live {inScope : String → Bool} {res res' : Resp} (hg : ∀ room edu, res room = some edu → Good edu) {r : Receipt}
    (h : AppendLive inScope res r res') :
    (∀ room edu, res' room = some edu → Good edu) ∧
    (∀ room, room ≠ r.room → res' room = res room) ∧
    (inScope r.room = false → res' = res) ∧
    (inScope r.room = true → ∃ edu, res' r.room = some edu ∧ ∀ k, get edu.content k =
      let old := (res r.room).bind fun e => get e.content k
      if r.key = k ∧ (old = none ∨ r.thread = "") then some ⟨r.ts, r.thread⟩ else old) := by
  unfold AppendLive at h
  by_cases hs : inScope r.room = true
  · simp only [hs, Bool.not_true, Bool.false_eq_true, if_false] at h
    cases hr : res r.room with
    | none =>
      rw [hr] at h
      subst h
      refine ⟨?_, fun room hne => if_neg hne, by simp [hs], fun _ => ⟨pack [r], if_pos rfl, fun k => ?_⟩⟩
      · intro room edu he
        by_cases hroom : room = r.room
        · simp only [hroom, if_true, Option.some.injEq] at he
          rw [← he]; exact ⟨rfl, pack_distinct _⟩
        · simp only [hroom, if_false] at he; exact hg room edu he
      · have := pack_snoc [] r k
        rw [List.nil_append] at this
        rw [this]
        simp [pack, get]
    | some edu =>
      rw [hr] at h
      obtain ⟨pub, priv, hu, rfl⟩ := h
      have hge := hg r.room edu hr
      have hnd := unpack_nodup hge.2 hu
      have hm := mem_unpack hge.1 hu
      refine ⟨?_, fun room hne => if_neg hne, by simp [hs], fun _ => ⟨_, if_pos rfl, fun k => ?_⟩⟩
      · intro room edu' he
        by_cases hroom : room = r.room
        · simp only [hroom, if_true, Option.some.injEq] at he
          rw [← he]; exact ⟨rfl, pack_distinct _⟩
        · simp only [hroom, if_false] at he; exact hg room edu' he
      · have hold : get (pack (pub ++ priv)).content k = get edu.content k := by
          apply Option.ext
          intro i
          rw [pack_of_nodup _ hnd, get_iff hge.2]
          constructor
          · rintro ⟨x, hx, hxk, hi⟩
            have : ∃ e ∈ edu.content, x = toReceipt r.room e := by
              rcases List.mem_append.1 hx with hx | hx
              · exact ((hm.1 x).1 hx).2
              · exact ((hm.2 x).1 hx).2
            obtain ⟨⟨ek, ei⟩, he, rfl⟩ := this
            rw [toReceipt_key] at hxk
            simp only at hxk
            rw [hi, ← hxk]; exact he
          · intro hm'
            refine ⟨toReceipt r.room (k, i), ?_, rfl, rfl⟩
            rw [List.mem_append, hm.1, hm.2]
            cases hp : (toReceipt r.room (k, i)).priv with
            | true => exact Or.inr ⟨rfl, _, hm', rfl⟩
            | false => exact Or.inl ⟨rfl, _, hm', rfl⟩
        rw [pack_snoc, hold]; rfl
  · have hs : inScope r.room = false := by simpa using hs
    simp only [hs, Bool.not_false, if_true] at h
    subst h
    exact ⟨hg, fun _ _ => rfl, fun _ => rfl, by simp [hs]⟩

/-- Private receipts are handed to their owner only, and each is handed to its owner if they are connected; public ones
only to joined users with a receiver, and to all of those. -/
theorem C45_live_private (hasCache : String → Bool) (listeners : String → List String) (rs : List Receipt)
    (u : String) (r : Receipt) :
    (u, r) ∈ onReceipt hasCache listeners rs ↔
      r ∈ rs ∧ ((r.priv = true ∧ u = r.user ∧ hasCache u = true) ∨ (r.priv = false ∧ u ∈ listeners r.room)) := by
  simp only [onReceipt, List.mem_append, List.mem_map, List.mem_filter, List.mem_flatMap, Prod.mk.injEq,
    Bool.not_eq_true']
  constructor
  · rintro (⟨x, ⟨⟨hx, hp⟩, hc⟩, rfl, rfl⟩ | ⟨x, ⟨hx, hp⟩, y, hy, rfl, rfl⟩)
    · exact ⟨hx, Or.inl ⟨hp, rfl, hc⟩⟩
    · exact ⟨hx, Or.inr ⟨hp, hy⟩⟩
  · rintro ⟨hr, ⟨hp, rfl, hc⟩ | ⟨hp, hu⟩⟩
    · exact Or.inl ⟨r, ⟨⟨hr, hp⟩, hc⟩, rfl, rfl⟩
    · exact Or.inr ⟨r, ⟨hr, hp⟩, u, hu, rfl, rfl⟩

/-- The queries: other people's receipts come from the public table only, and private ones are the user's own. -/
theorem C45_select_private (db : DB) (user room : String) (rooms events : List String) (r : Receipt) :
    (r ∈ forEvents db room events → r.priv = false ∧ r.room = room ∧ r.event ∈ events) ∧
    (r ∈ forUser db rooms user room → r.user = user ∧ r.room = room ∧ room ∈ rooms) := by
  constructor
  · intro h
    simp only [forEvents, List.mem_map, List.mem_filter, Bool.and_eq_true, decide_eq_true_eq, List.contains_eq_mem] at h
    obtain ⟨x, ⟨_, h1, h2⟩, rfl⟩ := h
    exact ⟨rfl, h1, h2⟩
  · intro h
    simp only [forUser, List.mem_filter, List.mem_append, List.mem_map, Bool.and_eq_true, decide_eq_true_eq,
      List.contains_eq_mem] at h
    obtain ⟨⟨x, ⟨_, h1, h2⟩, rfl⟩ | ⟨x, ⟨_, h1, h2⟩, rfl⟩, h3⟩ := h
    · exact ⟨h2, h3, h3 ▸ h1⟩
    · exact ⟨h2, h3, h3 ▸ h1⟩

/-- End to end: whatever is stored, the response of a user, from the initial data and any live receipts handed to
them, has under `m.read.private` only their own receipts, and only for rooms in scope. -/
theorem C45_response_private {db : DB} {user : String} {inScope : String → Bool} {rooms : List (String × List String)}
    {hasCache : String → Bool} {listeners : String → List String} {live : List Receipt} {ups : List Receipt}
    (hups : ∀ r ∈ ups, (user, r) ∈ onReceipt hasCache listeners live) {res : Resp}
    (h : Appended inScope (processInitial db user inScope rooms) ups res) :
    ∀ room edu, res room = some edu → Good edu ∧ inScope room = true ∧
      ∀ ev u i, ((ev, true, u), i) ∈ edu.content → u = user := by
  have hgood : ∀ ups res, Appended inScope (processInitial db user inScope rooms) ups res →
      (∀ room edu, res room = some edu → Good edu) := by
    intro ups res h
    induction h with
    | nil =>
      intro room edu he
      simp only [processInitial] at he
      split at he
      · cases he
      · rw [← Option.some.inj he]; exact ⟨rfl, pack_distinct _⟩
    | snoc _ hl ih => exact (C45_live ih hl).1
  suffices hmain : ∀ room edu, res room = some edu → inScope room = true ∧
      ∀ ev u i, ((ev, true, u), i) ∈ edu.content → u = user by
    intro room edu he; exact ⟨hgood ups res h room edu he, hmain room edu he⟩
  induction h with
  | nil =>
    intro room edu he
    simp only [processInitial] at he
    split at he
    · cases he
    · rename_i hne
      have he := Option.some.inj he
      -- every packed receipt is from one of the two queries
      have hall : ∀ r, r ∈ gathered db user inScope rooms room →
          inScope room = true ∧ (r.priv = true → r.user = user) := by
        intro r hr
        rcases List.mem_append.1 hr with hr | hr
        · split at hr
          · rename_i tl _
            split at hr
            · rename_i hsc
              refine ⟨hsc, fun hp => ?_⟩
              have := ((C45_select_private db user room [] tl r).1 hr).1
              rw [this] at hp; cases hp
            · cases hr
          · cases hr
        · have := (C45_select_private db user room ((rooms.filter fun r => inScope r.1).map (·.1)) [] r).2 hr
          refine ⟨?_, fun _ => this.1⟩
          obtain ⟨x, hx, hxr⟩ := List.mem_map.1 this.2.2
          rw [← hxr]; simpa using (List.mem_filter.1 hx).2
      generalize gathered db user inScope rooms room = all at *
      subst he
      refine ⟨?_, ?_⟩
      · cases all with
        | nil => simp at hne
        | cons a l => exact (hall a (by simp)).1
      · intro ev u i hm
        obtain ⟨x, hx, _⟩ := pack_get all _ i ((get_iff (pack_distinct all) _ _).2 hm)
        have hxk := chosen_mem hx
        have h2 := (hall x hxk.1).2
        simp only [Receipt.key, Prod.mk.injEq] at hxk
        rw [← hxk.2.2.2]; exact h2 hxk.2.2.1
  | @snoc rs res1 res2 r hprev hl ih =>
    have ih := ih fun x hx => hups x (by simp [hx])
    have hg1 := hgood _ _ hprev
    obtain ⟨hg2, hother, hout, hin⟩ := C45_live hg1 hl
    intro room edu he
    by_cases hroom : room = r.room
    · subst hroom
      cases hsc : inScope r.room with
      | false =>
        have := hout hsc
        rw [this] at he
        have h3 := ih _ _ he
        rw [hsc] at h3; exact h3
      | true =>
        refine ⟨rfl, ?_⟩
        obtain ⟨edu', he', hget⟩ := hin hsc
        rw [he] at he'
        cases he'
        intro ev u i hm
        have hgi := (get_iff (hg2 _ _ he).2 _ _).2 hm
        rw [hget] at hgi
        simp only at hgi
        split at hgi
        · rename_i hc
          have hdel := (C45_live_private hasCache listeners live user r).1 (hups r (by simp))
          simp only [Receipt.key, Prod.mk.injEq] at hc
          rcases hdel.2 with ⟨_, hu, _⟩ | ⟨hp, _⟩
          · rw [← hc.1.2.2]; exact hu.symm
          · rw [hc.1.2.1] at hp; cases hp
        · cases hold : res1 r.room with
          | none => rw [hold] at hgi; simp at hgi
          | some e0 =>
            rw [hold] at hgi
            simp only [Option.bind_some] at hgi
            exact (ih _ _ hold).2 ev u i ((get_iff (hg1 _ _ hold).2 _ _).1 hgi)
    · rw [hother room hroom] at he
      exact ih room edu he

/-- Alice has a threaded and an unthreaded receipt on the event, Bob a private one. -/
def exR : List Receipt :=
  [⟨"!r", "$e", "@alice", 1, "$t", false⟩, ⟨"!r", "$e", "@alice", 2, "", false⟩, ⟨"!r", "$e", "@alice", 3, "$u", false⟩,
   ⟨"!r", "$e", "@bob", 4, "$t", true⟩, ⟨"!r", "$f", "@bob", 5, "$t", false⟩]

example : (pack exR).content =
    [(("$e", false, "@alice"), ⟨2, ""⟩), (("$e", true, "@bob"), ⟨4, "$t"⟩), (("$f", false, "@bob"), ⟨5, "$t"⟩)] := by
  decide
example : Unpack "!r" (pack exR) [⟨"!r", "$e", "@alice", 2, "", false⟩, ⟨"!r", "$f", "@bob", 5, "$t", false⟩]
    [⟨"!r", "$e", "@bob", 4, "$t", true⟩] := by
  rw [Unpack, if_neg (by decide)]
  exact ⟨List.Perm.refl _, List.Perm.refl _⟩
example : onReceipt (fun u => u == "@bob") (fun _ => ["@alice", "@bob"]) exR =
    [("@bob", ⟨"!r", "$e", "@bob", 4, "$t", true⟩)] ++
    (exR.filter (! ·.priv)).flatMap (fun r => [("@alice", r), ("@bob", r)]) := by decide

end Verif.Receipts
