import Verif.Lemmas.Rows
/-!
# Set semantics of the row operations
-/
namespace Verif.Rw
open Bt (shardWidth)

/-- Both rows of a pair are over allocated bitmaps of their shard, and a pair has one shard. -/
structure PsOk (own : Nat → Nat) (h : Heap) (ps : List (Option Seg × Option Seg)) : Prop where
  sorted : ps.Pairwise (fun p q => pkey p < pkey q)
  ne : ∀ q ∈ ps, q ≠ (none, none)
  seg : ∀ q ∈ ps, ∀ s, q.1 = some s ∨ q.2 = some s → s.data < h.length ∧ own s.data = s.shard ∧ s.shard = pkey q

theorem itr_ok {own h a0 a1} (h0 : ROk own h a0) (h1 : ROk own h a1) : PsOk own h (itr a0 a1) where
  sorted := itr_sorted h0.1 h1.1
  ne q hq := itr_some hq
  seg q hq s hs := by
    obtain ⟨x, y⟩ := q
    have key : ∀ s, Alone s (itr a0 a1) → s.data < h.length ∧ own s.data = s.shard := by
      intro s ha
      rcases (itr_alone h0.1 h1.1 s).1 ha with ⟨hm, _⟩ | ⟨hm, _⟩
      · exact h0.2 s hm
      · exact h1.2 s hm
    cases x with
    | none =>
      cases y with
      | none => simp at hs
      | some y =>
        simp at hs; subst hs
        have := key y (Or.inr hq)
        exact ⟨this.1, this.2, rfl⟩
    | some x =>
      cases y with
      | none =>
        simp at hs; subst hs
        have := key x (Or.inl hq)
        exact ⟨this.1, this.2, rfl⟩
      | some y =>
        obtain ⟨hx, hy, e⟩ := (itr_both h0.1 h1.1 x y).1 hq
        simp at hs
        rcases hs with rfl | rfl
        · exact ⟨(h0.2 _ hx).1, (h0.2 _ hx).2, rfl⟩
        · exact ⟨(h1.2 _ hy).1, (h1.2 _ hy).2, e.symm⟩

/-! ## Xor -/

def xorItem (h : Heap) : Option Seg × Option Seg → Item
  | (some s0, some s1) =>
    .mk s0.shard ((rd h s0.data).xor (rd h s1.data)) false ((rd h s0.data).xor (rd h s1.data)).length
  | (some s, none) => .keep s
  | (none, some s) => .keep s
  | (none, none) => .mk 0 [] false 0

theorem xorLoop_eq (h0 : Heap) (ps : List (Option Seg × Option Seg)) (hn : ∀ q ∈ ps, q ≠ (none, none))
    (hd : ∀ q ∈ ps, ∀ s, q.1 = some s ∨ q.2 = some s → s.data < h0.length) (t : Heap) :
    xorLoop (h0 ++ t) ps = build (h0 ++ t) (ps.map (xorItem h0)) := by
  induction ps generalizing t with
  | nil => simp [xorLoop, build]
  | cons q ps ih =>
    have ih := ih (fun q hq => hn q (List.mem_cons_of_mem _ hq)) (fun q hq => hd q (List.mem_cons_of_mem _ hq))
    have hd' := hd q (by simp)
    obtain ⟨x, y⟩ := q
    cases x with
    | none =>
      cases y with
      | none => exact absurd rfl (hn _ (by simp))
      | some y => simp only [xorLoop, List.map_cons, xorItem, build, ih]
    | some x =>
      cases y with
      | none => simp only [xorLoop, List.map_cons, xorItem, build, ih]
      | some y =>
        simp only [xorLoop, List.map_cons, xorItem, build, fresh]
        rw [rd_append (hd' x (by simp)), rd_append (hd' y (by simp)), List.append_assoc, ih]

theorem xorItem_shard {h q} (hq : q ≠ (none, none)) : (xorItem h q).shard = pkey q := by
  obtain ⟨x, y⟩ := q
  cases x <;> cases y <;> simp_all [xorItem, Item.shard, pkey]

theorem xor_build {own h r o} (hh : HOk own h) (hr : ROk own h r) (ho : ROk own h o) :
    xor h r o = build h ((itr r o).map (xorItem h)) ∧
    ((itr r o).map (xorItem h)).Pairwise (fun a b => a.shard < b.shard) ∧
    (∀ i ∈ (itr r o).map (xorItem h), i.Ok own h) ∧
    (∀ x, x ∈ ((itr r o).map (xorItem h)).flatMap (Item.bits h) ↔
      (x ∈ columns h r ∧ x ∉ columns h o) ∨ (x ∈ columns h o ∧ x ∉ columns h r)) ∧
    (∀ s, Item.keep s ∈ (itr r o).map (xorItem h) → Alone s (itr r o)) ∧
    (∀ k b wr n, Item.mk k b wr n ∈ (itr r o).map (xorItem h) → wr = false ∧ n = b.length) := by
  have hp := itr_ok hr ho
  refine ⟨?_, ?_, ?_, ?_, ?_, ?_⟩
  · have := xorLoop_eq h (itr r o) hp.ne (fun q hq s hs => (hp.seg q hq s hs).1) []
    simpa [xor] using this
  · rw [List.pairwise_map]
    refine List.Pairwise.imp_of_mem (fun {p q} hp' hq' hlt => ?_) hp.sorted
    rw [xorItem_shard (hp.ne _ hp'), xorItem_shard (hp.ne _ hq')]; exact hlt
  · intro i hi
    obtain ⟨q, hq, rfl⟩ := List.mem_map.1 hi
    have hs := hp.seg q hq
    have hn := hp.ne q hq
    obtain ⟨x, y⟩ := q
    cases x with
    | none =>
      cases y with
      | none => exact absurd rfl hn
      | some y => have := hs y (by simp); exact ⟨this.1, this.2.1⟩
    | some x =>
      cases y with
      | none => have := hs x (by simp); exact ⟨this.1, this.2.1⟩
      | some y =>
        have hx := hs x (by simp)
        have hy := hs y (by simp)
        refine ⟨Bm.xor_ok (hh _).1, fun z hz => ?_⟩
        rcases Bm.mem_xor.1 hz with ⟨hz, _⟩ | ⟨hz, _⟩
        · exact ((hh _).2 z hz).trans hx.2.1
        · exact ((hh _).2 z hz).trans (hy.2.1.trans hy.2.2)
  · intro x
    simp only [List.mem_flatMap, List.mem_map]
    constructor
    · rintro ⟨i, ⟨q, hq, rfl⟩, hx⟩
      obtain ⟨a, b⟩ := q
      have alone : ∀ s, Alone s (itr r o) → x ∈ rd h s.data →
          (x ∈ columns h r ∧ x ∉ columns h o) ∨ (x ∈ columns h o ∧ x ∉ columns h r) := by
        intro s hs hxs
        rcases (itr_alone hr.1 ho.1 s).1 hs with ⟨hm, hne⟩ | ⟨hm, hne⟩
        · refine Or.inl ⟨mem_columns.2 ⟨s, hm, hxs⟩, fun hc => ?_⟩
          obtain ⟨t, ht, hxt⟩ := mem_columns.1 hc
          exact hne t ht ((seg_bits hh ho ht hxt).symm.trans (seg_bits hh hr hm hxs))
        · refine Or.inr ⟨mem_columns.2 ⟨s, hm, hxs⟩, fun hc => ?_⟩
          obtain ⟨t, ht, hxt⟩ := mem_columns.1 hc
          exact hne t ht ((seg_bits hh hr ht hxt).symm.trans (seg_bits hh ho hm hxs))
      cases a with
      | none =>
        cases b with
        | none => exact absurd rfl (hp.ne _ hq)
        | some b => exact alone b (Or.inr hq) hx
      | some a =>
        cases b with
        | none => exact alone a (Or.inl hq) hx
        | some b =>
          obtain ⟨ha, hb, e⟩ := (itr_both hr.1 ho.1 a b).1 hq
          simp only [xorItem, Item.bits] at hx
          rcases Bm.mem_xor.1 hx with ⟨h1, h2⟩ | ⟨h1, h2⟩
          · refine Or.inl ⟨mem_columns.2 ⟨a, ha, h1⟩, fun hc => ?_⟩
            obtain ⟨t, ht, hxt⟩ := mem_columns.1 hc
            have := shard_unique ho ht hb ((seg_bits hh ho ht hxt).symm.trans ((seg_bits hh hr ha h1).trans e))
            exact h2 (this ▸ hxt)
          · refine Or.inr ⟨mem_columns.2 ⟨b, hb, h1⟩, fun hc => ?_⟩
            obtain ⟨t, ht, hxt⟩ := mem_columns.1 hc
            have := shard_unique hr ht ha ((seg_bits hh hr ht hxt).symm.trans ((seg_bits hh ho hb h1).trans e.symm))
            exact h2 (this ▸ hxt)
    · rintro (⟨h1, h2⟩ | ⟨h1, h2⟩)
      · obtain ⟨s, hs, hxs⟩ := mem_columns.1 h1
        by_cases hex : ∃ t ∈ o, t.shard = s.shard
        · obtain ⟨t, ht, e⟩ := hex
          refine ⟨_, ⟨_, (itr_both hr.1 ho.1 s t).2 ⟨hs, ht, e.symm⟩, rfl⟩, ?_⟩
          simp only [xorItem, Item.bits]
          exact Bm.mem_xor.2 (Or.inl ⟨hxs, fun hc => h2 (mem_columns.2 ⟨t, ht, hc⟩)⟩)
        · have : Alone s (itr r o) := (itr_alone hr.1 ho.1 s).2 (Or.inl ⟨hs, fun t ht e => hex ⟨t, ht, e⟩⟩)
          rcases this with hq | hq <;> exact ⟨_, ⟨_, hq, rfl⟩, hxs⟩
      · obtain ⟨s, hs, hxs⟩ := mem_columns.1 h1
        by_cases hex : ∃ t ∈ r, t.shard = s.shard
        · obtain ⟨t, ht, e⟩ := hex
          refine ⟨_, ⟨_, (itr_both hr.1 ho.1 t s).2 ⟨ht, hs, e⟩, rfl⟩, ?_⟩
          simp only [xorItem, Item.bits]
          exact Bm.mem_xor.2 (Or.inr ⟨hxs, fun hc => h2 (mem_columns.2 ⟨t, ht, hc⟩)⟩)
        · have : Alone s (itr r o) := (itr_alone hr.1 ho.1 s).2 (Or.inr ⟨hs, fun t ht e => hex ⟨t, ht, e⟩⟩)
          rcases this with hq | hq <;> exact ⟨_, ⟨_, hq, rfl⟩, hxs⟩
  · intro s hs
    obtain ⟨q, hq, e⟩ := List.mem_map.1 hs
    obtain ⟨a, b⟩ := q
    cases a <;> cases b <;> simp [xorItem] at e
    · subst e; exact Or.inr hq
    · subst e; exact Or.inl hq
  · intro k b wr n hm
    obtain ⟨q, hq, e⟩ := List.mem_map.1 hm
    obtain ⟨x, y⟩ := q
    cases x <;> cases y <;> simp [xorItem] at e
    · exact ⟨e.2.2.1, by rw [← e.2.2.2, e.2.1]; rfl⟩
    · exact ⟨e.2.2.1, by rw [← e.2.2.2, ← e.2.1]⟩

/-! ## Intersection -/

def interItem (h : Heap) : Option Seg × Option Seg → Option Item
  | (some s0, some s1) =>
    some (.mk s0.shard ((rd h s0.data).and (rd h s1.data)) false ((rd h s0.data).and (rd h s1.data)).length)
  | _ => none

theorem intersectLoop_eq (h0 : Heap) (ps : List (Option Seg × Option Seg))
    (hd : ∀ q ∈ ps, ∀ s, q.1 = some s ∨ q.2 = some s → s.data < h0.length) (t : Heap) :
    intersectLoop (h0 ++ t) ps = build (h0 ++ t) (ps.filterMap (interItem h0)) := by
  induction ps generalizing t with
  | nil => simp [intersectLoop, build]
  | cons q ps ih =>
    have ih := ih (fun q hq => hd q (List.mem_cons_of_mem _ hq))
    have hd' := hd q (by simp)
    obtain ⟨x, y⟩ := q
    cases x with
    | none => cases y <;> simp only [intersectLoop, List.filterMap_cons, interItem, ih]
    | some x =>
      cases y with
      | none => simp only [intersectLoop, List.filterMap_cons, interItem, ih]
      | some y =>
        simp only [intersectLoop, List.filterMap_cons, interItem, build, fresh]
        rw [rd_append (hd' x (by simp)), rd_append (hd' y (by simp)), List.append_assoc, ih]

theorem interItem_shard {h q i} (hi : interItem h q = some i) : i.shard = pkey q := by
  obtain ⟨x, y⟩ := q
  cases x <;> cases y <;> simp [interItem] at hi
  subst hi; rfl

theorem intersect_build {own h r o} (hh : HOk own h) (hr : ROk own h r) (ho : ROk own h o) :
    intersect h r o = build h ((itr r o).filterMap (interItem h)) ∧
    ((itr r o).filterMap (interItem h)).Pairwise (fun a b => a.shard < b.shard) ∧
    (∀ i ∈ (itr r o).filterMap (interItem h), i.Ok own h) ∧
    (∀ x, x ∈ ((itr r o).filterMap (interItem h)).flatMap (Item.bits h) ↔ x ∈ columns h r ∧ x ∈ columns h o) ∧
    (∀ s, Item.keep s ∉ (itr r o).filterMap (interItem h)) ∧
    (∀ k b wr n, Item.mk k b wr n ∈ (itr r o).filterMap (interItem h) → wr = false ∧ n = b.length) := by
  have hp := itr_ok hr ho
  refine ⟨?_, ?_, ?_, ?_, ?_, ?_⟩
  · have := intersectLoop_eq h (itr r o) (fun q hq s hs => (hp.seg q hq s hs).1) []
    simpa [intersect] using this
  · refine List.Pairwise.filterMap _ ?_ hp.sorted
    intro p q hlt i hi j hj
    rw [interItem_shard hi, interItem_shard hj]; exact hlt
  · intro i hi
    obtain ⟨q, hq, e⟩ := List.mem_filterMap.1 hi
    have hs := hp.seg q hq
    obtain ⟨x, y⟩ := q
    cases x <;> cases y <;> simp [interItem] at e
    subst e
    rename_i x y
    exact ⟨Bm.and_ok (hh _).1, fun z hz => ((hh _).2 z (Bm.mem_and.1 hz).1).trans (hs x (by simp)).2.1⟩
  · intro x
    simp only [List.mem_flatMap, List.mem_filterMap]
    constructor
    · rintro ⟨i, ⟨q, hq, e⟩, hx⟩
      obtain ⟨a, b⟩ := q
      cases a <;> cases b <;> simp [interItem] at e
      subst e
      obtain ⟨ha, hb, _⟩ := (itr_both hr.1 ho.1 _ _).1 hq
      have := Bm.mem_and.1 hx
      exact ⟨mem_columns.2 ⟨_, ha, this.1⟩, mem_columns.2 ⟨_, hb, this.2⟩⟩
    · rintro ⟨h1, h2⟩
      obtain ⟨s, hs, hxs⟩ := mem_columns.1 h1
      obtain ⟨t, ht, hxt⟩ := mem_columns.1 h2
      have e : s.shard = t.shard := (seg_bits hh hr hs hxs).symm.trans (seg_bits hh ho ht hxt)
      exact ⟨_, ⟨_, (itr_both hr.1 ho.1 s t).2 ⟨hs, ht, e⟩, rfl⟩, Bm.mem_and.2 ⟨hxs, hxt⟩⟩
  · intro s hs
    obtain ⟨q, hq, e⟩ := List.mem_filterMap.1 hs
    obtain ⟨a, b⟩ := q
    cases a <;> cases b <;> simp [interItem] at e
  · intro k b wr n hm
    obtain ⟨q, hq, e⟩ := List.mem_filterMap.1 hm
    obtain ⟨x, y⟩ := q
    cases x <;> cases y <;> simp [interItem] at e
    exact ⟨e.2.2.1, by rw [← e.2.2.2, ← e.2.1]⟩

/-! ## Difference -/

def diffItem (h : Heap) (others : List Row) (s : Seg) : Item :=
  if sameShard s.shard others = [] then .keep s
  else
    let b := (sameShard s.shard others).foldl (fun b o => b.diff (rd h o.data)) (rd h s.data)
    .mk s.shard b false b.length

theorem foldl_diff_mem (h : Heap) (ss : List Seg) (b : Bm) (x : Nat) :
    x ∈ ss.foldl (fun b o => b.diff (rd h o.data)) b ↔ x ∈ b ∧ ∀ s ∈ ss, x ∉ rd h s.data := by
  induction ss generalizing b with
  | nil => simp
  | cons s ss ih => rw [List.foldl_cons, ih, Bm.mem_diff]; simp [and_assoc]

theorem foldl_diff_ok (h : Heap) (ss : List Seg) (b : Bm) (hb : b.Ok) :
    (ss.foldl (fun b o => b.diff (rd h o.data)) b).Ok := by
  induction ss generalizing b with
  | nil => exact hb
  | cons s ss ih => exact ih _ (Bm.diff_ok hb)

theorem foldl_diff_congr {h h' : Heap} (ss : List Seg) (b : Bm) (he : ∀ s ∈ ss, rd h' s.data = rd h s.data) :
    ss.foldl (fun b o => b.diff (rd h' o.data)) b = ss.foldl (fun b o => b.diff (rd h o.data)) b := by
  induction ss generalizing b with
  | nil => rfl
  | cons s ss ih =>
    rw [List.foldl_cons, List.foldl_cons, he s (by simp), ih _ (fun t ht => he t (List.mem_cons_of_mem _ ht))]

theorem mem_sameShard {k : Nat} {others : List Row} {s : Seg} :
    s ∈ sameShard k others ↔ s.shard = k ∧ ∃ o ∈ others, s ∈ o := by
  simp [sameShard]; tauto

theorem diffLoop_eq (h0 : Heap) (others : List Row) (ho : ∀ o ∈ others, ∀ s ∈ o, s.data < h0.length) (r : Row)
    (hr : ∀ s ∈ r, s.data < h0.length) (t : Heap) :
    diffLoop (h0 ++ t) r others = build (h0 ++ t) (r.map (diffItem h0 others)) := by
  induction r generalizing t with
  | nil => simp [diffLoop, build]
  | cons s r ih =>
    have ih := ih (fun s hs => hr s (List.mem_cons_of_mem _ hs))
    have hs := hr s (by simp)
    unfold diffLoop
    by_cases e : sameShard s.shard others = []
    · simp only [e, if_true, List.map_cons, diffItem, build, ih]
    · simp only [e, if_false, List.map_cons, diffItem, build, fresh]
      have hc : (sameShard s.shard others).foldl (fun b o => b.diff (rd (h0 ++ t) o.data)) (rd (h0 ++ t) s.data)
          = (sameShard s.shard others).foldl (fun b o => b.diff (rd h0 o.data)) (rd h0 s.data) := by
        rw [rd_append hs]
        refine foldl_diff_congr _ _ fun u hu => rd_append ?_
        obtain ⟨_, o, ho', hu'⟩ := mem_sameShard.1 hu
        exact ho o ho' u hu'
      rw [hc, List.append_assoc, ih]

theorem diffItem_shard {h others s} : (diffItem h others s).shard = s.shard := by
  unfold diffItem; split <;> rfl

theorem difference_build {own h r} {others : List Row} (hh : HOk own h) (hr : ROk own h r)
    (ho : ∀ o ∈ others, ROk own h o) :
    difference h r others = build h (r.map (diffItem h others)) ∧
    (r.map (diffItem h others)).Pairwise (fun a b => a.shard < b.shard) ∧
    (∀ i ∈ r.map (diffItem h others), i.Ok own h) ∧
    (∀ x, x ∈ (r.map (diffItem h others)).flatMap (Item.bits h) ↔
      x ∈ columns h r ∧ ∀ o ∈ others, x ∉ columns h o) ∧
    (∀ s, Item.keep s ∈ r.map (diffItem h others) → s ∈ r ∧ ∀ o ∈ others, ∀ t ∈ o, t.shard ≠ s.shard) ∧
    (∀ k b wr n, Item.mk k b wr n ∈ r.map (diffItem h others) → wr = false ∧ n = b.length) := by
  refine ⟨?_, ?_, ?_, ?_, ?_, ?_⟩
  · have := diffLoop_eq h others (fun o h' s hs => ((ho o h').2 s hs).1) r (fun s hs => (hr.2 s hs).1) []
    simpa [difference] using this
  · rw [List.pairwise_map]
    simp only [diffItem_shard]; exact hr.1
  · intro i hi
    obtain ⟨s, hs, rfl⟩ := List.mem_map.1 hi
    unfold diffItem
    split
    · exact hr.2 s hs
    · exact ⟨foldl_diff_ok _ _ _ (hh _).1, fun x hx => seg_bits hh hr hs ((foldl_diff_mem _ _ _ _).1 hx).1⟩
  · intro x
    simp only [List.mem_flatMap, List.mem_map]
    have key : ∀ s ∈ r, x ∈ (diffItem h others s).bits h ↔ x ∈ rd h s.data ∧ ∀ o ∈ others, x ∉ columns h o := by
      intro s hs
      have : ∀ hx : x ∈ rd h s.data, (∀ o ∈ others, x ∉ columns h o) ↔
          ∀ t ∈ sameShard s.shard others, x ∉ rd h t.data := by
        intro hx
        constructor
        · intro hc t ht hxt
          obtain ⟨_, o, ho', ht'⟩ := mem_sameShard.1 ht
          exact hc o ho' (mem_columns.2 ⟨t, ht', hxt⟩)
        · intro hc o ho' hxo
          obtain ⟨t, ht, hxt⟩ := mem_columns.1 hxo
          exact hc t (mem_sameShard.2 ⟨(seg_bits hh (ho o ho') ht hxt).symm.trans (seg_bits hh hr hs hx), o, ho', ht⟩) hxt
      unfold diffItem
      split
      · rename_i e
        simp only [Item.bits]
        constructor
        · intro hx; exact ⟨hx, (this hx).2 (by simp [e])⟩
        · exact fun hx => hx.1
      · simp only [Item.bits, foldl_diff_mem]
        constructor
        · rintro ⟨h1, h2⟩; exact ⟨h1, (this h1).2 h2⟩
        · rintro ⟨h1, h2⟩; exact ⟨h1, (this h1).1 h2⟩
    constructor
    · rintro ⟨i, ⟨s, hs, rfl⟩, hx⟩
      have := (key s hs).1 hx
      exact ⟨mem_columns.2 ⟨s, hs, this.1⟩, this.2⟩
    · rintro ⟨h1, h2⟩
      obtain ⟨s, hs, hxs⟩ := mem_columns.1 h1
      exact ⟨_, ⟨s, hs, rfl⟩, (key s hs).2 ⟨hxs, h2⟩⟩
  · intro s hs
    obtain ⟨t, ht, e⟩ := List.mem_map.1 hs
    unfold diffItem at e
    split at e
    · rename_i hnil
      cases e
      refine ⟨ht, fun o ho' u hu he => ?_⟩
      have : u ∈ sameShard s.shard others := mem_sameShard.2 ⟨he, o, ho', hu⟩
      rw [hnil] at this; cases this
    · cases e
  · intro k b wr n hm
    obtain ⟨t, ht, e⟩ := List.mem_map.1 hm
    unfold diffItem at e
    split at e
    · cases e
    · cases e; exact ⟨rfl, rfl⟩

/-! ## Clone, new rows -/

def cloneItem (h : Heap) (s : Seg) : Item := .mk s.shard (rd h s.data) true s.n

theorem clone_eq (h0 : Heap) (r : Row) (hr : ∀ s ∈ r, s.data < h0.length) (t : Heap) :
    clone (h0 ++ t) r = build (h0 ++ t) (r.map (cloneItem h0)) := by
  induction r generalizing t with
  | nil => simp [clone, build]
  | cons s r ih =>
    have ih := ih (fun s hs => hr s (List.mem_cons_of_mem _ hs))
    simp only [clone, List.map_cons, cloneItem, build]
    rw [rd_append (hr s (by simp)), List.append_assoc, ih]

theorem clone_build {own h r} (hh : HOk own h) (hr : ROk own h r) :
    clone h r = build h (r.map (cloneItem h)) ∧
    (r.map (cloneItem h)).Pairwise (fun a b => a.shard < b.shard) ∧
    (∀ i ∈ r.map (cloneItem h), i.Ok own h) ∧
    (r.map (cloneItem h)).flatMap (Item.bits h) = columns h r ∧
    (∀ s, Item.keep s ∉ r.map (cloneItem h)) := by
  refine ⟨?_, ?_, ?_, ?_, ?_⟩
  · have := clone_eq h r (fun s hs => (hr.2 s hs).1) []
    simpa using this
  · rw [List.pairwise_map]; exact hr.1
  · intro i hi
    obtain ⟨s, hs, rfl⟩ := List.mem_map.1 hi
    exact ⟨(hh _).1, fun x hx => seg_bits hh hr hs hx⟩
  · simp [List.flatMap_map, columns, cloneItem, Item.bits]
  · intro s hs
    obtain ⟨t, _, e⟩ := List.mem_map.1 hs
    cases e

def bitmapItem (b : Bm) (k : Nat) : Item :=
  .mk k (b.filter (fun x => decide (x / shardWidth = k))) true (b.filter (fun x => decide (x / shardWidth = k))).length

theorem fromBitmap_eq (h : Heap) (b : Bm) (ks : List Nat) : fromBitmap h b ks = build h (ks.map (bitmapItem b)) := by
  induction ks generalizing h with
  | nil => rfl
  | cons k ks ih => simp only [fromBitmap, List.map_cons, bitmapItem, build, fresh, ih]

theorem fromBitmap_build {own : Nat → Nat} {h} (bits : List Nat) :
    ((((bits.map (· / shardWidth)).foldl Bm.add []).map (bitmapItem (bits.foldl Bm.add []))).Pairwise
      (fun a b => a.shard < b.shard)) ∧
    (∀ i ∈ ((bits.map (· / shardWidth)).foldl Bm.add []).map (bitmapItem (bits.foldl Bm.add [])), i.Ok own h) ∧
    (∀ x, x ∈ (((bits.map (· / shardWidth)).foldl Bm.add []).map (bitmapItem (bits.foldl Bm.add []))).flatMap (Item.bits h)
      ↔ x ∈ bits) := by
  refine ⟨?_, ?_, ?_⟩
  · rw [List.pairwise_map]; exact Bm.foldl_add_ok Bm.nil_ok
  · intro i hi
    obtain ⟨k, _, rfl⟩ := List.mem_map.1 hi
    exact ⟨List.Pairwise.filter _ (Bm.foldl_add_ok Bm.nil_ok), fun x hx => by simpa using (List.mem_filter.1 hx).2⟩
  · intro x
    simp only [List.mem_flatMap, List.mem_map]
    constructor
    · rintro ⟨i, ⟨k, _, rfl⟩, hx⟩
      have := (List.mem_filter.1 (show x ∈ List.filter _ _ from hx)).1
      simpa [Bm.mem_foldl_add] using this
    · intro hx
      refine ⟨_, ⟨x / shardWidth, ?_, rfl⟩, ?_⟩
      · rw [Bm.mem_foldl_add]; exact Or.inr (List.mem_map.2 ⟨x, hx, rfl⟩)
      · show x ∈ List.filter _ _
        exact List.mem_filter.2 ⟨Bm.mem_foldl_add.2 (Or.inr hx), by simp⟩

end Verif.Rw
