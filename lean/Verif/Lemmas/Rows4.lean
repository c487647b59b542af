import Verif.Lemmas.Rows3
/-!
# SetBit and Merge
-/
namespace Verif.Rw
open Bt (shardWidth)

/-- What writing through segment `s` of shard `k` guarantees: `s'` is the written segment, `P` its new members. -/
structure Wrote (own : Nat → Nat) (h : Heap) (s : Seg) (own' : Nat → Nat) (h' : Heap) (s' : Seg) (P : Nat → Prop) : Prop where
  ext : Ext own h own' h'
  hok : HOk own' h'
  inb : s'.data < h'.length
  own : own' s'.data = s.shard
  shard : s'.shard = s.shard
  wr : s'.writable = true
  mem : ∀ x, x ∈ rd h' s'.data ↔ P x
  frame : ∀ p, p < h.length → p ≠ s'.data → rd h' p = rd h p
  at_ : (s.writable = true ∧ s'.data = s.data) ∨ h.length ≤ s'.data
  cnt : s.n = (rd h s.data).length → s'.n = (rd h' s'.data).length

theorem ensureWritable_wrote {own h s} (hh : HOk own h) (hd : s.data < h.length) (ho : own s.data = s.shard) :
    ∃ own', Wrote own h s own' (ensureWritable h s).1 (ensureWritable h s).2 (fun x => x ∈ rd h s.data) := by
  unfold ensureWritable
  by_cases hw : s.writable = true
  · simp only [hw, if_true]
    exact ⟨own, Ext.refl _ _, hh, hd, ho, rfl, hw, fun _ => Iff.rfl, fun _ _ _ => rfl, Or.inl ⟨hw, rfl⟩, id⟩
  · simp only [hw, Bool.false_eq_true, if_false]
    obtain ⟨own', e, hk, ok⟩ := alloc_ok (k := s.shard) hh (hh s.data).1 (fun x hx => ((hh _).2 x hx).trans ho)
    refine ⟨own', e, hk, by simp, ok, rfl, rfl, fun x => ?_, fun p hp _ => rd_append hp, Or.inr (Nat.le_refl _), ?_⟩
    · simp only [rd_new]
    · simp only [rd_new]; exact id

theorem segSetBit_wrote {own h s i} (hh : HOk own h) (hd : s.data < h.length) (ho : own s.data = s.shard)
    (hi : i / shardWidth = s.shard) :
    (∃ own', Wrote own h s own' (segSetBit h s i).1 (segSetBit h s i).2.1 (fun x => x = i ∨ x ∈ rd h s.data)) ∧
    (segSetBit h s i).2.2 = decide (i ∉ rd h s.data) := by
  obtain ⟨own', w⟩ := ensureWritable_wrote hh hd ho
  unfold segSetBit
  generalize ensureWritable h s = q at *
  obtain ⟨h1, s1⟩ := q
  simp only at *
  by_cases hm : i ∈ rd h1 s1.data
  · simp only [hm, if_true]
    refine ⟨⟨own', w.ext, w.hok, w.inb, w.own, w.shard, w.wr, fun x => ?_, w.frame, w.at_, w.cnt⟩, ?_⟩
    · rw [w.mem]
      constructor
      · exact Or.inr
      · rintro (rfl | h)
        · exact (w.mem _).1 hm
        · exact h
    · have := (w.mem i).1 hm
      simp [this]
  · simp only [hm, if_false]
    have hm' : i ∉ rd h s.data := fun h => hm ((w.mem i).2 h)
    refine ⟨⟨own', ⟨?_, w.ext.2⟩, ?_, ?_, w.own, w.shard, w.wr, fun x => ?_, ?_, w.at_, ?_⟩, by simp [hm']⟩
    · simpa using w.ext.1
    · intro p
      rw [rd_set w.inb]
      split
      · rename_i e; subst e
        refine ⟨Bm.add_ok (w.hok _).1 i, fun x hx => ?_⟩
        rcases Bm.mem_add.1 hx with rfl | hx
        · rw [w.own]; exact hi
        · exact (w.hok _).2 x hx
      · exact w.hok p
    · simpa using w.inb
    · rw [rd_set w.inb]; simp only [if_true]; rw [Bm.mem_add, w.mem]
    · intro p hp hne
      rw [rd_set w.inb]
      simp only at hne
      rw [if_neg (Ne.symm hne)]
      exact w.frame p hp hne
    · intro hc
      rw [rd_set w.inb]; simp only [if_true]
      rw [Bm.length_add hm, w.cnt hc]

theorem segSetAll_wrote {own h s} (l : List Nat) (hh : HOk own h) (hd : s.data < h.length) (ho : own s.data = s.shard)
    (hw : s.writable = true) (hi : ∀ i ∈ l, i / shardWidth = s.shard) :
    ∃ own', Wrote own h s own' (segSetAll h s l).1 (segSetAll h s l).2 (fun x => x ∈ l ∨ x ∈ rd h s.data) := by
  induction l generalizing own h s with
  | nil =>
    exact ⟨own, Ext.refl _ _, hh, hd, ho, rfl, hw, fun _ => by simp [segSetAll], fun _ _ _ => rfl, Or.inl ⟨hw, rfl⟩, id⟩
  | cons v vs ih =>
    obtain ⟨⟨own1, w1⟩, _⟩ := segSetBit_wrote (i := v) hh hd ho (hi v (by simp))
    obtain ⟨own2, w2⟩ := ih w1.hok w1.inb (w1.own.trans w1.shard.symm) w1.wr
      (fun i h => (hi i (List.mem_cons_of_mem _ h)).trans w1.shard.symm)
    simp only [segSetAll]
    generalize segSetBit h s v = q at *
    obtain ⟨h1, s1, b1⟩ := q
    simp only at *
    have hat : (segSetAll h1 s1 vs).2.data = s1.data ∨ h1.length ≤ (segSetAll h1 s1 vs).2.data :=
      w2.at_.imp (·.2) id
    refine ⟨own2, w1.ext.trans w2.ext, w2.hok, w2.inb, w2.own.trans w1.shard, w2.shard.trans w1.shard, w2.wr,
      fun x => ?_, fun p hp hne => ?_, ?_, fun hc => w2.cnt (w1.cnt hc)⟩
    · rw [w2.mem, w1.mem, List.mem_cons]; tauto
    · rcases hat with e | e
      · rw [w2.frame p (Nat.lt_of_lt_of_le hp w1.ext.1) hne]
        exact w1.frame p hp (e ▸ hne)
      · -- writable segments keep their bitmap
        rcases w2.at_ with ⟨_, e'⟩ | e'
        · rw [w2.frame p (Nat.lt_of_lt_of_le hp w1.ext.1) hne]
          exact w1.frame p hp (e' ▸ hne)
        · have hp1 : p < h1.length := Nat.lt_of_lt_of_le hp w1.ext.1
          by_cases hps : p = s1.data
          · exfalso
            -- the segment was writable, so nothing was allocated
            have : ∀ (l : List Nat) (h : Heap) (s : Seg), s.writable = true → (segSetAll h s l).2.data = s.data := by
              intro l
              induction l with
              | nil => intro h s _; rfl
              | cons v vs ih' =>
                intro h s hs
                simp only [segSetAll]
                have hbit : (segSetBit h s v).2.1.data = s.data ∧ (segSetBit h s v).2.1.writable = true := by
                  unfold segSetBit ensureWritable
                  simp only [hs, if_true]
                  split <;> simp [hs]
                rw [ih' _ _ hbit.2, hbit.1]
            exact hne (hps.trans (this vs h1 s1 w1.wr).symm)
          · rw [w2.frame p hp1 hne]
            exact w1.frame p hp hps
    · rcases w2.at_ with ⟨_, e⟩ | e
      · rcases w1.at_ with ⟨hs, e'⟩ | e'
        · exact Or.inl ⟨hs, e.trans e'⟩
        · exact Or.inr (e ▸ e')
      · exact Or.inr (Nat.le_trans w1.ext.1 e)

theorem segMerge_wrote {own h s o} (hh : HOk own h) (hd : s.data < h.length) (ho : own s.data = s.shard)
    (hdo : o.data < h.length) (hoo : own o.data = o.shard) (he : o.shard = s.shard) :
    ∃ own', Wrote own h s own' (segMerge h s o).1 (segMerge h s o).2 (fun x => x ∈ rd h s.data ∨ x ∈ rd h o.data) := by
  obtain ⟨own1, w1⟩ := ensureWritable_wrote hh hd ho
  unfold segMerge
  have hro : rd (ensureWritable h s).1 o.data = rd h o.data := by
    unfold ensureWritable
    split
    · rfl
    · exact rd_append hdo
  have hat1 := w1.at_
  generalize ensureWritable h s = q at *
  obtain ⟨h1, s1⟩ := q
  simp only at *
  rw [hro]
  obtain ⟨own2, w2⟩ := segSetAll_wrote (rd h o.data) w1.hok w1.inb (w1.own.trans w1.shard.symm) w1.wr
    (fun i h => (((hh _).2 i h).trans hoo).trans (he.trans w1.shard.symm))
  have hdata : (segSetAll h1 s1 (rd h o.data)).2.data = s1.data := by
    have : ∀ (l : List Nat) (h : Heap) (s : Seg), s.writable = true → (segSetAll h s l).2.data = s.data := by
      intro l
      induction l with
      | nil => intro h s _; rfl
      | cons v vs ih' =>
        intro h s hs
        simp only [segSetAll]
        have hbit : (segSetBit h s v).2.1.data = s.data ∧ (segSetBit h s v).2.1.writable = true := by
          unfold segSetBit ensureWritable
          simp only [hs, if_true]
          split <;> simp [hs]
        rw [ih' _ _ hbit.2, hbit.1]
    exact this _ _ _ w1.wr
  refine ⟨own2, w1.ext.trans w2.ext, w2.hok, w2.inb, w2.own.trans w1.shard, w2.shard.trans w1.shard, w2.wr,
    fun x => ?_, fun p hp hne => ?_, ?_, fun hc => w2.cnt (w1.cnt hc)⟩
  · rw [w2.mem, w1.mem]; tauto
  · rw [w2.frame p (Nat.lt_of_lt_of_le hp w1.ext.1) hne]
    exact w1.frame p hp (hdata ▸ hne)
  · rw [hdata]; exact hat1

/-! ## SetBit on a row -/

/-- The segment of `r` that a write to shard `k` goes through, if it is written in place. -/
def InPlace (r : Row) (k p : Nat) : Prop := ∃ s ∈ r, s.shard = k ∧ s.data = p ∧ s.writable = true

structure SetSpec (own : Nat → Nat) (h : Heap) (r : Row) (i : Nat) (own' : Nat → Nat) (h' : Heap) (r' : Row) : Prop where
  ext : Ext own h own' h'
  hok : HOk own' h'
  rok : ROk own' h' r'
  mem : ∀ x, x ∈ columns h' r' ↔ x = i ∨ x ∈ columns h r
  frame : ∀ p, p < h.length → ¬ InPlace r (i / shardWidth) p → rd h' p = rd h p
  shape : ∀ s' ∈ r', (s' ∈ r ∧ s'.shard ≠ i / shardWidth) ∨
    (s'.shard = i / shardWidth ∧ s'.writable = true ∧ (h.length ≤ s'.data ∨ InPlace r (i / shardWidth) s'.data))
  cnt : (∀ s ∈ r, s.n = (rd h s.data).length) → ∀ s' ∈ r', s'.n = (rd h' s'.data).length

theorem fresh_wrote {own h} (hh : HOk own h) (i : Nat) :
    let f := fresh h (i / shardWidth) [] true
    let w := segSetBit f.1 f.2 i
    (∃ own', Ext own h own' w.1 ∧ HOk own' w.1 ∧ w.2.1.data < w.1.length ∧ own' w.2.1.data = i / shardWidth ∧
      w.2.1.shard = i / shardWidth ∧ w.2.1.writable = true ∧ (∀ x, x ∈ rd w.1 w.2.1.data ↔ x = i) ∧
      (∀ p, p < h.length → rd w.1 p = rd h p) ∧ h.length ≤ w.2.1.data ∧ w.2.1.n = (rd w.1 w.2.1.data).length) ∧
    w.2.2 = true := by
  obtain ⟨own1, e1, k1, o1⟩ := alloc_ok (b := []) (k := i / shardWidth) hh Bm.nil_ok (by simp)
  obtain ⟨⟨own2, w⟩, hb⟩ := segSetBit_wrote (s := (fresh h (i / shardWidth) [] true).2) (i := i) k1
    (by simp [fresh]) (by simpa [fresh] using o1) rfl
  simp only [fresh] at *
  have hdat : (segSetBit (h ++ [[]]) { shard := i / shardWidth, data := h.length, writable := true, n := List.length ([] : Bm) } i).2.1.data = h.length := by
    unfold segSetBit ensureWritable
    simp only [if_true]
    split <;> rfl
  refine ⟨⟨own2, e1.trans w.ext, w.hok, w.inb, w.own, w.shard, w.wr, fun x => ?_, fun p hp => ?_, ?_, ?_⟩, ?_⟩
  · rw [w.mem]; simp [rd_new]
  · rw [w.frame p (by simp; omega) (by rw [hdat]; omega), rd_append hp]
  · rw [hdat]; exact Nat.le_refl _
  · exact w.cnt (by rw [rd_new])
  · rw [hb]; simp [rd_new]

theorem setBit_spec {own h r} (i : Nat) (hh : HOk own h) (hr : ROk own h r) :
    (∃ own', SetSpec own h r i own' (setBit h i r).1 (setBit h i r).2.1) ∧
    (setBit h i r).2.2 = decide (i ∉ columns h r) := by
  induction r with
  | nil =>
    obtain ⟨⟨own', e, hk, hd, ho, hsh, hw, hm, hf, hge, hn⟩, hb⟩ := fresh_wrote hh i
    simp only [setBit]
    generalize segSetBit (fresh h (i / shardWidth) [] true).1 (fresh h (i / shardWidth) [] true).2 i = q at *
    obtain ⟨h1, s1, b1⟩ := q
    simp only at *
    refine ⟨⟨own', e, hk, ⟨by simp, ?_⟩, fun x => ?_, fun p hp _ => hf p hp, ?_, ?_⟩, by simp [hb, columns]⟩
    · intro s hs; simp at hs; subst hs; exact ⟨hd, ho.trans hsh.symm⟩
    · simp [columns, hm]
    · intro s' hs'; simp at hs'; subst hs'; exact Or.inr ⟨hsh, hw, Or.inl hge⟩
    · intro _ s' hs'; simp at hs'; subst hs'; exact hn
  | cons s r ih =>
    have hp := List.pairwise_cons.1 hr.1
    have hr' : ROk own h r := ⟨hp.2, fun t ht => hr.2 t (List.mem_cons_of_mem _ ht)⟩
    have hs := hr.2 s (by simp)
    unfold setBit
    by_cases h1 : s.shard < i / shardWidth
    · simp only [h1, if_true]
      obtain ⟨⟨own', sp⟩, hb⟩ := ih hr'
      generalize setBit h i r = q at *
      obtain ⟨h', r', b'⟩ := q
      simp only at *
      have hnot : i ∉ rd h s.data := fun hc => by have := seg_bits hh hr (by simp) hc; omega
      have hkeep : rd h' s.data = rd h s.data := by
        refine sp.frame _ hs.1 ?_
        rintro ⟨t, ht, e1, e2, _⟩
        have := (hr'.2 t ht).2
        rw [e2, hs.2] at this
        omega
      refine ⟨⟨own', sp.ext, sp.hok, ⟨?_, ?_⟩, fun x => ?_, fun p hp' hn => ?_, ?_, ?_⟩, ?_⟩
      · refine List.pairwise_cons.2 ⟨fun t ht => ?_, sp.rok.1⟩
        rcases sp.shape t ht with ⟨ht', _⟩ | ⟨e, _⟩
        · exact hp.1 t ht'
        · omega
      · intro t ht
        rcases List.mem_cons.1 ht with rfl | ht
        · exact ⟨Nat.lt_of_lt_of_le hs.1 sp.ext.1, (sp.ext.2 _ hs.1).trans hs.2⟩
        · exact sp.rok.2 t ht
      · have := sp.mem x
        simp only [columns, List.flatMap_cons, List.mem_append, hkeep] at *
        rw [this]; tauto
      · refine sp.frame p hp' ?_
        rintro ⟨t, ht, e⟩
        exact hn ⟨t, List.mem_cons_of_mem _ ht, e⟩
      · intro t ht
        rcases List.mem_cons.1 ht with rfl | ht
        · exact Or.inl ⟨by simp, by omega⟩
        · rcases sp.shape t ht with ⟨h1, h2⟩ | ⟨h1, h2, h3⟩
          · exact Or.inl ⟨List.mem_cons_of_mem _ h1, h2⟩
          · refine Or.inr ⟨h1, h2, h3.imp id ?_⟩
            rintro ⟨u, hu, e⟩; exact ⟨u, List.mem_cons_of_mem _ hu, e⟩
      · intro hc t ht
        rcases List.mem_cons.1 ht with rfl | ht
        · rw [hkeep]; exact hc t (by simp)
        · exact sp.cnt (fun u hu => hc u (List.mem_cons_of_mem _ hu)) t ht
      · rw [hb]; simp [columns, List.flatMap_cons, hnot]
    · by_cases h2 : s.shard = i / shardWidth
      · simp only [h2, if_false, if_true, Nat.lt_irrefl]
        obtain ⟨⟨own', w⟩, hb⟩ := segSetBit_wrote (i := i) hh hs.1 hs.2 h2.symm
        have hnot : i ∉ columns h r := by
          intro hc
          obtain ⟨t, ht, hx⟩ := mem_columns.1 hc
          have h3 := seg_bits hh hr' ht hx
          have := hp.1 t ht
          omega
        generalize segSetBit h s i = q at *
        obtain ⟨h', s', b'⟩ := q
        simp only at *
        have hkeep : ∀ t ∈ r, rd h' t.data = rd h t.data := by
          intro t ht
          refine w.frame _ (hr'.2 t ht).1 fun e => ?_
          have h3 := w.own
          rw [← e, w.ext.2 _ (hr'.2 t ht).1, (hr'.2 t ht).2] at h3
          have := hp.1 t ht
          omega
        have hcols : columns h' r = columns h r := by
          simp only [columns, List.flatMap_def]
          congr 1
          exact List.map_congr_left hkeep
        refine ⟨⟨own', w.ext, w.hok, ⟨?_, ?_⟩, fun x => ?_, fun p hp' hn => ?_, ?_, ?_⟩, ?_⟩
        · refine List.pairwise_cons.2 ⟨fun t ht => ?_, hp.2⟩
          rw [w.shard]; exact hp.1 t ht
        · intro t ht
          rcases List.mem_cons.1 ht with rfl | ht
          · exact ⟨w.inb, w.own.trans w.shard.symm⟩
          · exact (hr'.ext w.ext).2 t ht
        · have := w.mem x
          simp only [columns] at hcols
          simp only [columns, List.flatMap_cons, List.mem_append, hcols, this]; tauto
        · refine w.frame p hp' ?_
          rintro rfl
          rcases w.at_ with ⟨e1, e2⟩ | e
          · exact hn ⟨s, by simp, h2, e2.symm, e1⟩
          · omega
        · intro t ht
          rcases List.mem_cons.1 ht with rfl | ht
          · refine Or.inr ⟨w.shard.trans h2, w.wr, ?_⟩
            rcases w.at_ with ⟨e1, e2⟩ | e
            · exact Or.inr ⟨s, by simp, h2, e2.symm, e1⟩
            · exact Or.inl e
          · refine Or.inl ⟨List.mem_cons_of_mem _ ht, ?_⟩
            have := hp.1 t ht; omega
        · intro hc t ht
          rcases List.mem_cons.1 ht with rfl | ht
          · exact w.cnt (hc s (by simp))
          · rw [hkeep t ht]; exact hc t (List.mem_cons_of_mem _ ht)
        · rw [hb]; simp only [columns] at hnot; simp [columns, List.flatMap_cons, -List.mem_flatMap, hnot]
      · simp only [h1, h2, if_false]
        obtain ⟨⟨own', e, hk, hd, ho, hsh, hw, hm, hf, hge, hn⟩, hb⟩ := fresh_wrote hh i
        have hnot : i ∉ columns h (s :: r) := by
          intro hc
          obtain ⟨t, ht, hx⟩ := mem_columns.1 hc
          have h3 := seg_bits hh hr ht hx
          have := head_le_all hr rfl ht
          omega
        generalize segSetBit (fresh h (i / shardWidth) [] true).1 (fresh h (i / shardWidth) [] true).2 i = q at *
        obtain ⟨h', s1, b1⟩ := q
        simp only at *
        have hcols : columns h' (s :: r) = columns h (s :: r) := by
          simp only [columns, List.flatMap_def]
          congr 1
          exact List.map_congr_left fun t ht => hf _ (hr.2 t ht).1
        refine ⟨⟨own', e, hk, ⟨?_, ?_⟩, fun x => ?_, fun p hp _ => hf p hp, ?_, ?_⟩, by rw [hb]; simp only [hnot, not_false_eq_true, decide_true]⟩
        · refine List.pairwise_cons.2 ⟨fun t ht => ?_, hr.1⟩
          have := head_le_all hr rfl ht
          omega
        · intro t ht
          rcases List.mem_cons.1 ht with rfl | ht
          · exact ⟨hd, ho.trans hsh.symm⟩
          · exact (hr.ext e).2 t ht
        · rw [← hcols]; simp only [columns]; rw [List.flatMap_cons, List.mem_append, hm]
        · intro t ht
          rcases List.mem_cons.1 ht with rfl | ht
          · exact Or.inr ⟨hsh, hw, Or.inl hge⟩
          · refine Or.inl ⟨ht, ?_⟩
            have := head_le_all hr rfl ht
            omega
        · intro hc t ht
          rcases List.mem_cons.1 ht with rfl | ht
          · exact hn
          · rw [hf _ (hr.2 t ht).1]; exact hc t ht

/-! ## Merge -/

theorem exists_mem_cons {α : Type} {p : α → Prop} {a : α} {l : List α} :
    (∃ x, x ∈ a :: l ∧ p x) ↔ p a ∨ ∃ x, x ∈ l ∧ p x := by simp

theorem mergeLoop_spec {own h} (ps : List (Option Seg × Option Seg)) (hh : HOk own h) (hp : PsOk own h ps) :
    ∃ own', Ext own h own' (mergeLoop h ps).1 ∧ HOk own' (mergeLoop h ps).1 ∧
      ROk own' (mergeLoop h ps).1 (mergeLoop h ps).2 ∧
      (mergeLoop h ps).2.map (·.shard) = ps.map pkey ∧
      (∀ x, x ∈ columns (mergeLoop h ps).1 (mergeLoop h ps).2 ↔
        ∃ q ∈ ps, ∃ s, (q.1 = some s ∨ q.2 = some s) ∧ x ∈ rd h s.data) ∧
      (∀ p, p < h.length → (¬ ∃ s t, (some s, some t) ∈ ps ∧ s.data = p ∧ s.writable = true) →
        rd (mergeLoop h ps).1 p = rd h p) ∧
      (∀ s' ∈ (mergeLoop h ps).2, Alone s' ps ∨ (s'.writable = true ∧
        (h.length ≤ s'.data ∨ ∃ s t, (some s, some t) ∈ ps ∧ s.data = s'.data ∧ s.writable = true))) := by
  induction ps generalizing own h with
  | nil =>
    exact ⟨own, Ext.refl _ _, hh, ⟨List.Pairwise.nil, by simp [mergeLoop]⟩, rfl, by simp [mergeLoop, columns],
      fun _ _ _ => rfl, by simp [mergeLoop]⟩
  | cons q ps ih =>
    have hsor := List.pairwise_cons.1 hp.sorted
    have hps : ∀ {own' h'}, Ext own h own' h' → PsOk own' h' ps := fun e =>
      ⟨hsor.2, fun q hq => hp.ne q (List.mem_cons_of_mem _ hq), fun q hq s hs => by
        have := hp.seg q (List.mem_cons_of_mem _ hq) s hs
        exact ⟨Nat.lt_of_lt_of_le this.1 e.1, (e.2 _ this.1).trans this.2.1, this.2.2⟩⟩
    have hseg := hp.seg q (by simp)
    have hne := hp.ne q (by simp)
    -- a segment passed through unchanged
    have pass : ∀ s, (q = (some s, none) ∨ q = (none, some s)) →
        mergeLoop h (q :: ps) = ((mergeLoop h ps).1, s :: (mergeLoop h ps).2) →
        ∃ own', Ext own h own' (mergeLoop h (q :: ps)).1 ∧ HOk own' (mergeLoop h (q :: ps)).1 ∧
          ROk own' (mergeLoop h (q :: ps)).1 (mergeLoop h (q :: ps)).2 ∧
          (mergeLoop h (q :: ps)).2.map (·.shard) = (q :: ps).map pkey ∧
          (∀ x, x ∈ columns (mergeLoop h (q :: ps)).1 (mergeLoop h (q :: ps)).2 ↔
            ∃ q' ∈ q :: ps, ∃ s, (q'.1 = some s ∨ q'.2 = some s) ∧ x ∈ rd h s.data) ∧
          (∀ p, p < h.length → (¬ ∃ s t, (some s, some t) ∈ q :: ps ∧ s.data = p ∧ s.writable = true) →
            rd (mergeLoop h (q :: ps)).1 p = rd h p) ∧
          (∀ s' ∈ (mergeLoop h (q :: ps)).2, Alone s' (q :: ps) ∨ (s'.writable = true ∧
            (h.length ≤ s'.data ∨ ∃ s t, (some s, some t) ∈ q :: ps ∧ s.data = s'.data ∧ s.writable = true))) := by
      intro s hq heq
      have hsq : q.1 = some s ∨ q.2 = some s := by rcases hq with rfl | rfl <;> simp
      have hs := hseg s hsq
      obtain ⟨own', i1, i2, i3, i4, i5, i6, i7⟩ := ih hh (hps (Ext.refl _ _))
      rw [heq]
      generalize mergeLoop h ps = w at *
      obtain ⟨h', r'⟩ := w
      simp only at *
      have hkeep : rd h' s.data = rd h s.data := by
        refine i6 _ hs.1 ?_
        rintro ⟨a, b, hab, e, _⟩
        have ha := hp.seg _ (List.mem_cons_of_mem _ hab) a (by simp)
        have h1 : own s.data = pkey (some a, some b) := by rw [← e, ha.2.1, ha.2.2]
        have h2 := hsor.1 _ hab
        have h3 := hs.2.1.trans hs.2.2
        omega
      refine ⟨own', i1, i2, ⟨?_, ?_⟩, ?_, fun x => ?_, fun p hp' hn => ?_, ?_⟩
      · refine List.pairwise_cons.2 ⟨fun t ht => ?_, i3.1⟩
        have : t.shard ∈ r'.map (·.shard) := List.mem_map.2 ⟨t, ht, rfl⟩
        rw [i4] at this
        obtain ⟨q', hq', e⟩ := List.mem_map.1 this
        have := hsor.1 q' hq'
        have := hs.2.2
        omega
      · intro t ht
        rcases List.mem_cons.1 ht with rfl | ht
        · exact ⟨Nat.lt_of_lt_of_le hs.1 i1.1, (i1.2 _ hs.1).trans hs.2.1⟩
        · exact i3.2 t ht
      · simp only [List.map_cons, i4, hs.2.2]
      · have := i5 x
        simp only [columns] at this
        simp only [columns, List.flatMap_cons, List.mem_append, hkeep, this, exists_mem_cons]
        refine or_congr_left ⟨fun hx => ⟨s, hsq, hx⟩, ?_⟩
        rintro ⟨t, ht, hx⟩
        rcases hq with rfl | rfl <;> simp at ht <;> subst ht <;> exact hx
      · refine i6 p hp' ?_
        rintro ⟨a, b, hab, e⟩
        exact hn ⟨a, b, List.mem_cons_of_mem _ hab, e⟩
      · intro t ht
        rcases List.mem_cons.1 ht with rfl | ht
        · refine Or.inl ?_
          rcases hq with rfl | rfl
          · exact Or.inl (by simp)
          · exact Or.inr (by simp)
        · rcases i7 t ht with h1 | ⟨h1, h2⟩
          · exact Or.inl (h1.imp (List.mem_cons_of_mem _) (List.mem_cons_of_mem _))
          · refine Or.inr ⟨h1, h2.imp id ?_⟩
            rintro ⟨a, b, hab, e⟩; exact ⟨a, b, List.mem_cons_of_mem _ hab, e⟩
    obtain ⟨x, y⟩ := q
    cases x with
    | none =>
      cases y with
      | none => exact absurd rfl hne
      | some y => exact pass y (Or.inr rfl) rfl
    | some x =>
      cases y with
      | none => exact pass x (Or.inl rfl) rfl
      | some y =>
        have hx := hseg x (by simp)
        have hy := hseg y (by simp)
        obtain ⟨own1, w⟩ := segMerge_wrote hh hx.1 hx.2.1 hy.1 hy.2.1 (hy.2.2.trans hx.2.2.symm)
        have hps1 := hps w.ext
        have heq : mergeLoop h ((some x, some y) :: ps) =
            ((mergeLoop (segMerge h x y).1 ps).1, (segMerge h x y).2 :: (mergeLoop (segMerge h x y).1 ps).2) := rfl
        rw [heq]
        generalize segMerge h x y = m at *
        obtain ⟨h1, s1⟩ := m
        simp only at *
        obtain ⟨own', i1, i2, i3, i4, i5, i6, i7⟩ := ih w.hok hps1
        generalize mergeLoop h1 ps = w' at *
        obtain ⟨h', r'⟩ := w'
        simp only at *
        -- segments of the rest are in other shards, so the write did not touch them
        have hrest : ∀ q ∈ ps, ∀ s, q.1 = some s ∨ q.2 = some s → rd h1 s.data = rd h s.data := by
          intro q hq s hs
          have h2 := hp.seg q (List.mem_cons_of_mem _ hq) s hs
          refine w.frame _ h2.1 fun e => ?_
          have h3 := w.own
          rw [← e, w.ext.2 _ h2.1, h2.2.1, h2.2.2, hx.2.2] at h3
          have h4 := hsor.1 q hq
          omega
        have hkeep : rd h' s1.data = rd h1 s1.data := by
          refine i6 _ w.inb ?_
          rintro ⟨a, b, hab, e, _⟩
          have ha := hps1.seg _ hab a (by simp)
          have h3 : own1 s1.data = pkey (some a, some b) := by rw [← e, ha.2.1, ha.2.2]
          rw [w.own, hx.2.2] at h3
          have := hsor.1 _ hab
          omega
        refine ⟨own', w.ext.trans i1, i2, ⟨?_, ?_⟩, ?_, fun z => ?_, fun p hp' hn => ?_, ?_⟩
        · refine List.pairwise_cons.2 ⟨fun t ht => ?_, i3.1⟩
          have : t.shard ∈ r'.map (·.shard) := List.mem_map.2 ⟨t, ht, rfl⟩
          rw [i4] at this
          obtain ⟨q', hq', e⟩ := List.mem_map.1 this
          have := hsor.1 q' hq'
          rw [w.shard, hx.2.2]
          omega
        · intro t ht
          rcases List.mem_cons.1 ht with rfl | ht
          · exact ⟨Nat.lt_of_lt_of_le w.inb i1.1, (i1.2 _ w.inb).trans (w.own.trans w.shard.symm)⟩
          · exact i3.2 t ht
        · simp only [List.map_cons, i4, w.shard, hx.2.2]
        · have := i5 z
          simp only [columns] at this
          simp only [columns, List.flatMap_cons, List.mem_append, hkeep, this, w.mem, exists_mem_cons]
          refine or_congr ⟨?_, ?_⟩ ⟨?_, ?_⟩
          · rintro (hz | hz)
            · exact ⟨x, by simp, hz⟩
            · exact ⟨y, by simp, hz⟩
          · rintro ⟨t, ht, hz⟩
            simp at ht
            rcases ht with rfl | rfl
            · exact Or.inl hz
            · exact Or.inr hz
          · rintro ⟨q, hq, s, hs, hz⟩; exact ⟨q, hq, s, hs, hrest q hq s hs ▸ hz⟩
          · rintro ⟨q, hq, s, hs, hz⟩; exact ⟨q, hq, s, hs, (hrest q hq s hs).symm ▸ hz⟩
        · rw [i6 p (Nat.lt_of_lt_of_le hp' w.ext.1) ?_]
          · refine w.frame p hp' ?_
            rintro rfl
            rcases w.at_ with ⟨e1, e2⟩ | e
            · exact hn ⟨x, y, by simp, e2.symm, e1⟩
            · omega
          · rintro ⟨a, b, hab, e⟩
            exact hn ⟨a, b, List.mem_cons_of_mem _ hab, e⟩
        · intro t ht
          rcases List.mem_cons.1 ht with rfl | ht
          · refine Or.inr ⟨w.wr, ?_⟩
            rcases w.at_ with ⟨e1, e2⟩ | e
            · exact Or.inr ⟨x, y, by simp, e2.symm, e1⟩
            · exact Or.inl e
          · rcases i7 t ht with h2 | ⟨h2, h3⟩
            · exact Or.inl (h2.imp (List.mem_cons_of_mem _) (List.mem_cons_of_mem _))
            · refine Or.inr ⟨h2, ?_⟩
              rcases h3 with h3 | ⟨a, b, hab, e⟩
              · exact Or.inl (Nat.le_trans w.ext.1 h3)
              · exact Or.inr ⟨a, b, List.mem_cons_of_mem _ hab, e⟩

/-- What `r.Merge(o)` does to row `r` and to the heap. -/
structure MergeSpec (own : Nat → Nat) (h : Heap) (r o : Row) (own' : Nat → Nat) (h' : Heap) (r' : Row) : Prop where
  ext : Ext own h own' h'
  hok : HOk own' h'
  rok : ROk own' h' r'
  mem : ∀ x, x ∈ columns h' r' ↔ x ∈ columns h r ∨ x ∈ columns h o
  /-- Only bitmaps of writable segments of `r` whose shard is also in `o` are written. -/
  frame : ∀ p, p < h.length → (¬ ∃ s ∈ r, s.data = p ∧ s.writable = true ∧ ∃ t ∈ o, t.shard = s.shard) → rd h' p = rd h p
  shape : ∀ s' ∈ r', (∃ s, (s ∈ r ∨ (s ∈ o ∧ ∀ t ∈ r, t.shard ≠ s.shard)) ∧ s'.data = s.data ∧ s'.writable = s.writable) ∨
    (s'.writable = true ∧ h.length ≤ s'.data)
  cnt : ∀ s' ∈ r', s'.n = (rd h' s'.data).length

theorem merge_spec {own h r o} (hh : HOk own h) (hr : ROk own h r) (ho : ROk own h o) :
    ∃ own', MergeSpec own h r o own' (merge h r o).1 (merge h r o).2 := by
  obtain ⟨own', i1, i2, i3, i4, i5, i6, i7⟩ := mergeLoop_spec (itr r o) hh (itr_ok hr ho)
  unfold merge
  simp only
  generalize mergeLoop h (itr r o) = w at *
  obtain ⟨h', r'⟩ := w
  simp only at *
  have hcol : columns h' (invalidate h' r') = columns h' r' := by
    simp [columns, invalidate, List.flatMap_map]
  refine ⟨own', i1, i2, ⟨?_, ?_⟩, fun x => ?_, fun p hp hn => ?_, ?_, ?_⟩
  · simp only [invalidate]; rw [List.pairwise_map]; exact i3.1
  · intro s hs
    obtain ⟨t, ht, rfl⟩ := List.mem_map.1 hs
    exact i3.2 t ht
  · rw [hcol, i5]
    constructor
    · rintro ⟨q, hq, s, hs, hx⟩
      obtain ⟨a, b⟩ := q
      have al : ∀ s, Alone s (itr r o) → x ∈ rd h s.data → x ∈ columns h r ∨ x ∈ columns h o := by
        intro s hs hx
        rcases (itr_alone hr.1 ho.1 s).1 hs with ⟨h1, _⟩ | ⟨h1, _⟩
        · exact Or.inl (mem_columns.2 ⟨s, h1, hx⟩)
        · exact Or.inr (mem_columns.2 ⟨s, h1, hx⟩)
      cases a with
      | none =>
        simp at hs; subst hs
        exact al s (Or.inr hq) hx
      | some a =>
        cases b with
        | none => simp at hs; subst hs; exact al _ (Or.inl hq) hx
        | some b =>
          obtain ⟨h1, h2, _⟩ := (itr_both hr.1 ho.1 a b).1 hq
          simp at hs
          rcases hs with rfl | rfl
          · exact Or.inl (mem_columns.2 ⟨_, h1, hx⟩)
          · exact Or.inr (mem_columns.2 ⟨_, h2, hx⟩)
    · rintro (hx | hx)
      · obtain ⟨s, hs, hx⟩ := mem_columns.1 hx
        by_cases hex : ∃ t ∈ o, t.shard = s.shard
        · obtain ⟨t, ht, e⟩ := hex
          exact ⟨_, (itr_both hr.1 ho.1 s t).2 ⟨hs, ht, e.symm⟩, s, by simp, hx⟩
        · rcases (itr_alone hr.1 ho.1 s).2 (Or.inl ⟨hs, fun t ht e => hex ⟨t, ht, e⟩⟩) with hq | hq
          · exact ⟨_, hq, s, by simp, hx⟩
          · exact ⟨_, hq, s, by simp, hx⟩
      · obtain ⟨s, hs, hx⟩ := mem_columns.1 hx
        by_cases hex : ∃ t ∈ r, t.shard = s.shard
        · obtain ⟨t, ht, e⟩ := hex
          exact ⟨_, (itr_both hr.1 ho.1 t s).2 ⟨ht, hs, e⟩, s, by simp, hx⟩
        · rcases (itr_alone hr.1 ho.1 s).2 (Or.inr ⟨hs, fun t ht e => hex ⟨t, ht, e⟩⟩) with hq | hq
          · exact ⟨_, hq, s, by simp, hx⟩
          · exact ⟨_, hq, s, by simp, hx⟩
  · refine i6 p hp ?_
    rintro ⟨s, t, hst, e1, e2⟩
    obtain ⟨h1, h2, h3⟩ := (itr_both hr.1 ho.1 s t).1 hst
    exact hn ⟨s, h1, e1, e2, t, h2, h3.symm⟩
  · intro s' hs'
    obtain ⟨t, ht, rfl⟩ := List.mem_map.1 hs'
    rcases i7 t ht with h1 | ⟨h1, h2⟩
    · rcases (itr_alone hr.1 ho.1 t).1 h1 with ⟨h2, _⟩ | ⟨h2, h3⟩
      · exact Or.inl ⟨t, Or.inl h2, rfl, rfl⟩
      · exact Or.inl ⟨t, Or.inr ⟨h2, h3⟩, rfl, rfl⟩
    · rcases h2 with h2 | ⟨a, b, hab, e1, e2⟩
      · exact Or.inr ⟨h1, h2⟩
      · obtain ⟨h3, _, _⟩ := (itr_both hr.1 ho.1 a b).1 hab
        exact Or.inl ⟨a, Or.inl h3, e1.symm, h1.trans e2.symm⟩
  · intro s' hs'
    obtain ⟨t, ht, rfl⟩ := List.mem_map.1 hs'
    rfl

end Verif.Rw
