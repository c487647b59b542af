import Verif.Props.Rows
/-!
# What unsafe calls lead to: lemmas
-/
namespace Verif.Rw
open Bt (shardWidth)

theorem segSetBit_mono {h : Heap} {s : Seg} {c p x : Nat} (hs : s.data < h.length) (hp : p < h.length) (hx : x ∈ rd h p) :
    x ∈ rd (segSetBit h s c).1 p := by
  unfold segSetBit ensureWritable
  by_cases hw : s.writable = true
  · simp only [hw, if_true]
    split
    · exact hx
    · simp only
      rw [rd_set hs]
      split
      · rename_i e; rw [Bm.mem_add]; exact Or.inr (e ▸ hx)
      · exact hx
  · simp only [hw, if_false, Bool.false_eq_true]
    split
    · simp only; rw [rd_append hp]; exact hx
    · simp only
      rw [rd_set (by simp)]
      split
      · omega
      · rw [rd_append hp]; exact hx

theorem setBit_mono {own h} (r : Row) (hr : ROk own h r) {c p x : Nat} (hp : p < h.length) (hx : x ∈ rd h p) :
    x ∈ rd (setBit h c r).1 p := by
  have hf : x ∈ rd (segSetBit (fresh h (c / shardWidth) [] true).1 (fresh h (c / shardWidth) [] true).2 c).1 p :=
    segSetBit_mono (by simp [fresh]) (by simp [fresh]; omega) (by simp only [fresh]; rw [rd_append hp]; exact hx)
  induction r with
  | nil => simpa only [setBit] using hf
  | cons s r ih =>
    simp only [setBit]
    split
    · exact ih ⟨(List.pairwise_cons.1 hr.1).2, fun s hs => hr.2 s (List.mem_cons_of_mem _ hs)⟩
    · split
      · exact segSetBit_mono (hr.2 s (by simp)).1 hp hx
      · exact hf

/-- Writing through a writable segment reaches its bitmap. -/
theorem setBit_reaches {own h} (r : Row) (hr : ROk own h r) {s : Seg} (hs : s ∈ r) (hw : s.writable = true) {c : Nat}
    (hc : c / shardWidth = s.shard) : c ∈ rd (setBit h c r).1 s.data := by
  induction r with
  | nil => cases hs
  | cons a r ih =>
    have hp := List.pairwise_cons.1 hr.1
    simp only [setBit]
    by_cases h1 : a.shard < c / shardWidth
    · rw [if_pos h1]
      rcases List.mem_cons.1 hs with rfl | hs
      · omega
      · exact ih ⟨hp.2, fun s hs => hr.2 s (List.mem_cons_of_mem _ hs)⟩ hs
    · rw [if_neg h1]
      have ha : a = s := by
        rcases List.mem_cons.1 hs with e | hs
        · exact e.symm
        · have := hp.1 s hs; omega
      subst ha
      rw [if_pos hc.symm]
      simp only [segSetBit, ensureWritable, hw, if_true]
      split
      · rename_i h; exact h
      · simp only
        rw [rd_set (hr.2 a (by simp)).1, if_pos rfl, Bm.mem_add]; exact Or.inl rfl

/-- Row `i` can write, in shard `k`, into a bitmap of row `j` that does not have all columns. -/
def Exposed (w : World) (i j c : Nat) : Prop :=
  i ≠ j ∧ i < w.rows.length ∧ ∃ s ∈ w.row i, s.writable = true ∧ s.shard = c / shardWidth ∧ c ∉ rd w.heap s.data ∧
    ∃ t ∈ w.row j, t.data = s.data

theorem exposed_breaks {w : World} (hi : WInv w) {i j c : Nat} (h : Exposed w i j c) :
    (step w (.setBit i c)).cols j ≠ w.cols j ∧
    (count (w.row j) = (w.cols j).length → count ((step w (.setBit i c)).row j) ≠ ((step w (.setBit i c)).cols j).length) := by
  obtain ⟨own, hw⟩ := hi
  obtain ⟨hne, hlen, s, hs, hwr, hk, hc, t, ht, e⟩ := h
  have hri := row_ok hw i
  have hrj := row_ok hw j
  have hrow : (step w (.setBit i c)).row j = w.row j := by
    simp only [step]; rw [row_put, if_neg (fun h => hne h.1.symm)]
  have hheap : (step w (.setBit i c)).heap = (setBit w.heap c (w.row i)).1 := rfl
  have hin : c ∈ (step w (.setBit i c)).cols j := by
    unfold World.cols
    rw [hrow]
    refine mem_columns.2 ⟨t, ht, ?_⟩
    rw [hheap, e]
    exact setBit_reaches _ hri hs hwr hk.symm
  have hout : c ∉ w.cols j := by
    intro hcj
    obtain ⟨u, hu, hx⟩ := mem_columns.1 hcj
    have h1 := seg_bits hw.1 hrj hu hx
    have h2 : t.shard = s.shard := by rw [← (hrj.2 t ht).2, e]; exact (hri.2 s hs).2
    have := shard_unique hrj hu ht (by omega)
    subst this
    rw [e] at hx
    exact hc hx
  refine ⟨fun he => hout (he ▸ hin), fun hcnt => ?_⟩
  rw [hrow, hcnt]
  have hsub : ∀ x ∈ c :: w.cols j, x ∈ (step w (.setBit i c)).cols j := by
    intro x hx
    rcases List.mem_cons.1 hx with rfl | hx
    · exact hin
    · obtain ⟨u, hu, hx⟩ := mem_columns.1 hx
      unfold World.cols
      rw [hrow]
      exact mem_columns.2 ⟨u, hu, setBit_mono _ hri (hrj.2 u hu).1 hx⟩
  have hnd : (c :: w.cols j).Nodup := List.nodup_cons.2 ⟨hout, (columns_sorted hw.1 hrj).imp fun h => Nat.ne_of_lt h⟩
  have := List.Nodup.length_le_of_subset hnd hsub
  simp only [List.length_cons] at this
  omega

/-! ## Which calls expose a bitmap -/

theorem build_keep {items : List Item} {s : Seg} (hs : Item.keep s ∈ items) (h : Heap) : s ∈ (build h items).2 := by
  induction items generalizing h with
  | nil => cases hs
  | cons i items ih =>
    cases i with
    | keep a =>
      simp only [build]
      rcases List.mem_cons.1 hs with e | hs
      · cases e; simp
      · exact List.mem_cons_of_mem _ (ih hs h)
    | mk k b wr n =>
      simp only [build]
      rcases List.mem_cons.1 hs with e | hs
      · cases e
      · exact List.mem_cons_of_mem _ (ih hs _)

theorem mergeLoop_keep {ps : List (Option Seg × Option Seg)} {s : Seg} (hs : Alone s ps) (hn : ∀ q ∈ ps, q ≠ (none, none)) (h : Heap) :
    s ∈ (mergeLoop h ps).2 := by
  induction ps generalizing h with
  | nil => rcases hs with h | h <;> cases h
  | cons q ps ih =>
    have ih : Alone s ps → ∀ h, s ∈ (mergeLoop h ps).2 := fun ha => ih ha fun q hq => hn q (List.mem_cons_of_mem _ hq)
    have hq := hn q (by simp)
    have hcases : q = (some s, none) ∨ q = (none, some s) ∨ Alone s ps := by
      rcases hs with h | h <;> rcases List.mem_cons.1 h with e | h
      · exact Or.inl e.symm
      · exact Or.inr (Or.inr (Or.inl h))
      · exact Or.inr (Or.inl e.symm)
      · exact Or.inr (Or.inr (Or.inr h))
    obtain ⟨a, b⟩ := q
    cases a with
    | none =>
      cases b with
      | none => exact absurd rfl hq
      | some b =>
        simp only [mergeLoop]
        rcases hcases with e | e | e
        · cases e
        · cases e; simp
        · exact List.mem_cons_of_mem _ (ih e _)
    | some a =>
      cases b with
      | none =>
        simp only [mergeLoop]
        rcases hcases with e | e | e
        · cases e; simp
        · cases e
        · exact List.mem_cons_of_mem _ (ih e _)
      | some b =>
        simp only [mergeLoop]
        rcases hcases with e | e | e
        · cases e
        · cases e
        · exact List.mem_cons_of_mem _ (ih e _)

theorem unionItems_keep {own h} (f : Nat) (l : List Row) (hl : LOk own h l) (hf : (l.map List.length).sum ≤ f) {r : Row} {s : Seg}
    (hr : r ∈ l) (hs : s ∈ r) (hone : holders s.shard l = 1) : Item.keep s ∈ unionItems f h l := by
  induction f generalizing l r with
  | zero =>
    cases r with
    | nil => cases hs
    | cons a r =>
      have : (a :: r).length ≤ (l.map List.length).sum := by
        clear hf hone hl
        induction l with
        | nil => cases hr
        | cons b l ih =>
          simp only [List.map_cons, List.sum_cons]
          rcases List.mem_cons.1 hr with rfl | hr
          · omega
          · have := ih hr; omega
      simp at this
      omega
  | succ f ih =>
    cases l with
    | nil => cases hr
    | cons a l =>
      simp only [unionItems]
      obtain ⟨hlow, x0, t0, hx0, ex0⟩ := lowest_spec hl (by simp)
      generalize a :: l = L at *
      generalize hk : lowest L = k at *
      have hne : 0 < (toProcess k L).length := List.length_pos_of_mem (mem_toProcess.2 ⟨ex0, t0, hx0⟩)
      have htot := toProcess_total k L
      cases r with
      | nil => cases hs
      | cons y u =>
        have hyk := hlow y u hr
        by_cases hsk : s.shard = k
        · have hys : s = y := by
            rcases List.mem_cons.1 hs with e | hs
            · exact e
            · have := (List.pairwise_cons.1 (hl _ hr).2.1).1 s hs; omega
          subst hys
          have hin : s ∈ toProcess k L := mem_toProcess.2 ⟨hsk, u, hr⟩
          rw [hsk, holders_lowest hl hlow] at hone
          obtain ⟨z, hz⟩ := List.length_eq_one_iff.1 hone
          rw [hz] at hin ⊢
          simp only [List.mem_singleton] at hin
          subst hin
          exact List.mem_cons_self
        · refine List.mem_cons_of_mem _ ?_
          have hone' : holders s.shard (nextSegs k L) = 1 := by rw [holders_next hsk]; exact hone
          by_cases hy : y.shard = k
          · rcases List.mem_cons.1 hs with rfl | hs
            · exact absurd hy hsk
            · have hu : u ≠ [] := by rintro rfl; cases hs
              exact ih (nextSegs k L) (nextSegs_ok hl k) (by omega) (mem_nextSegs.2 ⟨hu, Or.inl ⟨y, hy, hr⟩⟩) hs hone'
          · exact ih (nextSegs k L) (nextSegs_ok hl k) (by omega) (mem_nextSegs.2 ⟨by simp, Or.inr ⟨y, u, rfl, hy, hr⟩⟩) hs hone'

theorem union_keep {own h r} {others : List Row} (hr : ROk own h r) (ho : ∀ o ∈ others, ROk own h o) {a : Row} {s : Seg}
    (ha : a ∈ r :: others) (hs : s ∈ a) (hone : holders s.shard (r :: others) = 1) : s ∈ (union h r others).2 := by
  have hl : LOk own h ((r :: others).filter (fun segs => decide (segs ≠ []))) := by
    intro a ha
    rw [List.mem_filter] at ha
    refine ⟨by simpa using ha.2, ?_⟩
    rcases List.mem_cons.1 ha.1 with rfl | ha
    · exact hr
    · exact ho a ha
  have e := unionLoop_eq ((((r :: others).filter (fun segs => decide (segs ≠ []))).map List.length).sum) h _ hl []
  simp only [List.append_nil] at e
  unfold union
  rw [e]
  refine build_keep (unionItems_keep _ _ hl (Nat.le_refl _) (r := a) ?_ hs ?_) h
  · rw [List.mem_filter]; exact ⟨ha, decide_eq_true (by rintro rfl; cases hs)⟩
  · rw [← hone]
    simp only [holders, List.filter_filter]
    congr 1
    refine List.filter_congr fun b _ => ?_
    cases b <;> simp

/-- A call whose result row is a variable the program has. -/
def Op.Valid (w : World) : Op → Prop
  | .merge i _ => i < w.rows.length
  | _ => True

theorem row_mem_lt {w : World} {k : Nat} {s : Seg} (hs : s ∈ w.row k) : k < w.rows.length := by
  refine Nat.lt_of_not_le fun h => ?_
  have : w.row k = [] := by simp [World.row, List.getD_eq_getElem?_getD, List.getElem?_eq_none h]
  rw [this] at hs; cases hs

/-- A segment handed to a new row without a copy exposes the operand. -/
theorem push_exposed {own} {w : World} {p : Heap × Row} (hw : WOk own w) (hp : ∃ t, p.1 = w.heap ++ t) {k : Nat} {s : Seg} (hk : s ∈ w.row k)
    (hs : s ∈ p.2) (hwr : s.writable = true) {c : Nat} (hc : c / shardWidth = s.shard) (hcn : c ∉ w.cols k) :
    Exposed (w.push p) w.rows.length k c := by
  obtain ⟨t, ht⟩ := hp
  have hlt := row_mem_lt hk
  refine ⟨by omega, by simp [World.push], s, ?_, hwr, hc.symm, ?_, s, ?_, rfl⟩
  · rw [row_push, if_pos rfl]; exact hs
  · show c ∉ rd p.1 s.data
    rw [ht, rd_append ((row_ok hw k).2 s hk).1]
    exact fun h => hcn (mem_columns.2 ⟨s, hk, h⟩)
  · rw [row_push, if_neg (by omega)]; exact hk

theorem unsafe_exposes {w : World} (hi : WInv w) {op : Op} (hv : op.Valid w) (hn : ¬ Safe w op)
    (hfull : ∀ j k, ∃ c, c / shardWidth = k ∧ c ∉ w.cols j) : ∃ i j c, Exposed (step w op) i j c ∧ j < w.rows.length ∧ op.target ≠ some j ∧
      (∀ a b, op ≠ .absorb a b) ∧ (step w op).row j = w.row j := by
  obtain ⟨own, hw⟩ := hi
  have hpush : ∀ (p : Heap × Row), step w op = w.push p → op.target = none → (∀ a b, op ≠ .absorb a b) → (∃ t, p.1 = w.heap ++ t) →
      (∃ k s, s ∈ w.row k ∧ s ∈ p.2 ∧ s.writable = true) →
      ∃ i j c, Exposed (step w op) i j c ∧ j < w.rows.length ∧ op.target ≠ some j ∧ (∀ a b, op ≠ .absorb a b) ∧ (step w op).row j = w.row j := by
    rintro p e ho hab ⟨t, ht⟩ ⟨k, s, hk, hs, hwr⟩
    obtain ⟨c, hc, hcn⟩ := hfull k s.shard
    have hrow : (w.push p).row k = w.row k := by rw [row_push, if_neg (Nat.ne_of_lt (row_mem_lt hk))]
    refine ⟨w.rows.length, k, c, ?_, row_mem_lt hk, by rw [ho]; simp, hab, ?_⟩
    · rw [e]; exact push_exposed hw ⟨t, ht⟩ hk hs hwr hc hcn
    · rw [e, hrow]
  have hitr : ∀ {i j k : Nat} {s : Seg}, s ∈ w.row k → (k = i ∧ (∀ t ∈ w.row j, t.shard ≠ s.shard) ∨ k = j ∧ ∀ t ∈ w.row i, t.shard ≠ s.shard) →
      Alone s (itr (w.row i) (w.row j)) := by
    intro i j k s hs h
    refine (itr_alone (row_ok hw i).1 (row_ok hw j).1 s).2 ?_
    rcases h with ⟨rfl, h⟩ | ⟨rfl, h⟩
    · exact Or.inl ⟨hs, h⟩
    · exact Or.inr ⟨hs, h⟩
  cases op with
  | merge i j =>
    simp only [Safe, not_forall, not_exists, not_and] at hn
    obtain ⟨s, hs, hwr, hno⟩ := hn
    have hij : i ≠ j := by rintro rfl; exact hno s hs rfl
    have hil : i < w.rows.length := hv
    obtain ⟨own', sp⟩ := merge_spec hw.1 (row_ok hw i) (row_ok hw j)
    have hpo := itr_ok (row_ok hw i) (row_ok hw j)
    have hk : s ∈ (mergeLoop w.heap (itr (w.row i) (w.row j))).2 := mergeLoop_keep (hitr hs (Or.inr ⟨rfl, hno⟩)) hpo.ne w.heap
    obtain ⟨c, hc, hcn⟩ := hfull j s.shard
    have hrow : (step w (.merge i j)).row j = w.row j := by
      simp only [step]; rw [row_put, if_neg (fun h => hij h.1.symm)]
    have hsd : rd (merge w.heap (w.row i) (w.row j)).1 s.data = rd w.heap s.data := by
      refine sp.frame _ ((row_ok hw j).2 s hs).1 ?_
      rintro ⟨u, hu, e, -⟩
      refine hno u hu ?_
      rw [← ((row_ok hw i).2 u hu).2, e]; exact ((row_ok hw j).2 s hs).2
    refine ⟨i, j, c, ⟨hij, by simpa [step, World.put] using hil, { s with n := (rd (mergeLoop w.heap (itr (w.row i) (w.row j))).1 s.data).length }, ?_, hwr, hc.symm, ?_, s, ?_, rfl⟩, row_mem_lt hs, by simp [Op.target, hij], by simp, hrow⟩
    · simp only [step]
      rw [row_put, if_pos ⟨rfl, hil⟩]
      exact List.mem_map.2 ⟨s, hk, rfl⟩
    · show c ∉ rd (merge w.heap (w.row i) (w.row j)).1 s.data
      rw [hsd]
      exact fun h => hcn (mem_columns.2 ⟨s, hs, h⟩)
    · rw [hrow]; exact hs
  | union i js =>
    simp only [Safe, not_forall] at hn
    obtain ⟨k, hk, s, hs, hwr, hh⟩ := hn
    obtain ⟨items, h1, h2, h3, -⟩ := union_build hw.1 (row_ok hw i) (map_row_ok hw js)
    obtain ⟨_, t, e1, -⟩ := build_spec items hw.1 h2 h3
    refine hpush _ rfl rfl (by simp) ⟨t, by rw [h1]; exact e1⟩ ⟨k, s, hs, ?_, hwr⟩
    refine union_keep (row_ok hw i) (map_row_ok hw js) (a := w.row k) ?_ hs ?_
    · rw [← List.map_cons]; exact List.mem_map_of_mem hk
    · have : 0 < holders s.shard ((i :: js).map w.row) := by
        refine List.length_pos_of_mem (a := w.row k) (List.mem_filter.2 ⟨List.mem_map_of_mem hk, ?_⟩)
        rw [List.any_eq_true]; exact ⟨s, hs, by simp⟩
      rw [← List.map_cons]
      omega
  | xor i j =>
    obtain ⟨h1, h2, h3, -⟩ := xor_build hw.1 (row_ok hw i) (row_ok hw j)
    obtain ⟨_, t, e1, -⟩ := build_spec _ hw.1 h2 h3
    have hal : ∃ k s, s ∈ w.row k ∧ s.writable = true ∧ Alone s (itr (w.row i) (w.row j)) := by
      have hn : (∃ s, ∃ (_ : s ∈ w.row i) (_ : s.writable = true), ∀ t ∈ w.row j, t.shard ≠ s.shard) ∨
          (∃ s, ∃ (_ : s ∈ w.row j) (_ : s.writable = true), ∀ t ∈ w.row i, t.shard ≠ s.shard) := by
        refine Classical.byContradiction fun h => hn ⟨fun s hs hwr => ?_, fun s hs hwr => ?_⟩
        · exact Classical.byContradiction fun h' => h (Or.inl ⟨s, hs, hwr, fun t ht e => h' ⟨t, ht, e⟩⟩)
        · exact Classical.byContradiction fun h' => h (Or.inr ⟨s, hs, hwr, fun t ht e => h' ⟨t, ht, e⟩⟩)
      rcases hn with ⟨s, hs, hwr, hno⟩ | ⟨s, hs, hwr, hno⟩
      · exact ⟨i, s, hs, hwr, hitr hs (Or.inl ⟨rfl, hno⟩)⟩
      · exact ⟨j, s, hs, hwr, hitr hs (Or.inr ⟨rfl, hno⟩)⟩
    obtain ⟨k, s, hs, hwr, ha⟩ := hal
    refine hpush _ rfl rfl (by simp) ⟨t, by rw [h1]; exact e1⟩ ⟨k, s, hs, ?_, hwr⟩
    rw [h1]
    refine build_keep ?_ _
    rcases ha with ha | ha
    · exact List.mem_map.2 ⟨_, ha, rfl⟩
    · exact List.mem_map.2 ⟨_, ha, rfl⟩
  | difference i js =>
    obtain ⟨h1, h2, h3, -⟩ := difference_build hw.1 (row_ok hw i) (map_row_ok hw js)
    obtain ⟨_, t, e1, -⟩ := build_spec _ hw.1 h2 h3
    simp only [Safe, not_forall, not_exists, not_and] at hn
    obtain ⟨s, hs, hwr, hno⟩ := hn
    refine hpush _ rfl rfl (by simp) ⟨t, by rw [h1]; exact e1⟩ ⟨i, s, hs, ?_, hwr⟩
    rw [h1]
    refine build_keep (List.mem_map.2 ⟨s, hs, ?_⟩) _
    unfold diffItem
    have : sameShard s.shard (js.map w.row) = [] := by
      refine List.eq_nil_iff_forall_not_mem.2 fun u hu => ?_
      obtain ⟨e, o, ho, hu⟩ := mem_sameShard.1 hu
      obtain ⟨j, hj, rfl⟩ := List.mem_map.1 ho
      exact hno j hj u hu e
    rw [if_pos this]
  | _ => exact absurd trivial hn

end Verif.Rw
