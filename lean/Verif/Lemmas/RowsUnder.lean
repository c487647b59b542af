import Verif.Props.Rows
/-!
# Cached counts are never too large

Bitmaps only grow and a cached count grows only together with its bitmap, so in any program, safe or not, the cached count of a
segment is at most the size of its bitmap.
-/
namespace Verif.Rw
open Bt (shardWidth)

/-- Every bitmap keeps at least its size. -/
def Grow (h h' : Heap) : Prop := h.length ≤ h'.length ∧ ∀ p, p < h.length → (rd h p).length ≤ (rd h' p).length

theorem Grow.refl (h : Heap) : Grow h h := ⟨Nat.le_refl _, fun _ _ => Nat.le_refl _⟩

theorem Grow.trans {a b c : Heap} (h1 : Grow a b) (h2 : Grow b c) : Grow a c :=
  ⟨Nat.le_trans h1.1 h2.1, fun p hp => Nat.le_trans (h1.2 p hp) (h2.2 p (Nat.lt_of_lt_of_le hp h1.1))⟩

theorem Grow.append (h t : Heap) : Grow h (h ++ t) := ⟨by simp, fun p hp => by rw [rd_append hp]; exact Nat.le_refl _⟩

/-- A segment's count is at most the size of its bitmap. -/
def SegU (h : Heap) (s : Seg) : Prop := s.data < h.length ∧ s.n ≤ (rd h s.data).length

def RowU (h : Heap) (r : Row) : Prop := ∀ s ∈ r, SegU h s

theorem SegU.grow {h h' : Heap} {s : Seg} (hs : SegU h s) (g : Grow h h') : SegU h' s :=
  ⟨Nat.lt_of_lt_of_le hs.1 g.1, Nat.le_trans hs.2 (g.2 _ hs.1)⟩

theorem RowU.grow {h h' : Heap} {r : Row} (hr : RowU h r) (g : Grow h h') : RowU h' r := fun s hs => (hr s hs).grow g

theorem fresh_under (h : Heap) (k : Nat) (b : Bm) (wr : Bool) : Grow h (fresh h k b wr).1 ∧ SegU (fresh h k b wr).1 (fresh h k b wr).2 := by
  refine ⟨Grow.append _ _, by simp [fresh], ?_⟩
  simp only [fresh]
  rw [rd_new]; exact Nat.le_refl _

theorem ensureWritable_under {h : Heap} {s : Seg} (hs : SegU h s) :
    Grow h (ensureWritable h s).1 ∧ SegU (ensureWritable h s).1 (ensureWritable h s).2 := by
  unfold ensureWritable
  by_cases hw : s.writable = true
  · simp only [hw, if_true]; exact ⟨Grow.refl _, hs⟩
  · simp only [hw, if_false, Bool.false_eq_true]
    refine ⟨Grow.append _ _, by simp, ?_⟩
    simp only
    rw [rd_new]; exact hs.2

theorem segSetBit_under {h : Heap} {s : Seg} (hs : SegU h s) (c : Nat) :
    Grow h (segSetBit h s c).1 ∧ SegU (segSetBit h s c).1 (segSetBit h s c).2.1 := by
  obtain ⟨g, u⟩ := ensureWritable_under hs
  unfold segSetBit
  simp only
  split
  · exact ⟨g, u⟩
  · rename_i hm
    refine ⟨g.trans ⟨by simp, fun p hp => ?_⟩, by simpa using u.1, ?_⟩
    · rw [rd_set u.1]
      split
      · rename_i e; subst e; rw [Bm.length_add hm]; omega
      · exact Nat.le_refl _
    · simp only
      rw [rd_set u.1, if_pos rfl, Bm.length_add hm]
      have := u.2
      omega

theorem segSetAll_under {h : Heap} {s : Seg} (hs : SegU h s) (l : List Nat) :
    Grow h (segSetAll h s l).1 ∧ SegU (segSetAll h s l).1 (segSetAll h s l).2 := by
  induction l generalizing h s with
  | nil => exact ⟨Grow.refl _, hs⟩
  | cons v vs ih =>
    obtain ⟨g, u⟩ := segSetBit_under hs v
    obtain ⟨g', u'⟩ := ih u
    exact ⟨g.trans g', u'⟩

theorem segMerge_under {h : Heap} {s : Seg} (hs : SegU h s) (o : Seg) :
    Grow h (segMerge h s o).1 ∧ SegU (segMerge h s o).1 (segMerge h s o).2 := by
  obtain ⟨g, u⟩ := ensureWritable_under hs
  obtain ⟨g', u'⟩ := segSetAll_under u (rd (ensureWritable h s).1 o.data)
  exact ⟨g.trans g', u'⟩

theorem setBit_under {h : Heap} {r : Row} (hr : RowU h r) (c : Nat) : Grow h (setBit h c r).1 ∧ RowU (setBit h c r).1 (setBit h c r).2.1 := by
  have hf : Grow h (segSetBit (fresh h (c / shardWidth) [] true).1 (fresh h (c / shardWidth) [] true).2 c).1 ∧
      SegU (segSetBit (fresh h (c / shardWidth) [] true).1 (fresh h (c / shardWidth) [] true).2 c).1
        (segSetBit (fresh h (c / shardWidth) [] true).1 (fresh h (c / shardWidth) [] true).2 c).2.1 := by
    obtain ⟨g, u⟩ := fresh_under h (c / shardWidth) [] true
    obtain ⟨g', u'⟩ := segSetBit_under u c
    exact ⟨g.trans g', u'⟩
  induction r with
  | nil =>
    simp only [setBit]
    refine ⟨hf.1, fun s hs => ?_⟩
    rw [List.mem_singleton.1 hs]; exact hf.2
  | cons a r ih =>
    have hr' : RowU h r := fun s hs => hr s (List.mem_cons_of_mem _ hs)
    simp only [setBit]
    split
    · obtain ⟨g, u⟩ := ih hr'
      refine ⟨g, fun s hs => ?_⟩
      rcases List.mem_cons.1 hs with rfl | hs
      · exact (hr _ (by simp)).grow g
      · exact u s hs
    · split
      · obtain ⟨g, u⟩ := segSetBit_under (hr a (by simp)) c
        refine ⟨g, fun s hs => ?_⟩
        rcases List.mem_cons.1 hs with rfl | hs
        · exact u
        · exact (hr' s hs).grow g
      · refine ⟨hf.1, fun s hs => ?_⟩
        rcases List.mem_cons.1 hs with rfl | hs
        · exact hf.2
        · exact (hr s hs).grow hf.1

theorem newRow_under {h : Heap} {r : Row} (hr : RowU h r) (cs : List Nat) : Grow h (newRow h r cs).1 ∧ RowU (newRow h r cs).1 (newRow h r cs).2 := by
  induction cs generalizing h r with
  | nil => exact ⟨Grow.refl _, hr⟩
  | cons c cs ih =>
    obtain ⟨g, u⟩ := setBit_under hr c
    obtain ⟨g', u'⟩ := ih u
    exact ⟨g.trans g', u'⟩

theorem mergeLoop_under (ps : List (Option Seg × Option Seg)) {h : Heap} (hp : ∀ q ∈ ps, ∀ s, (q.1 = some s ∨ q.2 = some s) → SegU h s) :
    Grow h (mergeLoop h ps).1 ∧ RowU (mergeLoop h ps).1 (mergeLoop h ps).2 := by
  induction ps generalizing h with
  | nil => exact ⟨Grow.refl _, by simp [mergeLoop, RowU]⟩
  | cons q ps ih =>
    have htl : ∀ h', Grow h h' → ∀ q ∈ ps, ∀ s, (q.1 = some s ∨ q.2 = some s) → SegU h' s :=
      fun h' g q hq s hs => (hp q (List.mem_cons_of_mem _ hq) s hs).grow g
    rcases q with ⟨_ | s0, _ | s1⟩
    · exact ⟨Grow.refl _, by simp [mergeLoop, RowU]⟩
    · obtain ⟨g, u⟩ := ih (htl h (Grow.refl _))
      refine ⟨g, fun s hs => ?_⟩
      rcases List.mem_cons.1 hs with rfl | hs
      · exact (hp (none, some s) (by simp) s (Or.inr rfl)).grow g
      · exact u s hs
    · obtain ⟨g, u⟩ := ih (htl h (Grow.refl _))
      refine ⟨g, fun s hs => ?_⟩
      rcases List.mem_cons.1 hs with rfl | hs
      · exact (hp (some s, none) (by simp) s (Or.inl rfl)).grow g
      · exact u s hs
    · obtain ⟨g1, u1⟩ := segMerge_under (hp (some s0, some s1) (by simp) s0 (Or.inl rfl)) s1
      obtain ⟨g, u⟩ := ih (htl _ g1)
      refine ⟨g1.trans g, fun s hs => ?_⟩
      rcases List.mem_cons.1 hs with rfl | hs
      · exact u1.grow g
      · exact u s hs

theorem pairs_mem (f : Nat) (a b : Row) : ∀ q ∈ pairs f a b, ∀ s, (q.1 = some s ∨ q.2 = some s) → s ∈ a ∨ s ∈ b := by
  induction f generalizing a b with
  | zero => simp [pairs]
  | succ f ih =>
    intro q hq s hs
    rcases a with _ | ⟨s0, a⟩ <;> rcases b with _ | ⟨s1, b⟩ <;> simp only [pairs] at hq
    · cases hq
    · rcases List.mem_cons.1 hq with rfl | hq
      · simp at hs; simp [hs]
      · rcases ih _ _ q hq s hs with h | h <;> simp_all
    · rcases List.mem_cons.1 hq with rfl | hq
      · simp at hs; simp [hs]
      · rcases ih _ _ q hq s hs with h | h <;> simp_all
    · split at hq
      · rcases List.mem_cons.1 hq with rfl | hq
        · simp at hs; simp [hs]
        · rcases ih _ _ q hq s hs with h | h <;> simp_all
      · split at hq
        · rcases List.mem_cons.1 hq with rfl | hq
          · simp at hs; simp [hs]
          · rcases ih _ _ q hq s hs with h | h <;> simp_all
        · rcases List.mem_cons.1 hq with rfl | hq
          · simp at hs; rcases hs with rfl | rfl <;> simp
          · rcases ih _ _ q hq s hs with h | h <;> simp_all

theorem merge_under {h : Heap} {r o : Row} (hr : RowU h r) (ho : RowU h o) : Grow h (merge h r o).1 ∧ RowU (merge h r o).1 (merge h r o).2 := by
  obtain ⟨g, u⟩ := mergeLoop_under (itr r o) (h := h) fun q hq s hs => (pairs_mem _ _ _ q hq s hs).elim (hr s) (ho s)
  refine ⟨g, fun s hs => ?_⟩
  obtain ⟨t, ht, rfl⟩ := List.mem_map.1 hs
  exact ⟨(u t ht).1, Nat.le_refl _⟩

/-- Counts are at most right, in every row. -/
def Under (w : World) : Prop := ∀ i, RowU w.heap (w.row i)

theorem push_under {w : World} {p : Heap × Row} (hu : Under w) (g : Grow w.heap p.1) (hp : RowU p.1 p.2) : Under (w.push p) := by
  intro i
  rw [row_push]
  split
  · exact hp
  · exact (hu i).grow g

theorem put_under {w : World} {i : Nat} {p : Heap × Row} (hu : Under w) (g : Grow w.heap p.1) (hp : RowU p.1 p.2) : Under (w.put i p) := by
  intro j
  rw [row_put]
  split
  · exact hp
  · exact (hu j).grow g

theorem under_step {w : World} (hi : WInv w) (hu : Under w) (op : Op) : Under (step w op) := by
  obtain ⟨own, h⟩ := hi
  by_cases hp : op.target = none ∧ (∀ cols, op ≠ .new cols) ∧ (∀ i j, op ≠ .absorb i j)
  · obtain ⟨p, items, e, hpu, hk, _, hn⟩ := pushes h op hp.1 hp.2.1 hp.2.2
    obtain ⟨own', t, e1, _, hok, _, hfrom⟩ := push_spec h hpu
    rw [e]
    refine push_under hu (by rw [e1]; exact Grow.append _ _) fun s hs => ?_
    refine ⟨?_, ?_⟩
    · have := (row_ok hok w.rows.length).2 s (by rw [row_push, if_pos rfl]; exact hs)
      exact this.1
    · rcases hfrom s hs with h1 | ⟨b, h1, _, h2⟩
      · obtain ⟨k, hsk⟩ := hk s h1
        rw [e1, rd_append ((row_ok h k).2 s hsk).1]
        exact (hu k s hsk).2
      · rw [h2]
        rcases hn _ _ _ _ h1 with e | ⟨k, u, huk, e, eb⟩
        · omega
        · rw [e, eb]; exact (hu k u huk).2
  · cases op with
    | new cols =>
      obtain ⟨g, u⟩ := newRow_under (h := w.heap) (r := []) (by simp [RowU]) cols
      exact push_under hu g u
    | setBit i c =>
      obtain ⟨g, u⟩ := setBit_under (hu i) c
      exact put_under hu g u
    | merge i j =>
      obtain ⟨g, u⟩ := merge_under (hu i) (hu j)
      exact put_under hu g u
    | absorb i j =>
      obtain ⟨g, u⟩ := merge_under (hu i) (hu j)
      have hput : Under (w.put i (merge w.heap (w.row i) (w.row j))) := put_under hu g u
      intro k s hs
      refine hput k s ?_
      simp only [step, World.row, World.put, List.getD_eq_getElem?_getD] at hs ⊢
      by_cases hk : j = k
      · subst hk
        rw [List.getElem?_set] at hs
        split at hs
        · split at hs <;> simp at hs
        · simp at *
      · rw [List.getElem?_set_ne hk] at hs
        exact hs
    | _ => exact absurd ⟨rfl, by simp, by simp⟩ hp

theorem under_run (ops : List Op) : Under (run ops) := by
  unfold run
  have : ∀ w, WInv w → Under w → Under (ops.foldl step w) := by
    induction ops with
    | nil => exact fun w _ h => h
    | cons o os ih => exact fun w hi h => ih _ (inv_step hi o) (under_step hi h o)
  refine this _ ⟨fun _ => 0, fun p => by simp [rd, Bm.nil_ok], by simp⟩ ?_
  intro i s hs; simp [World.row] at hs

/-- If the total is right, every segment's count is right. -/
theorem counts_right {h : Heap} {r : Row} (hu : RowU h r) (hc : count r = (columns h r).length) : ∀ s ∈ r, s.n = (rd h s.data).length := by
  have hle : ∀ r : Row, RowU h r → count r ≤ (columns h r).length := by
    intro r
    induction r with
    | nil => intro _; exact Nat.le_refl _
    | cons s r ih =>
      intro hu
      have := ih fun t ht => hu t (List.mem_cons_of_mem _ ht)
      have h2 := (hu s (by simp)).2
      simp only [count, columns, List.map_cons, List.sum_cons, List.flatMap_cons, List.length_append] at *
      omega
  induction r with
  | nil => simp
  | cons s r ih =>
    have hu' : RowU h r := fun t ht => hu t (List.mem_cons_of_mem _ ht)
    have h1 := hle r hu'
    have h2 := (hu s (by simp)).2
    simp only [count, columns, List.map_cons, List.sum_cons, List.flatMap_cons, List.length_append] at *
    intro t ht
    rcases List.mem_cons.1 ht with rfl | ht
    · omega
    · exact ih hu' (by omega) t ht

theorem count_le {h : Heap} {r : Row} (hu : RowU h r) : count r ≤ (columns h r).length := by
  induction r with
  | nil => exact Nat.le_refl _
  | cons s r ih =>
    have := ih fun t ht => hu t (List.mem_cons_of_mem _ ht)
    have h2 := (hu s (by simp)).2
    simp only [count, columns, List.map_cons, List.sum_cons, List.flatMap_cons, List.length_append] at *
    omega

end Verif.Rw
