import Verif.Lemmas.Rows5
/-!
# C44-C46: rows behave as sets, their observers agree, operands are not modified

Theorems range over `run ops`, every program over the package, or over `SafeRun`, every program whose calls are `Safe`
(`Verif.Spec.Rows`).
-/
namespace Verif.Rw
open Bt (shardWidth)

theorem cols_push {w : World} {p : Heap × Row} : (w.push p).cols w.rows.length = columns p.1 p.2 := by
  unfold World.cols; rw [row_push, if_pos rfl]; rfl

theorem cols_put {w : World} {i : Nat} {p : Heap × Row} (h : i < w.rows.length) : (w.put i p).cols i = columns p.1 p.2 := by
  unfold World.cols; rw [row_put, if_pos ⟨rfl, h⟩]; rfl

/-! ## C44 -/

/-- **C44**: `NewRow(c...)` has exactly the given columns. -/
theorem C44_new (ops : List Op) (cs : List Nat) (x : Nat) :
    x ∈ (step (run ops) (.new cs)).cols (run ops).rows.length ↔ x ∈ cs := by
  obtain ⟨own, h⟩ := inv_run ops
  obtain ⟨_, _, _, _, hm, _⟩ := newRow_spec (r := []) cs h.1 ⟨List.Pairwise.nil, by simp⟩
  simp only [step]
  rw [cols_push, hm]; simp [columns]

/-- **C44**: `NewRowFromBitmap(b)` has exactly the bits of `b`. -/
theorem C44_bitmap (ops : List Op) (bits : List Nat) (x : Nat) :
    x ∈ (step (run ops) (.bitmap bits)).cols (run ops).rows.length ↔ x ∈ bits := by
  obtain ⟨own, h⟩ := inv_run ops
  obtain ⟨h1, h2, h3⟩ := fromBitmap_build (own := own) (h := (run ops).heap) bits
  obtain ⟨_, _, _, _, _, hc, _⟩ := push_spec h ⟨fromBitmap_eq (run ops).heap _ _, h1, h2⟩
  simp only [step]
  rw [cols_push, hc]; exact h3 x

/-- **C44**: the row read from one shard has the offsets read, moved to that shard. -/
theorem C44_shard (ops : List Op) (k : Nat) (offs : List Nat) (x : Nat) :
    x ∈ (step (run ops) (.shard k offs)).cols (run ops).rows.length ↔ ∃ o ∈ offs, x = k * shardWidth + o % shardWidth := by
  obtain ⟨own, h⟩ := inv_run ops
  obtain ⟨h1, h2, h3⟩ := ofShard_build (run ops).heap k offs
  obtain ⟨_, _, _, _, _, hc, _⟩ := push_spec h ⟨h1, by simp, fun i hi => by
    simp only [List.mem_singleton] at hi; subst hi; exact h2 own⟩
  simp only [step]
  rw [cols_push, hc]; simp only [List.flatMap_cons, List.flatMap_nil, List.append_nil, Item.bits]; exact h3 x

/-- **C44**: `SetBit(c)` adds exactly `c` and reports whether it was new. -/
theorem C44_setBit (ops : List Op) (i c : Nat) (hi : i < (run ops).rows.length) :
    (∀ x, x ∈ (step (run ops) (.setBit i c)).cols i ↔ x = c ∨ x ∈ (run ops).cols i) ∧
    (setBit (run ops).heap c ((run ops).row i)).2.2 = decide (c ∉ (run ops).cols i) := by
  obtain ⟨own, h⟩ := inv_run ops
  obtain ⟨⟨_, sp⟩, hb⟩ := setBit_spec c h.1 (row_ok h i)
  refine ⟨fun x => ?_, hb⟩
  simp only [step]
  rw [cols_put hi]; exact sp.mem x

/-- **C44**: `r.Merge(o)` makes `r` the union. -/
theorem C44_merge (ops : List Op) (i j : Nat) (hi : i < (run ops).rows.length) (x : Nat) :
    x ∈ (step (run ops) (.merge i j)).cols i ↔ x ∈ (run ops).cols i ∨ x ∈ (run ops).cols j := by
  obtain ⟨own, h⟩ := inv_run ops
  obtain ⟨_, sp⟩ := merge_spec h.1 (row_ok h i) (row_ok h j)
  simp only [step]
  rw [cols_put hi]; exact sp.mem x

/-- **C44**: `r.Union(o...)`. -/
theorem C44_union (ops : List Op) (i : Nat) (js : List Nat) (x : Nat) :
    x ∈ (step (run ops) (.union i js)).cols (run ops).rows.length ↔
      x ∈ (run ops).cols i ∨ ∃ j ∈ js, x ∈ (run ops).cols j := by
  obtain ⟨own, h⟩ := inv_run ops
  obtain ⟨items, h1, h2, h3, h4, _⟩ := union_build h.1 (row_ok h i) (map_row_ok h js)
  obtain ⟨_, _, _, _, _, hc, _⟩ := push_spec h ⟨h1, h2, h3⟩
  simp only [step]
  rw [cols_push, hc, h4]; simp [World.cols]

/-- **C44**: `r.Intersect(o)`. -/
theorem C44_intersect (ops : List Op) (i j x : Nat) :
    x ∈ (step (run ops) (.intersect i j)).cols (run ops).rows.length ↔ x ∈ (run ops).cols i ∧ x ∈ (run ops).cols j := by
  obtain ⟨own, h⟩ := inv_run ops
  obtain ⟨h1, h2, h3, h4, _⟩ := intersect_build h.1 (row_ok h i) (row_ok h j)
  obtain ⟨_, _, _, _, _, hc, _⟩ := push_spec h ⟨h1, h2, h3⟩
  simp only [step]
  rw [cols_push, hc, h4]; rfl

/-- **C44**: `r.Xor(o)`. -/
theorem C44_xor (ops : List Op) (i j x : Nat) :
    x ∈ (step (run ops) (.xor i j)).cols (run ops).rows.length ↔
      (x ∈ (run ops).cols i ∧ x ∉ (run ops).cols j) ∨ (x ∈ (run ops).cols j ∧ x ∉ (run ops).cols i) := by
  obtain ⟨own, h⟩ := inv_run ops
  obtain ⟨h1, h2, h3, h4, _⟩ := xor_build h.1 (row_ok h i) (row_ok h j)
  obtain ⟨_, _, _, _, _, hc, _⟩ := push_spec h ⟨h1, h2, h3⟩
  simp only [step]
  rw [cols_push, hc, h4]; rfl

/-- **C44**: `r.Difference(o...)`. -/
theorem C44_difference (ops : List Op) (i : Nat) (js : List Nat) (x : Nat) :
    x ∈ (step (run ops) (.difference i js)).cols (run ops).rows.length ↔
      x ∈ (run ops).cols i ∧ ∀ j ∈ js, x ∉ (run ops).cols j := by
  obtain ⟨own, h⟩ := inv_run ops
  obtain ⟨h1, h2, h3, h4, _⟩ := difference_build h.1 (row_ok h i) (map_row_ok h js)
  obtain ⟨_, _, _, _, _, hc, _⟩ := push_spec h ⟨h1, h2, h3⟩
  simp only [step]
  rw [cols_push, hc, h4]; simp [World.cols]

/-- A program with rows over two shards. -/
def exRows : List Op := [.new [5, 1048577], .new [5, 7], .union 0 [1], .xor 0 1, .difference 0 [1], .intersect 0 1]

/-- Witness: the program above has the expected rows. -/
example : (run exRows).cols 2 = [5, 7, 1048577] ∧ (run exRows).cols 3 = [7, 1048577] ∧ (run exRows).cols 4 = [1048577] ∧
    (run exRows).cols 5 = [5] := by decide +kernel

/-! ## C45 -/

/-- **C45**, any history: `Columns` lists each member once, ascending; `Any` and `Includes` agree with it; `Clone` is equal. -/
theorem C45_observers (ops : List Op) (i : Nat) :
    ((run ops).cols i).Pairwise (· < ·) ∧
    (any (run ops).heap ((run ops).row i) = true ↔ (run ops).cols i ≠ []) ∧
    (∀ c, includes (run ops).heap ((run ops).row i) c = true ↔ c ∈ (run ops).cols i) ∧
    (step (run ops) (.clone i)).cols (run ops).rows.length = (run ops).cols i := by
  obtain ⟨own, h⟩ := inv_run ops
  have hr := row_ok h i
  refine ⟨columns_sorted h.1 hr, ?_, fun c => ?_, ?_⟩
  · rw [any, List.any_eq_true]
    constructor
    · rintro ⟨s, hs, hne⟩ he
      simp at hne
      obtain ⟨x, hx⟩ := List.exists_mem_of_ne_nil _ hne
      have : x ∈ (run ops).cols i := mem_columns.2 ⟨s, hs, hx⟩
      rw [he] at this; cases this
    · intro hne
      obtain ⟨x, hx⟩ := List.exists_mem_of_ne_nil _ hne
      obtain ⟨s, hs, hx⟩ := mem_columns.1 hx
      refine ⟨s, hs, ?_⟩
      simp; rintro e; rw [e] at hx; cases hx
  · unfold includes
    cases hf : ((run ops).row i).find? (fun s => decide (s.shard = c / shardWidth)) with
    | none =>
      rw [List.find?_eq_none] at hf
      simp only [Bool.false_eq_true, false_iff]
      intro hc
      obtain ⟨s, hs, hx⟩ := mem_columns.1 hc
      have := hf s hs
      simp at this
      exact this (seg_bits h.1 hr hs hx).symm
    | some s =>
      have hs := List.mem_of_find?_eq_some hf
      have he := List.find?_some hf
      simp only [decide_eq_true_eq] at he ⊢
      constructor
      · exact fun hx => mem_columns.2 ⟨s, hs, hx⟩
      · intro hc
        obtain ⟨t, ht, hx⟩ := mem_columns.1 hc
        have := shard_unique hr ht hs ((seg_bits h.1 hr ht hx).symm.trans he.symm)
        exact this ▸ hx
  · obtain ⟨h1, h2, h3, h4, _⟩ := clone_build h.1 hr
    obtain ⟨_, _, _, _, _, hc, _⟩ := push_spec h ⟨h1, h2, h3⟩
    simp only [step]
    rw [cols_push, hc, h4]; rfl

/-- **C45**, partial: the cached count is right, and `IsEmpty` agrees, in every program whose calls are safe. Missing: other
programs, where it is false (`C45_count_refuted`). -/
theorem C45_count_partial (w : World) (hw : SafeRun w) (i : Nat) :
    count (w.row i) = (w.cols i).length ∧ (isEmpty (w.row i) = true ↔ w.cols i = []) := by
  obtain ⟨_, _, hc⟩ := safeRun_inv hw
  have := hc.row i
  unfold World.cols
  revert this
  generalize w.row i = r
  intro hr
  constructor
  · induction r with
    | nil => rfl
    | cons s r ih =>
      have := ih (fun t ht => hr t (List.mem_cons_of_mem _ ht))
      simp only [count, columns, List.map_cons, List.sum_cons, List.flatMap_cons, List.length_append] at *
      rw [this, hr s (by simp)]
  · induction r with
    | nil => simp [isEmpty, columns]
    | cons s r ih =>
      have := ih (fun t ht => hr t (List.mem_cons_of_mem _ ht))
      simp only [isEmpty, columns, List.all_cons, List.flatMap_cons, Bool.and_eq_true, List.append_eq_nil_iff] at *
      rw [this, hr s (by simp)]; simp

/-- **C45 fails** in general: after `u := a.Union(b); u.SetBit(9)` the row `b` lists two columns but counts one; and a row
read from an empty shard that is then absorbed this way has a column but is reported empty. -/
theorem C45_count_refuted :
    (∃ ops i, ((run ops).cols i).length = 2 ∧ count ((run ops).row i) = 1) ∧
    (∃ ops i, (run ops).cols i ≠ [] ∧ isEmpty ((run ops).row i) = true) := by
  refine ⟨⟨[.new [], .new [5], .union 0 [1], .setBit 2 9], 1, ?_⟩, ⟨[.new [], .shard 0 [], .union 0 [1], .setBit 2 9], 1, ?_⟩⟩
  · decide +kernel
  · decide +kernel

/-! ## C46 -/

/-- **C46**, any history: building a new row out of others leaves every existing row's columns as they were. -/
theorem C46_new_rows (ops : List Op) (op : Op) (ht : op.target = none) (hn : ∀ i j, op ≠ .absorb i j) (j : Nat)
    (hj : j < (run ops).rows.length) : (step (run ops) op).cols j = (run ops).cols j := by
  obtain ⟨own, h⟩ := inv_run ops
  by_cases hnew : ∃ cols, op = .new cols
  · obtain ⟨cols, rfl⟩ := hnew
    obtain ⟨_, _, _, _, _, hf, _⟩ := newRow_spec (r := []) cols h.1 ⟨List.Pairwise.nil, by simp⟩
    unfold World.cols
    simp only [step]
    rw [row_push, if_neg (by omega)]
    exact columns_congr fun t ht => hf _ ((row_ok h j).2 t ht).1 (by simp)
  · obtain ⟨p, items, e, hp, _⟩ := pushes h op ht (fun c hc => hnew ⟨c, hc⟩) hn
    obtain ⟨_, t, e1, _⟩ := push_spec h hp
    rw [e]
    unfold World.cols
    rw [row_push, if_neg (by omega)]
    show columns p.1 _ = _
    rw [e1]
    exact columns_append (row_ok h j) t

/-- **C46**, partial: in every program whose calls are safe, no call changes a row other than its target, however the
results are used afterwards. Missing: programs with unsafe calls, where it is false (`C46_refuted`). -/
theorem C46_operands_partial (w : World) (hw : SafeRun w) (op : Op) (j : Nat) (hj : j < w.rows.length)
    (ht : op.target ≠ some j) (hab : ∀ a b, op = .absorb a b → j ≠ a ∧ j ≠ b) : (step w op).cols j = w.cols j := by
  obtain ⟨⟨own, h⟩, hsep, _⟩ := safeRun_inv hw
  by_cases hp : op.target = none ∧ (∀ cols, op ≠ .new cols) ∧ (∀ i j, op ≠ .absorb i j)
  · obtain ⟨p, items, e, hp, _⟩ := pushes h op hp.1 hp.2.1 hp.2.2
    obtain ⟨_, t, e1, _⟩ := push_spec h hp
    rw [e]
    unfold World.cols
    rw [row_push, if_neg (by omega)]
    show columns p.1 _ = _
    rw [e1]
    exact columns_append (row_ok h j) t
  · cases op with
    | new cols =>
      obtain ⟨_, _, _, _, _, hf, _⟩ := newRow_spec (r := []) cols h.1 ⟨List.Pairwise.nil, by simp⟩
      unfold World.cols
      simp only [step]
      rw [row_push, if_neg (by omega)]
      exact columns_congr fun t ht => hf _ ((row_ok h j).2 t ht).1 (by simp)
    | setBit i c =>
      obtain ⟨⟨_, sp⟩, _⟩ := setBit_spec c h.1 (row_ok h i)
      have hne : j ≠ i := by rintro rfl; exact ht rfl
      unfold World.cols
      simp only [step]
      rw [row_put, if_neg (fun hc => hne hc.1)]
      exact columns_congr (untouched h hsep hne fun p hp hn =>
        sp.frame p hp (by rintro ⟨s, hs, _, e1, e2⟩; exact hn ⟨s, hs, e1, e2⟩))
    | merge i k =>
      obtain ⟨_, sp⟩ := merge_spec h.1 (row_ok h i) (row_ok h k)
      have hne : j ≠ i := by rintro rfl; exact ht rfl
      unfold World.cols
      simp only [step]
      rw [row_put, if_neg (fun hc => hne hc.1)]
      exact columns_congr (untouched h hsep hne fun p hp hn =>
        sp.frame p hp (by rintro ⟨s, hs, e1, e2, _⟩; exact hn ⟨s, hs, e1, e2⟩))
    | absorb i k =>
      obtain ⟨_, sp⟩ := merge_spec h.1 (row_ok h i) (row_ok h k)
      obtain ⟨hne, hnk⟩ := hab i k rfl
      have hrow : (step w (.absorb i k)).row j = w.row j := by
        simp only [step, World.row, World.put, List.getD_eq_getElem?_getD]
        rw [List.getElem?_set_ne (Ne.symm hnk), List.getElem?_set_ne (Ne.symm hne)]
      unfold World.cols
      rw [hrow]
      exact columns_congr (untouched h hsep hne fun p hp hn =>
        sp.frame p hp (by rintro ⟨s, hs, e1, e2, _⟩; exact hn ⟨s, hs, e1, e2⟩))
    | _ => exact absurd ⟨rfl, by simp, by simp⟩ hp

/-- **C46**: the result of `Intersect` and of `Clone` can always be modified without affecting the operands, because these
calls are always safe; so are `NewRow`, `SetBit` and merging rows that are given up afterwards (as `Shards.Row` does). -/
theorem C46_always_safe (w : World) (i j : Nat) (cs : List Nat) :
    Safe w (.intersect i j) ∧ Safe w (.clone i) ∧ Safe w (.new cs) ∧ Safe w (.setBit i j) ∧ Safe w (.absorb i j) :=
  ⟨trivial, trivial, trivial, trivial, trivial⟩

/-- **C46 fails** in general: setting a bit in a union, a xor, a difference or a merged row changes an operand that had a
shard of its own. -/
theorem C46_refuted :
    (∃ ops, (run ops).cols 1 = [5] ∧ (step (step (run ops) (.union 0 [1])) (.setBit 2 9)).cols 1 = [5, 9]) ∧
    (∃ ops, (run ops).cols 1 = [5] ∧ (step (step (run ops) (.xor 0 1)) (.setBit 2 9)).cols 1 = [5, 9]) ∧
    (∃ ops, (run ops).cols 1 = [5] ∧ (step (step (run ops) (.difference 1 [0])) (.setBit 2 9)).cols 1 = [5, 9]) ∧
    (∃ ops, (run ops).cols 1 = [5] ∧ (step (step (run ops) (.merge 0 1)) (.setBit 0 9)).cols 1 = [5, 9]) := by
  refine ⟨⟨[.new [], .new [5]], ?_⟩, ⟨[.new [], .new [5]], ?_⟩, ⟨[.new [], .new [5]], ?_⟩, ⟨[.new [], .new [5]], ?_⟩⟩ <;>
    decide +kernel

/-- Witness: a safe program with a union over overlapping shards, whose result is then modified. -/
example : SafeRun (step (step (step (step { heap := [], rows := [] } (.new [1])) (.new [2])) (.union 0 [1])) (.setBit 2 9)) ∧
    (step (step (step (step { heap := [], rows := [] } (.new [1])) (.new [2])) (.union 0 [1])) (.setBit 2 9)).cols 2 = [1, 2, 9] := by
  refine ⟨SafeRun.step _ (SafeRun.step _ (SafeRun.step _ (SafeRun.step _ .init trivial) trivial) ?_) trivial, by decide +kernel⟩
  have : ∀ k ∈ [0, 1], ∀ s ∈ (step (step { heap := [], rows := [] } (.new [1])) (.new [2])).row k, s.writable = true →
      2 ≤ holders s.shard ([0, 1].map (step (step { heap := [], rows := [] } (.new [1])) (.new [2])).row) := by
    decide +kernel
  exact this

end Verif.Rw
