import Verif.Lemmas.Shards
import Verif.Props.Rows
/-!
# C21, C22, C47: looking up rows and columns in the shards

`m` is the map from shards to requested columns in its (random) iteration order.
-/
namespace Verif.Sh
open Bt (shardWidth)

theorem mem_shardRows_run (ops : List Op) (views : List Bytes) (cols : List Nat) {c : Nat} (hc : c ∈ cols) (u : Nat) :
    u ∈ shardRows (run ops).disk (c / shardWidth) views (cols.filter fun x => decide (x / shardWidth = c / shardWidth)) ↔
      HasAllIn ops views cols (c / shardWidth) u := by
  have hne : (cols.filter fun x => decide (x / shardWidth = c / shardWidth)) ≠ [] := fun h => by
    have := (List.mem_filter (p := fun x => decide (x / shardWidth = c / shardWidth))).2 ⟨hc, by simp⟩
    rw [h] at this; simp at this
  rw [mem_shardRows hne]
  unfold HasAllIn Stored
  constructor
  · rintro ⟨v, hv, h⟩
    refine ⟨v, hv, fun x hx hk => ?_⟩
    have := h x (List.mem_filter.2 ⟨hx, by simpa using hk⟩)
    rw [mem_disk_run] at this
    rw [hk]; exact this
  · rintro ⟨v, hv, h⟩
    refine ⟨v, hv, fun x hx => ?_⟩
    simp only [List.mem_filter, decide_eq_true_eq] at hx
    rw [mem_disk_run]
    have := h x hx.1 hx.2
    rw [hx.2] at this
    exact this

theorem ne_nil_run (ops : List Op) (views : List Bytes) (cols : List Nat) {c : Nat} (hc : c ∈ cols) :
    shardRows (run ops).disk (c / shardWidth) views (cols.filter fun x => decide (x / shardWidth = c / shardWidth)) ≠ [] ↔
      ∃ u', HasAllIn ops views cols (c / shardWidth) u' := by
  constructor
  · intro h
    obtain ⟨u, hu⟩ := List.exists_mem_of_ne_nil _ h
    exact ⟨u, (mem_shardRows_run ops views cols hc u).1 hu⟩
  · rintro ⟨u, hu⟩ h
    have := (mem_shardRows_run ops views cols hc u).2 hu
    rw [h] at this; simp at this

/-- **C21**, exactly what a lookup returns, for every history, set of views, columns and iteration order: nothing if a
shard of the columns was not used since the last restart; otherwise the rows that have, *in every shard whose columns match
some row*, all columns of the shard in one of the views. -/
theorem C21_lookup_exact (ops : List Op) (views : List Bytes) (cols : List Nat) (m : AMap Nat (List Nat))
    (hm : m.Perm (groupCols cols)) (u : Nat) :
    u ∈ ((run ops).rows views m).getD [] ↔
      (∀ c ∈ cols, Open ops (c / shardWidth)) ∧
      (∃ c ∈ cols, ∃ u', HasAllIn ops views cols (c / shardWidth) u') ∧
      ∀ c ∈ cols, (∃ u', HasAllIn ops views cols (c / shardWidth) u') → HasAllIn ops views cols (c / shardWidth) u := by
  unfold Store.rows
  rw [mem_rowsLoop]
  have hmem : ∀ e, e ∈ m ↔ (∃ c ∈ cols, c / shardWidth = e.1) ∧ e.2 = cols.filter fun c => decide (c / shardWidth = e.1) :=
    fun e => by rw [hm.mem_iff, mem_groupCols]
  have hent : ∀ c ∈ cols, (c / shardWidth, cols.filter fun x => decide (x / shardWidth = c / shardWidth)) ∈ m :=
    fun c hc => (hmem _).2 ⟨⟨c, hc, rfl⟩, rfl⟩
  simp only [reduceCtorEq, false_implies, implies_true, Option.isSome_none, Bool.false_eq_true, false_or, true_and]
  constructor
  · rintro ⟨h1, ⟨e, he, hne⟩, h3⟩
    refine ⟨fun c hc => (mem_opened_run _ _).1 (h1 _ (hent c hc)), ?_, fun c hc hu => ?_⟩
    · obtain ⟨k, f⟩ := e
      obtain ⟨⟨c, hc, rfl⟩, e2⟩ := (hmem _).1 he
      simp only at e2 hne
      rw [e2] at hne
      exact ⟨c, hc, (ne_nil_run ops views cols hc).1 hne⟩
    · exact (mem_shardRows_run ops views cols hc u).1 (h3 _ (hent c hc) ((ne_nil_run ops views cols hc).2 hu))
  · rintro ⟨h1, ⟨c, hc, hu⟩, h3⟩
    refine ⟨fun e he => ?_, ⟨_, hent c hc, (ne_nil_run ops views cols hc).2 hu⟩, fun e he hne => ?_⟩
    · obtain ⟨⟨c, hc, h⟩, _⟩ := (hmem _).1 he
      rw [mem_opened_run, ← h]; exact h1 c hc
    · obtain ⟨k, f⟩ := e
      obtain ⟨⟨c, hc, rfl⟩, e2⟩ := (hmem _).1 he
      simp only at e2 hne ⊢
      rw [e2] at hne ⊢
      exact (mem_shardRows_run ops views cols hc u).2 (h3 c hc ((ne_nil_run ops views cols hc).1 hne))

/-- **C21**: the rows found do not depend on the iteration order of the map. -/
theorem C21_order_independent (ops : List Op) (views : List Bytes) (cols : List Nat) (m m' : AMap Nat (List Nat))
    (hm : m.Perm (groupCols cols)) (hm' : m'.Perm (groupCols cols)) :
    ((run ops).rows views m).getD [] = ((run ops).rows views m').getD [] :=
  Bm.ext (rowsLoop_ok _ _ Bm.nil_ok) (rowsLoop_ok _ _ Bm.nil_ok) fun u => by
    rw [C21_lookup_exact ops views cols m hm, C21_lookup_exact ops views cols m' hm']

/-- **C21**: no row that has all the columns is missed, if the shards are open. -/
theorem C21_finds_all (ops : List Op) (views : List Bytes) (cols : List Nat) (m : AMap Nat (List Nat))
    (hm : m.Perm (groupCols cols)) (hne : cols ≠ []) (hopen : ∀ c ∈ cols, Open ops (c / shardWidth)) (u : Nat)
    (hu : Wanted ops views cols u) : u ∈ ((run ops).rows views m).getD [] := by
  obtain ⟨c, hc⟩ := List.exists_mem_of_ne_nil _ hne
  exact (C21_lookup_exact ops views cols m hm u).2 ⟨hopen, ⟨c, hc, u, hu c hc⟩, fun c hc _ => hu c hc⟩

/-- **C21**, partial: the lookup is exactly the intersection over the shards, provided the shards are open and every shard's
columns match at least one row (missing: without that proviso the statement is false, see `C21_refuted`). -/
theorem C21_intersection_partial (ops : List Op) (views : List Bytes) (cols : List Nat) (m : AMap Nat (List Nat))
    (hm : m.Perm (groupCols cols)) (hne : cols ≠ []) (hopen : ∀ c ∈ cols, Open ops (c / shardWidth))
    (hsome : ∀ c ∈ cols, ∃ u', HasAllIn ops views cols (c / shardWidth) u') (u : Nat) :
    u ∈ ((run ops).rows views m).getD [] ↔ Wanted ops views cols u := by
  constructor
  · intro h c hc
    exact ((C21_lookup_exact ops views cols m hm u).1 h).2.2 c hc (hsome c hc)
  · exact C21_finds_all ops views cols m hm hne hopen u

/-- **C21**, partial: with all columns in one open shard (fewer than 2^20 distinct labels) the lookup is exact: the rows that
have all the columns in one of the views. -/
theorem C21_single_shard_partial (ops : List Op) (views : List Bytes) (cols : List Nat) (m : AMap Nat (List Nat))
    (hm : m.Perm (groupCols cols)) (k : Nat) (hne : cols ≠ []) (hk : ∀ c ∈ cols, c / shardWidth = k) (hopen : Open ops k)
    (u : Nat) :
    u ∈ ((run ops).rows views m).getD [] ↔ ∃ v ∈ views, ∀ c ∈ cols, Stored ops v u c := by
  have hA : ∀ u', HasAllIn ops views cols k u' ↔ ∃ v ∈ views, ∀ c ∈ cols, Stored ops v u' c := fun u' => by
    unfold HasAllIn
    constructor
    · rintro ⟨v, hv, h⟩; exact ⟨v, hv, fun c hc => h c hc (hk c hc)⟩
    · rintro ⟨v, hv, h⟩; exact ⟨v, hv, fun c hc _ => h c hc⟩
  rw [C21_lookup_exact ops views cols m hm]
  obtain ⟨c0, hc0⟩ := List.exists_mem_of_ne_nil _ hne
  constructor
  · rintro ⟨_, ⟨c, hc, hu⟩, h⟩
    rw [← hA, ← hk c hc]; exact h c hc hu
  · intro h
    rw [← hA] at h
    exact ⟨fun c hc => by rw [hk c hc]; exact hopen, ⟨c0, hc0, u, by rw [hk c0 hc0]; exact h⟩, fun c hc _ => by rw [hk c hc]; exact h⟩

/-- **C21**, partial: a row returned always has all the columns of at least one shard in one view. -/
theorem C21_returns_matching_partial (ops : List Op) (views : List Bytes) (cols : List Nat) (m : AMap Nat (List Nat))
    (hm : m.Perm (groupCols cols)) (u : Nat) (hu : u ∈ ((run ops).rows views m).getD []) :
    ∃ c ∈ cols, HasAllIn ops views cols (c / shardWidth) u := by
  obtain ⟨_, ⟨c, hc, h⟩, h3⟩ := (C21_lookup_exact ops views cols m hm u).1 hu
  exact ⟨c, hc, h3 c hc h⟩

/-- **C21** is false of the code: a shard whose columns match no row does not restrict the result. Row 0 has column 5, no row
has column 2^20 + 3, and the lookup of both columns returns row 0. -/
theorem C21_refuted : ∃ (ops : List Op) (views : List Bytes) (cols : List Nat) (m : AMap Nat (List Nat)) (u : Nat),
    m.Perm (groupCols cols) ∧ (∀ c ∈ cols, Open ops (c / shardWidth)) ∧
    u ∈ ((run ops).rows views m).getD [] ∧ ¬ Wanted ops views cols u := by
  refine ⟨[.update 0 [([118], [5])] true, .update 1 [([118], [1048576 + 9])] true], [[118]], [5, 1048576 + 3],
    groupCols [5, 1048576 + 3], 0, List.Perm.refl _, ?_, ?_, ?_⟩
  · intro c hc
    rw [← mem_opened_run]
    simp only [List.mem_cons, List.not_mem_nil, or_false] at hc
    rcases hc with rfl | rfl <;> decide +kernel
  · decide +kernel
  · intro h
    have := h (1048576 + 3) (by simp)
    rw [← mem_shardRows_run _ _ _ (by simp)] at this
    revert this
    decide +kernel

/-- The hypotheses of the partial theorems hold for a history with two shards and a row that matches in both. -/
example : ∃ (ops : List Op) (views : List Bytes) (cols : List Nat),
    cols ≠ [] ∧ (∀ c ∈ cols, Open ops (c / shardWidth)) ∧
    (∀ c ∈ cols, ∃ u', HasAllIn ops views cols (c / shardWidth) u') ∧ Wanted ops views cols 2 := by
  have hw : Wanted [.update 0 [([118], [5, 2097152 + 5])] true, .view 1, .update 1 [([118], [2097152 + 3])] true] [[118]]
      [5, 1048576 + 3] 2 := by
    intro c hc
    rw [← mem_shardRows_run _ _ _ hc]
    simp only [List.mem_cons, List.not_mem_nil, or_false] at hc
    rcases hc with rfl | rfl <;> decide +kernel
  refine ⟨[.update 0 [([118], [5, 2097152 + 5])] true, .view 1, .update 1 [([118], [2097152 + 3])] true], [[118]],
    [5, 1048576 + 3], by simp, ?_, fun c hc => ⟨2, hw c hc⟩, hw⟩
  intro c hc
  rw [← mem_opened_run]
  simp only [List.mem_cons, List.not_mem_nil, or_false] at hc
  rcases hc with rfl | rfl <;> decide +kernel

/-! ## C22 -/

/-- **C22** is false of the code for *every* database: after a restart a lookup finds nothing until a shard is written again. -/
theorem C22_blind_after_restart (ops : List Op) (views : List Bytes) (cols : List Nat) (m : AMap Nat (List Nat))
    (hm : m.Perm (groupCols cols)) : ((run (ops ++ [.restart])).rows views m).getD [] = [] := by
  rw [List.eq_nil_iff_forall_not_mem]
  intro u hu
  obtain ⟨h1, ⟨c, hc, _⟩, _⟩ := (C21_lookup_exact _ views cols m hm u).1 hu
  have := h1 c hc
  rw [open_snoc] at this
  simp [Op.Touches] at this

/-- **C22** is false of the code: a row found before a restart is not found after it. -/
theorem C22_refuted : ∃ (ops : List Op) (views : List Bytes) (cols : List Nat) (u : Nat),
    u ∈ ((run ops).rows views (groupCols cols)).getD [] ∧
    u ∉ ((run (ops ++ [.restart])).rows views (groupCols cols)).getD [] := by
  refine ⟨[.update 0 [([118], [5])] true], [[118]], [5], 0, by decide +kernel, ?_⟩
  rw [C22_blind_after_restart _ _ _ _ (List.Perm.refl _)]; simp

theorem stored_append_reads {ops ops' : List Op} (h : ∀ op ∈ ops', ∀ v p k, ¬ op.Writes v p k) (v : Bytes) (u c : Nat) :
    Stored (ops ++ ops') v u c ↔ Stored ops v u c := by
  unfold Stored
  constructor
  · rintro ⟨op, ho, hw⟩
    rcases List.mem_append.1 ho with ho | ho
    · exact ⟨op, ho, hw⟩
    · exact absurd hw (h op ho _ _ _)
  · rintro ⟨op, ho, hw⟩
    exact ⟨op, List.mem_append_left _ ho, hw⟩

/-- **C22**, partial: committed data survives the restart: once the shards of the columns have been opened again (by reads or
rolled back writes), the lookup returns what it returned before (missing: the code does not open them by itself). -/
theorem C22_after_reopening_partial (ops ops' : List Op) (views : List Bytes) (cols : List Nat) (m m' : AMap Nat (List Nat))
    (hm : m.Perm (groupCols cols)) (hm' : m'.Perm (groupCols cols))
    (hopen : ∀ c ∈ cols, Open ops (c / shardWidth))
    (hreads : ∀ op ∈ ops', ∀ v p k, ¬ op.Writes v p k)
    (hre : ∀ c ∈ cols, Open ops' (c / shardWidth)) :
    ((run (ops ++ .restart :: ops')).rows views m').getD [] = ((run ops).rows views m).getD [] := by
  have hS : ∀ v u c, Stored (ops ++ .restart :: ops') v u c ↔ Stored ops v u c :=
    stored_append_reads (by
      intro op ho
      rcases List.mem_cons.1 ho with rfl | ho
      · intro v p k h; exact h
      · exact hreads op ho)
  have hH : ∀ k u, HasAllIn (ops ++ .restart :: ops') views cols k u ↔ HasAllIn ops views cols k u := fun k u => by
    unfold HasAllIn; simp only [hS]
  have hO : ∀ c ∈ cols, Open (ops ++ .restart :: ops') (c / shardWidth) := fun c hc => by
    obtain ⟨pre, op, suf, e, h⟩ := hre c hc
    exact ⟨ops ++ .restart :: pre, op, suf, by simp [e], h⟩
  refine Bm.ext (rowsLoop_ok _ _ Bm.nil_ok) (rowsLoop_ok _ _ Bm.nil_ok) fun u => ?_
  rw [C21_lookup_exact _ views cols m' hm', C21_lookup_exact ops views cols m hm]
  simp only [hH]
  constructor
  · exact fun h => ⟨hopen, h.2⟩
  · exact fun h => ⟨hO, h.2⟩

/-- The hypotheses are met, and the result is not empty. -/
example : ∃ (ops ops' : List Op) (views : List Bytes) (cols : List Nat),
    (∀ c ∈ cols, Open ops (c / shardWidth)) ∧ (∀ op ∈ ops', ∀ v p k, ¬ op.Writes v p k) ∧
    (∀ c ∈ cols, Open ops' (c / shardWidth)) ∧ ((run ops).rows views (groupCols cols)).getD [] = [0, 7] := by
  refine ⟨[.update 0 [([118], [5, 7 * 1048576 + 5])] true], [.view 0], [[118]], [5], ?_, ?_, ?_, by decide +kernel⟩
  · intro c hc; rw [← mem_opened_run]; simp only [List.mem_singleton] at hc; subst hc; decide +kernel
  · intro op ho v p k; simp only [List.mem_singleton] at ho; subst ho; exact id
  · intro c hc; rw [← mem_opened_run]; simp only [List.mem_singleton] at hc; subst hc; decide +kernel

/-! ## C47 -/

/-- **C47**: reading a row of a view lists exactly the columns committed for it in the shards used since the last restart, for
every history and iteration order. -/
theorem C47_row_read_back (ops : List Op) (view : Bytes) (u : Nat) (order : List Nat) (ho : order.Perm (run ops).opened)
    (c : Nat) : c ∈ (run ops).rowColumns view u order ↔ Open ops (c / shardWidth) ∧ Stored ops view u c := by
  rw [mem_rowColumns, mem_disk_run, ho.mem_iff, mem_opened_run]; rfl

/-- **C47**: the columns are listed in ascending order without repetition, so the list does not depend on the iteration
order. -/
theorem C47_row_order_independent (ops : List Op) (view : Bytes) (u : Nat) (order order' : List Nat)
    (ho : order.Perm (run ops).opened) (ho' : order'.Perm (run ops).opened) :
    (run ops).rowColumns view u order = (run ops).rowColumns view u order' ∧
    ((run ops).rowColumns view u order).Pairwise (· < ·) := by
  have hs : ∀ o, ((run ops).rowColumns view u o).Pairwise (· < ·) := fun o => by
    obtain ⟨own, h1, h2⟩ := rowLoop_ok (run ops).disk view u o
    exact Rw.columns_sorted h1 h2
  exact ⟨Bm.ext (hs _) (hs _) fun c => by rw [C47_row_read_back ops view u order ho, C47_row_read_back ops view u order' ho'], hs _⟩

example : (run [.update 0 [([118], [5, 7 * 1048576 + 5])] true, .update 3 [([118], [7 * 1048576 + 1])] true]).rowColumns [118] 7
    [3, 0] = [5, 3 * 1048576 + 1] := by decide +kernel

end Verif.Sh
