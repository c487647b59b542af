import Verif.Lemmas.BsiAlias
import Verif.Props.Bsi
/-!
# C60, exactly: when writing to a sum changes an operand
-/
namespace Verif.Rw
open Bt (shardWidth)

/-- Some of the columns are in shard `k`. -/
def InShard (cols : List Nat) (k : Nat) : Prop := ∃ d ∈ cols, d / shardWidth = k

/-- The `i`-th row of `x` has columns in shard `k` and no row of `y` has. -/
def OnlyIn (w : World) (x y : List Nat) (i k : Nat) : Prop :=
  (∃ a, x[i]? = some a ∧ InShard (w.cols a) k) ∧ ∀ b ∈ y, ¬ InShard (w.cols b) k

theorem inShard_iff {own w} (h : WOk own w) (a k : Nat) : InShard (w.cols a) k ↔ ∃ t ∈ w.row a, t.shard = k ∧ rd w.heap t.data ≠ [] := by
  constructor
  · rintro ⟨d, hd, e⟩
    obtain ⟨t, ht, hx⟩ := mem_columns.1 hd
    exact ⟨t, ht, (seg_bits h.1 (row_ok h a) ht hx).symm.trans e, fun hn => by rw [hn] at hx; cases hx⟩
  · rintro ⟨t, ht, e, hne⟩
    obtain ⟨d, hd⟩ := List.exists_mem_of_ne_nil _ hne
    exact ⟨d, mem_columns.2 ⟨t, ht, hd⟩, (seg_bits h.1 (row_ok h a) ht hd).trans e⟩

theorem onlyIn_iff {own w} (h : WOk own w) (x y : List Nat) (i k : Nat) :
    OnlyIn w x y i k ↔ ∃ p, Owned w.heap (x.map w.row) (y.map w.row) i k p := by
  constructor
  · rintro ⟨⟨a, ha, hin⟩, hno⟩
    obtain ⟨t, ht, e, hne⟩ := (inShard_iff h a k).1 hin
    refine ⟨t.data, ⟨w.row a, by rw [List.getElem?_map, ha]; rfl, t, ht, e, rfl, hne⟩, fun r hr u hu e => ?_⟩
    obtain ⟨b, hb, rfl⟩ := List.mem_map.1 hr
    exact Classical.byContradiction fun hne => hno b hb ((inShard_iff h b k).2 ⟨u, hu, e, hne⟩)
  · rintro ⟨p, ⟨r, hr, t, ht, e, rfl, hne⟩, hno⟩
    rw [List.getElem?_map] at hr
    obtain ⟨a, ha, rfl⟩ := Option.map_eq_some_iff.1 hr
    refine ⟨⟨a, ha, (inShard_iff h a k).2 ⟨t, ht, e, hne⟩⟩, fun b hb hin => ?_⟩
    obtain ⟨u, hu, e, hne⟩ := (inShard_iff h b k).1 hin
    exact hne (hno _ (List.mem_map_of_mem hb) u hu e)

/-- **C60**, exactly: setting column `c` in row `i` of the sum changes a row that existed before if and only if `c` is new to
row `i`, and in the shard of `c` only one of the operands has any columns, among them some in its `i`-th row. -/
theorem C60_later (ops : List Op) (x y : List Nat) (i c : Nat) :
    let w := run ops
    let out := addBSI w.heap (x.map w.row) (y.map w.row)
    (∃ j, columns (setBit out.1 c (out.2.getD i [])).1 (w.row j) ≠ w.cols j) ↔
      c ∉ columns out.1 (out.2.getD i []) ∧ (OnlyIn w x y i (c / shardWidth) ∨ OnlyIn w y x i (c / shardWidth)) := by
  intro w out
  obtain ⟨own, h⟩ := inv_run ops
  change WOk own w at h
  have hX := map_row_ok h x
  have hY := map_row_ok h y
  obtain ⟨own', t, a1, a2, a3, a4, -⟩ := addBSI_spec (x.map w.row) (y.map w.row) h.1 hX hY
  obtain ⟨b1, -, b3⟩ := addLoop_alias _ (x.map w.row) (y.map w.row) [] h.1 hX hY (Nat.le_refl _)
  change ∀ i s, s ∈ out.2.getD i [] → _ at b1
  change ∀ i k p, _ → ∃ s ∈ out.2.getD i [], _ at b3
  have e : out.1 = w.heap ++ t := a1
  change ∀ r ∈ out.2, _ at a4
  have hr : ROk own' out.1 (out.2.getD i []) := by
    rw [List.getD_eq_getElem?_getD]
    cases hg : out.2[i]? with
    | none => exact ⟨List.Pairwise.nil, by simp⟩
    | some r => rw [e]; exact (a4 r (List.mem_of_getElem? hg)).1
  have hh : HOk own' out.1 := by rw [e]; exact a3
  have hlen : w.heap.length ≤ out.1.length := by rw [e]; simp
  have hold : ∀ j, columns out.1 (w.row j) = w.cols j := fun j => by rw [e]; exact columns_append (row_ok h j) t
  constructor
  · rintro ⟨j, hj⟩
    have hseg : ∃ u ∈ w.row j, rd (setBit out.1 c (out.2.getD i [])).1 u.data ≠ rd out.1 u.data := by
      refine Classical.byContradiction fun hn => hj ?_
      rw [← hold j]
      exact columns_congr fun u hu => Classical.byContradiction fun hne => hn ⟨u, hu, hne⟩
    obtain ⟨u, hu, hne⟩ := hseg
    have hul := ((row_ok h j).2 u hu).1
    refine ⟨fun hc => hne (setBit_there _ hr hh hc _ (by omega)), ?_⟩
    obtain ⟨⟨_, sp⟩, _⟩ := setBit_spec c hh hr
    have hin : InPlace (out.2.getD i []) (c / shardWidth) u.data :=
      Classical.byContradiction fun hn => hne (sp.frame _ (by omega) hn)
    obtain ⟨s, hs, hk, hd, -⟩ := hin
    rcases b1 i s hs with h1 | h1 | h1 | h1
    · simp at h1
    · omega
    · exact Or.inl ((onlyIn_iff h x y i _).2 ⟨s.data, hk ▸ h1⟩)
    · exact Or.inr ((onlyIn_iff h y x i _).2 ⟨s.data, hk ▸ h1⟩)
  · rintro ⟨hc, ho⟩
    have hex : ∃ p, (Owned w.heap (x.map w.row) (y.map w.row) i (c / shardWidth) p ∨ Owned w.heap (y.map w.row) (x.map w.row) i (c / shardWidth) p) := by
      rcases ho with ho | ho
      · obtain ⟨p, hp⟩ := (onlyIn_iff h x y i _).1 ho; exact ⟨p, Or.inl hp⟩
      · obtain ⟨p, hp⟩ := (onlyIn_iff h y x i _).1 ho; exact ⟨p, Or.inr hp⟩
    obtain ⟨p, hp⟩ := hex
    obtain ⟨s, hs, hk, hd, hwr⟩ := b3 i _ p hp
    have hrow : ∃ j, ∃ u ∈ w.row j, u.data = p := by
      rcases hp with ⟨⟨r, hr, u, hu, -, hd, -⟩, -⟩ | ⟨⟨r, hr, u, hu, -, hd, -⟩, -⟩
      · rw [List.getElem?_map] at hr
        obtain ⟨a, -, rfl⟩ := Option.map_eq_some_iff.1 hr
        exact ⟨a, u, hu, hd⟩
      · rw [List.getElem?_map] at hr
        obtain ⟨a, -, rfl⟩ := Option.map_eq_some_iff.1 hr
        exact ⟨a, u, hu, hd⟩
    obtain ⟨j, u, hu, hup⟩ := hrow
    refine ⟨j, fun hcols => ?_⟩
    have hcin : c ∈ w.cols j := by
      rw [← hcols]
      exact mem_columns.2 ⟨u, hu, by rw [hup, ← hd]; exact setBit_reaches _ hr hs hwr hk.symm⟩
    obtain ⟨v, hv, hx⟩ := mem_columns.1 hcin
    have h1 := seg_bits h.1 (row_ok h j) hv hx
    have hus : u.shard = c / shardWidth := by
      have hown := ((row_ok h j).2 u hu)
      have hs' := hr.2 s hs
      rw [← hown.2, hup, ← hd, ← a2.2 _ (by rw [hd, ← hup]; exact hown.1)]
      exact hs'.2.trans hk
    have := shard_unique (row_ok h j) hv hu (by omega)
    subst this
    refine hc (mem_columns.2 ⟨s, hs, ?_⟩)
    rw [hd, ← hup, e, rd_append ((row_ok h j).2 v hv).1]
    exact hx

/-- Witness: over two shards, the sum's row 0 shares the second shard with the first operand and nothing in the first shard. -/
example :
    let w := run [.new [4, 1048577], .new [4]]
    let out := addBSI w.heap ([0].map w.row) ([1].map w.row)
    OnlyIn w [0] [1] 0 (1048580 / shardWidth) ∧ ¬ OnlyIn w [0] [1] 0 (5 / shardWidth) ∧
    columns (setBit out.1 1048580 (out.2.getD 0 [])).1 (w.row 0) = [4, 1048577, 1048580] ∧
    columns (setBit out.1 5 (out.2.getD 0 [])).1 (w.row 0) = [4, 1048577] := by
  intro w out
  have h0 : w.cols 0 = [4, 1048577] := by decide +kernel
  have h1 : w.cols 1 = [4] := by decide +kernel
  refine ⟨⟨⟨0, rfl, 1048577, by rw [h0]; simp, by decide⟩, ?_⟩, ?_, by decide +kernel, by decide +kernel⟩
  · intro b hb
    simp only [List.mem_singleton] at hb
    subst hb
    rintro ⟨d, hd, e⟩
    rw [h1] at hd
    simp only [List.mem_singleton] at hd
    subst hd
    revert e; decide
  · rintro ⟨-, hno⟩
    exact hno 1 (by simp) ⟨4, by rw [h1]; simp, by decide⟩

/-- **C45**, any program: `Count` never exceeds the number of columns. -/
theorem C45_count_le (ops : List Op) (i : Nat) : count ((run ops).row i) ≤ ((run ops).cols i).length :=
  count_le (under_run ops i)

end Verif.Rw
