import Verif.Lemmas.RowsUnder
import Verif.Lemmas.Bsi3
import Verif.Lemmas.Bsi4
/-!
# C59-C61: bit-sliced integers

C59 and C60 range over the rows of any program, C61 over all sequences of insertions.
-/
namespace Verif.Rw
open Bt (shardWidth)

/-! ## C59 -/

/-- **C59**, any history. `PivotDescending` reports exactly the columns of the filter with their values, larger values first and
columns of equal value ascending, restricted to the page given by limit and offset; one call per value, none without columns;
the limit is decremented by the number of columns reported, and the offset by the number of columns skipped when there is no
limit. No row changes. If there is an offset, the filter's `Count` must be right; otherwise it is false (`C59_refuted`). A call
with a branch argument other than 0, used by the recursion only, is not covered. -/
theorem C59_pivot (ops : List Op) (bits : List Nat) (hb : bits.length ≤ 64) (f : Nat) (lim off : Option Nat)
    (hc : off = none ∨ count ((run ops).row f) = ((run ops).cols f).length) :
    let w := run ops
    let out := pivotDescending w.heap (bits.map w.row) (w.row f) 0 lim off
    told out.calls = page lim off (ranked (value (bits.map w.cols)) (w.cols f)) ∧
    (∀ c ∈ out.calls, c.2 ≠ []) ∧ out.calls.Pairwise (fun c d => d.1 < c.1) ∧
    out.limit = lim.map (· - (told out.calls).length) ∧
    (lim = none → out.offset = off.map (· - (w.cols f).length)) ∧
    ∀ j, columns out.heap (w.row j) = w.cols j := by
  have hcnt : off = none ∨ RCnt (run ops).heap ((run ops).row f) := hc.imp id fun hc => counts_right (under_run ops f) hc
  obtain ⟨own, h⟩ := inv_run ops
  intro w
  change WOk own w at h
  change off = none ∨ RCnt w.heap (w.row f) at hcnt
  have hsp := pivotHigh_spec (bits.map w.row).reverse 0 lim off h.1 (row_ok h f) hcnt
    (fun o ho => map_row_ok h bits o (List.mem_reverse.1 ho)) (by simpa using hb) (by simp)
  have hsets : sets w.heap (bits.map w.row).reverse = (bits.map w.cols).reverse := by
    simp [sets, List.map_reverse, World.cols, Function.comp_def]
  rw [hsets] at hsp
  have hs := columns_sorted h.1 (row_ok h f)
  intro out
  refine ⟨?_, hsp.full, hsp.keys, hsp.limit, fun hl => ?_, fun j => ?_⟩
  · have := hsp.told
    rw [walk_ranked _ _ (by simpa using hb) hs, List.reverse_reverse] at this
    exact this
  · rcases hsp.offset with h0 | h0
    · have hlim := hsp.limit
      rw [hl] at hlim h0
      rw [hlim] at h0; cases h0
    · exact h0
  · obtain ⟨_, t, e, _⟩ := hsp.heap
    show columns (pivotHigh _ _ _ _ _ _).heap _ = _
    rw [e]; exact columns_append (row_ok h j) t

/-- Three columns with values 5, 2 and 5 (bits 0, 1, 2), a column without a value, and one in another shard. -/
def exBsi : List Op := [.new [3, 9], .new [7], .new [3, 9, 1048577], .new [3, 7, 9, 11, 1048577]]

/-- Witness: the second to fourth entries of that BSI; column 11 has no bits and is reported with value 0. -/
example : count ((run exBsi).row 3) = ((run exBsi).cols 3).length ∧
    (pivotDescending (run exBsi).heap ([0, 1, 2].map (run exBsi).row) ((run exBsi).row 3) 0 (some 3) (some 1)).calls =
      [(5, [9]), (4, [1048577]), (2, [7])] ∧
    (pivotDescending (run exBsi).heap ([0, 1, 2].map (run exBsi).row) ((run exBsi).row 3) 0 none none).calls =
      [(5, [3, 9]), (4, [1048577]), (2, [7]), (0, [11])] :=
  ⟨by decide +kernel, by decide +kernel, by decide +kernel⟩

/-- **C59**: contrary to its comment ("loops over nonzero BSI values"), the function also reports the value 0, for every filter
with a column that is in none of the rows. -/
theorem C59_reports_zero (ops : List Op) (bits : List Nat) (hb : bits.length ≤ 64) (f c : Nat) (hc : c ∈ (run ops).cols f)
    (hn : ∀ b ∈ bits, c ∉ (run ops).cols b) :
    (0, c) ∈ told (pivotDescending (run ops).heap (bits.map (run ops).row) ((run ops).row f) 0 none none).calls := by
  rw [(C59_pivot ops bits hb f none none (Or.inl rfl)).1]
  simp only [page, ranked]
  rw [(List.mergeSort_perm _ _).mem_iff]
  refine List.mem_map.2 ⟨c, hc, ?_⟩
  rw [value_empty]
  intro s hs
  obtain ⟨b, hb, rfl⟩ := List.mem_map.1 hs
  exact hn b hb

/-- **C59 fails** when the cached count of the filter is wrong (after an unsafe call): with offset 1 the second of two columns is
skipped too. -/
theorem C59_refuted : ∃ ops f, (run ops).cols f = [5, 9] ∧
    (pivotDescending (run ops).heap [] ((run ops).row f) 0 none (some 1)).calls = [] ∧
    page none (some 1) (ranked (value []) ((run ops).cols f)) ≠ [] := by
  have h : (run [.new [], .new [5], .union 0 [1], .setBit 2 9]).cols 1 = [5, 9] := by decide +kernel
  refine ⟨[.new [], .new [5], .union 0 [1], .setBit 2 9], 1, h, by decide +kernel, fun e => ?_⟩
  rw [h] at e
  have hl := congrArg List.length e
  simp [page, ranked, List.length_mergeSort] at hl

/-! ## C60 -/

/-- **C60**, any history: `AddBSI` adds the values of every column, its rows count their columns correctly, and the call itself
changes no row. -/
theorem C60_add (ops : List Op) (x y : List Nat) :
    let out := addBSI (run ops).heap (x.map (run ops).row) (y.map (run ops).row)
    (∀ c, value (out.2.map (columns out.1)) c = value (x.map (run ops).cols) c + value (y.map (run ops).cols) c) ∧
    (∀ r ∈ out.2, count r = (columns out.1 r).length ∧ (columns out.1 r).Pairwise (· < ·)) ∧
    ∀ j, columns out.1 ((run ops).row j) = (run ops).cols j := by
  obtain ⟨own, h⟩ := inv_run ops
  obtain ⟨own', t, a1, a2, a3, a4, a5⟩ := addBSI_spec (x.map (run ops).row) (y.map (run ops).row) h.1 (map_row_ok h x) (map_row_ok h y)
  have hsets : ∀ l : List Nat, sets (run ops).heap (l.map (run ops).row) = l.map (run ops).cols := by
    intro l; simp [sets, World.cols, Function.comp_def]
  intro out
  have e : out.1 = (run ops).heap ++ t := a1
  rw [e]
  refine ⟨fun c => ?_, fun r hr => ⟨count_columns (a4 r hr).2, columns_sorted a3 (a4 r hr).1⟩, fun j => columns_append (row_ok h j) t⟩
  have := a5 c
  rw [hsets, hsets] at this
  exact this

/-- Witness: 3 + 1 and 0 + 2 over two shards; the sum needs a third row. -/
example :
    let w := run [.new [4], .new [4], .new [4], .new [1048580]]
    let out := addBSI w.heap [w.row 0, w.row 1] [w.row 2, w.row 3]
    out.2.map (columns out.1) = [[], [1048580], [4]] := by decide +kernel

/-- **C60 fails** for the rows afterwards: a row of the sum shares the bitmap of an operand that alone has values in a shard, and
is marked writable, so setting a bit in the result changes the operand (whose count stays behind). -/
theorem C60_refuted : ∃ (h : Heap) (x r : Row) (h' : Heap), (h, x) = newRow [] [] [5] ∧ addBSI h [x] [] = (h', [r]) ∧
    columns h x = [5] ∧ columns (setBit h' 9 r).1 x = [5, 9] ∧ count x = 1 :=
  ⟨[[5]], [{ shard := 0, data := 0, writable := true, n := 1 }], [{ shard := 0, data := 0, writable := true, n := 1 }], [[5], []],
    by decide +kernel, by decide +kernel, by decide +kernel, by decide +kernel, by decide +kernel⟩

/-! ## C61 -/

/-- **C61.** A row builder given columns that ascend as long as they stay in one container of 2^16 columns builds a row with
exactly these columns, correctly counted, and is ready for use again; no other row changes. (The contract demands
ascending columns; for a column that repeats it is false, `C61_refuted`.) -/
theorem C61_row (ops : List Op) (b : RowBuilder) (hb : b.bm = none ∧ b.mask = none ∧ b.array = []) (vs : List Nat)
    (hs : vs.IsChain fun a b => a / 2 ^ 16 = b / 2 ^ 16 → a < b) :
    let out := (vs.foldl RowBuilder.add b).build (run ops).heap
    (∀ c, c ∈ columns out.1 out.2.1 ↔ c ∈ vs) ∧ (columns out.1 out.2.1).Pairwise (· < ·) ∧ count out.2.1 = (columns out.1 out.2.1).length ∧
    (out.2.2.bm = none ∧ out.2.2.mask = none ∧ out.2.2.array = []) ∧
    ∀ j, columns out.1 ((run ops).row j) = (run ops).cols j := by
  obtain ⟨own, h⟩ := inv_run ops
  have hold := adds_keeps (vs := []) vs (Keeps.idle hb) (by simpa using hs)
  rw [List.nil_append] at hold
  obtain ⟨own', t, a1, a2, a3, a4, a5, a6, a7⟩ := rowBuild_keeps h.1 hold
  intro out
  have e : out.1 = (run ops).heap ++ t := a1
  rw [e]
  exact ⟨a6, columns_sorted a3 a4, count_columns a5, a7, fun j => columns_append (row_ok h j) t⟩

/-- **C61.** With columns in ascending order, as its comment demands, a row builder builds a row with exactly these columns. -/
theorem C61_row_ascending (ops : List Op) (b : RowBuilder) (hb : b.bm = none ∧ b.mask = none ∧ b.array = []) (vs : List Nat)
    (hs : vs.Pairwise (· < ·)) :
    let out := (vs.foldl RowBuilder.add b).build (run ops).heap
    columns out.1 out.2.1 = vs ∧ count out.2.1 = vs.length := by
  obtain ⟨h1, h2, h3, -⟩ := C61_row ops b hb vs (List.Pairwise.isChain (List.Pairwise.imp (S := fun a b => a / 2 ^ 16 = b / 2 ^ 16 → a < b) (fun h _ => h) hs))
  have : columns ((vs.foldl RowBuilder.add b).build (run ops).heap).1 ((vs.foldl RowBuilder.add b).build (run ops).heap).2.1 = vs :=
    sorted_ext h2 hs h1
  exact ⟨this, by rw [h3, this]⟩

/-- **C61.** Integers inserted for different columns, ascending in each container, are read back: the BSI gives every inserted
column its value, every other column 0; its rows are correctly counted and no other row changes. -/
theorem C61_bsi (ops : List Op) (es : List (Nat × Nat))
    (hs : es.Pairwise fun a b => (a.1 / 2 ^ 16 = b.1 / 2 ^ 16 → a.1 < b.1) ∧ a.1 ≠ b.1) (hv : ∀ e ∈ es, e.2 < 2 ^ 64) :
    let out := buildBsi (run ops).heap (es.foldl (fun bs e => insert bs e.1 e.2) [])
    (∀ e ∈ es, value (out.2.map (columns out.1)) e.1 = e.2) ∧
    (∀ c, (∀ e ∈ es, e.1 ≠ c) → value (out.2.map (columns out.1)) c = 0) ∧
    (∀ r ∈ out.2, count r = (columns out.1 r).length) ∧
    ∀ j, columns out.1 ((run ops).row j) = (run ops).cols j := by
  obtain ⟨own, h⟩ := inv_run ops
  obtain ⟨own', t, a1, a2, a3, a4, a5, a6⟩ := bsi_keeps es h.1 hs hv
  intro out
  have e : out.1 = (run ops).heap ++ t := a1
  rw [e]
  exact ⟨a5, a6, fun r hr => count_columns (a4 r hr).2, fun j => columns_append (row_ok h j) t⟩

/-- The three together, as the tests of the package use them: build two lists of integers over the same ascending columns, add
them, and walk the sum: every column is reported with the sum of its values. -/
theorem C61_build_add_pivot (cols : List Nat) (hs : cols.Pairwise (· < ·)) (x y : Nat → Nat) (hxy : ∀ c ∈ cols, x c + y c < 2 ^ 64) :
    let a := buildBsi [] ((cols.map fun c => (c, x c)).foldl (fun bs e => insert bs e.1 e.2) [])
    let b := buildBsi a.1 ((cols.map fun c => (c, y c)).foldl (fun bs e => insert bs e.1 e.2) [])
    let s := addBSI b.1 a.2 b.2
    let f := newRow s.1 [] cols
    told (pivotDescending f.1 s.2 f.2 0 none none).calls = ranked (fun c => x c + y c) cols := by
  intro a b s f
  have hx : ∀ c ∈ cols, x c < 2 ^ 64 := fun c hc => by have := hxy c hc; omega
  have hy : ∀ c ∈ cols, y c < 2 ^ 64 := fun c hc => by have := hxy c hc; omega
  have hmap : ∀ z : Nat → Nat, (cols.map fun c => (c, z c)).Pairwise (fun a b => a.1 < b.1) := fun z => by
    rw [List.pairwise_map]; exact hs
  have hh0 : HOk (fun _ => 0) [] := fun p => ⟨by rw [rd_out (by simp)]; exact Bm.nil_ok, by rw [rd_out (by simp)]; simp⟩
  obtain ⟨o1, t1, a1, a2, a3, a4, a5, a6⟩ := bsi_spec (cols.map fun c => (c, x c)) hh0 (hmap x) (by simpa using hx)
  have ea : a.1 = [] ++ t1 := a1
  obtain ⟨o2, t2, b1, b2, b3, b4, b5, b6⟩ := bsi_spec (h := a.1) (own := o1) (cols.map fun c => (c, y c)) (by rw [ea]; exact a3) (hmap y)
    (by simpa using hy)
  have eb : b.1 = a.1 ++ t2 := b1
  have ha2 : ∀ r ∈ a.2, ROk o2 b.1 r := fun r hr => by
    rw [eb]; exact ROk.ext (by rw [ea]; exact (a4 r hr).1) b2
  have hb2 : ∀ r ∈ b.2, ROk o2 b.1 r := fun r hr => by rw [eb]; exact (b4 r hr).1
  obtain ⟨o3, t3, s1, s2, s3, s4, s5⟩ := addBSI_spec (h := b.1) (own := o2) a.2 b.2 (by rw [eb]; exact b3) ha2 hb2
  have es : s.1 = b.1 ++ t3 := s1
  obtain ⟨o4, f1, f2, f3, f4, f5, _, f6⟩ := newRow_spec (h := s.1) (own := o3) (r := []) cols (by rw [es]; exact s3) ⟨List.Pairwise.nil, by simp⟩
  have hcols : columns f.1 f.2 = cols := sorted_ext (columns_sorted f2 f3) hs fun c => (f4 c).trans (by simp [columns])
  have hrows : ∀ r ∈ s.2, ROk o3 s.1 r := fun r hr => by rw [es]; exact (s4 r hr).1
  have hsets : sets f.1 s.2 = sets s.1 s.2 := List.map_congr_left fun r hr =>
    columns_congr fun t ht => f5 _ ((hrows r hr).2 t ht).1 (by simp)
  have hval : ∀ c, value (sets s.1 s.2) c = value (sets a.1 a.2) c + value (sets b.1 b.2) c := fun c => by
    have := s5 c
    rw [es]
    have e : sets b.1 a.2 = sets a.1 a.2 := by
      rw [eb]; exact sets_append (own := o1) t2 a.2 fun r hr => by rw [ea]; exact (a4 r hr).1
    rw [e] at this; exact this
  have hin : ∀ c ∈ cols, value (sets s.1 s.2) c = x c + y c := fun c hc => by
    rw [hval c]
    have h1 := a5 (c, x c) (List.mem_map.2 ⟨c, hc, rfl⟩)
    have h2 := b5 (c, y c) (List.mem_map.2 ⟨c, hc, rfl⟩)
    rw [ea, eb]
    congr 1
  have hout : ∀ c, c ∉ cols → value (sets s.1 s.2) c = 0 := fun c hc => by
    rw [hval c]
    have h1 := a6 c fun e he hce => by
      obtain ⟨d, hd, rfl⟩ := List.mem_map.1 he
      exact hc (hce ▸ hd)
    have h2 := b6 c fun e he hce => by
      obtain ⟨d, hd, rfl⟩ := List.mem_map.1 he
      exact hc (hce ▸ hd)
    rw [ea, eb]
    exact congrArg₂ (· + ·) h1 h2
  have htight := addBSI_tight (h := b.1) (own := o2) a.2 b.2 (by rw [eb]; exact b3) ha2 hb2
  have hlen : s.2.length ≤ 64 := by
    refine Nat.le_of_not_lt fun hc => ?_
    obtain ⟨n, hn⟩ : ∃ n, (sets s.1 s.2).length = n + 1 := ⟨s.2.length - 1, by simp only [sets, List.length_map]; omega⟩
    obtain ⟨c, hcm⟩ := List.exists_mem_of_ne_nil _ (Tight.last htight hn)
    have hbit : (value (sets s.1 s.2) c).testBit n = true := by rw [value_testBit]; simpa using hcm
    have hge := Nat.ge_two_pow_of_testBit hbit
    have : (2 : Nat) ^ 64 ≤ 2 ^ n := Nat.pow_le_pow_right (by omega) (by simp only [sets, List.length_map] at hn; omega)
    by_cases hcc : c ∈ cols
    · have := hxy c hcc; have := hin c hcc; omega
    · have := hout c hcc; omega
  have hp := pivotHigh_spec s.2.reverse 0 none none f2 f3 (Or.inl rfl)
    (fun o ho => (hrows o (List.mem_reverse.1 ho)).ext f1) (by simpa using hlen) (by simp)
  have ht := hp.told
  have hw := walk_ranked (sets f.1 s.2.reverse) (columns f.1 f.2) (by simpa [sets] using hlen) (columns_sorted f2 f3)
  have e1 : (sets f.1 s.2.reverse).reverse = sets s.1 s.2 := by rw [← hsets]; simp [sets]
  rw [e1, hcols] at hw
  show told (pivotHigh f.1 s.2.reverse f.2 0 none none).calls = _
  rw [ht]
  show walk (sets f.1 s.2.reverse) (columns f.1 f.2) 0 = _
  rw [hcols, hw]
  unfold ranked
  congr 1
  exact List.map_congr_left fun c hc => by rw [hin c hc]

/-- Witness: 1 + 2, 2 + 2 and 1 + 0. -/
example : (∀ c ∈ [3, 7, 1048577], (c % 3) + 2 < 2 ^ 64) ∧
    (let a := buildBsi [] ([(3, 1), (7, 2), (1048577, 1)].foldl (fun bs e => insert bs e.1 e.2) [])
     let b := buildBsi a.1 ([(3, 2), (7, 2), (1048577, 0)].foldl (fun bs e => insert bs e.1 e.2) [])
     let s := addBSI b.1 a.2 b.2
     let f := newRow s.1 [] [3, 7, 1048577]
     (pivotDescending f.1 s.2 f.2 0 none none).calls = [(4, [7]), (3, [3]), (1, [1048577])]) := by
  constructor <;> decide +kernel

/-- Non-vacuity: containers 0, 1, 0 again. -/
example : (let out := ([5, 70000, 3, 70001].foldl RowBuilder.add {}).build []
     (columns out.1 out.2.1, count out.2.1)) = ([3, 5, 70000, 70001], 4) ∧
    [5, 70000, 3, 70001].IsChain (fun a b : Nat => a / 2 ^ 16 = b / 2 ^ 16 → a < b) := by
  refine ⟨by decide +kernel, by simp⟩

/-- **C61 fails** for a column added twice: the container counts it twice. -/
theorem C61_refuted : ∃ vs : List Nat, vs = [5, 5] ∧
    (let out := (vs.foldl RowBuilder.add {}).build []
     columns out.1 out.2.1 = [5] ∧ count out.2.1 = 2) := ⟨_, rfl, by decide +kernel⟩

end Verif.Rw
