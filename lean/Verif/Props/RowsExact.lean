import Verif.Lemmas.RowsExact
/-!
# C45, C46, exactly

In a program whose earlier calls were safe, a call is safe exactly if no later `SetBit` on one row can reach another row. The
only programs left open are those in which a row holds all 2^20 columns of a shard, where an unsafe call may have nothing to
expose.
-/
namespace Verif.Rw
open Bt (shardWidth)

/-- No row holds a whole shard. -/
def NoFullShard (w : World) : Prop := ∀ j k, ∃ c, c / shardWidth = k ∧ c ∉ w.cols j

/-- **C46**, exactly: after the call, modifying one row leaves the columns of every other row alone, for all rows and all
columns, if and only if the call was safe. -/
theorem C46_safe_iff (w : World) (hw : SafeRun w) (op : Op) (hv : op.Valid w) (hf : NoFullShard w) :
    Safe w op ↔ ∀ i j c, i ≠ j → j < (step w op).rows.length →
      (step (step w op) (.setBit i c)).cols j = (step w op).cols j := by
  constructor
  · intro hs i j c hne hj
    exact C46_operands_partial _ (SafeRun.step op hw hs) (.setBit i c) j hj (by simpa [Op.target] using hne) (by simp)
  · intro h
    refine Classical.byContradiction fun hn => ?_
    obtain ⟨hi, _, _⟩ := safeRun_inv hw
    obtain ⟨i, j, c, he, hj, -, -, hrow⟩ := unsafe_exposes hi hv hn hf
    have hjl : j < (step w op).rows.length := by
      obtain ⟨_, _, s, _, _, _, _, t, ht, _⟩ := he
      exact row_mem_lt ht
    exact (exposed_breaks (inv_step hi op) he).1 (h i j c he.1 hjl)

/-- **C45**, exactly: after the call and any one `SetBit`, `Count` of every row is the number of its columns, for all rows
and columns, if and only if the call was safe. -/
theorem C45_count_iff (w : World) (hw : SafeRun w) (op : Op) (hv : op.Valid w) (hf : NoFullShard w) :
    Safe w op ↔ ∀ i j c, count ((step (step w op) (.setBit i c)).row j) = ((step (step w op) (.setBit i c)).cols j).length := by
  constructor
  · intro hs i j c
    exact (C45_count_partial _ (SafeRun.step (.setBit i c) (SafeRun.step op hw hs) trivial) j).1
  · intro h
    refine Classical.byContradiction fun hn => ?_
    obtain ⟨hi, _, _⟩ := safeRun_inv hw
    obtain ⟨i, j, c, he, hj, ht, hab, hrow⟩ := unsafe_exposes hi hv hn hf
    refine (exposed_breaks (inv_step hi op) he).2 ?_ (h i j c)
    rw [hrow, C46_operands_partial w hw op j hj ht (fun a b e => absurd e (hab a b))]
    exact (C45_count_partial w hw j).1

/-- Two rows over different shards. -/
def twoShards : World := step (step { heap := [], rows := [] } (.new [5])) (.new [1048577])

/-- Witness for the hypotheses: a safe program without full shards, one safe and one unsafe call. -/
example : SafeRun twoShards ∧ NoFullShard twoShards ∧ (Op.union 0 [1]).Valid twoShards ∧ ¬ Safe twoShards (.union 0 [1]) ∧
    Safe twoShards (.intersect 0 1) ∧ (step (step twoShards (.union 0 [1])) (.setBit 2 9)).cols 0 = [5, 9] := by
  refine ⟨SafeRun.step _ (SafeRun.step _ .init trivial) trivial, ?_, trivial, ?_, trivial, by decide +kernel⟩
  · intro j k
    have h : ∀ c ∈ twoShards.cols j, c = 5 ∨ c = 1048577 := by
      have h0 : twoShards.cols 0 = [5] := by decide +kernel
      have h1 : twoShards.cols 1 = [1048577] := by decide +kernel
      match j with
      | 0 => rw [h0]; simp
      | 1 => rw [h1]; simp
      | n + 2 =>
        have : twoShards.row (n + 2) = [] := by
          have hl : twoShards.rows.length = 2 := by decide +kernel
          simp only [World.row, List.getD_eq_getElem?_getD]
          rw [List.getElem?_eq_none (by omega)]; rfl
        simp only [World.cols]; rw [this]; simp [columns]
    refine ⟨k * shardWidth, by rw [Nat.mul_div_cancel _ (by decide)], fun hc => ?_⟩
    rcases h _ hc with e | e <;> (rw [show shardWidth = 1048576 from rfl] at e; omega)
  · intro h
    have h : ∀ k ∈ [0, 1], ∀ s ∈ twoShards.row k, s.writable = true → 2 ≤ holders s.shard ([0, 1].map twoShards.row) := h
    revert h
    decide +kernel

end Verif.Rw
