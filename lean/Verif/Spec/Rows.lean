import Verif.Model.Rows
/-!
# What users may assume about rows

A row is the set of columns its `Columns` method lists. Combining rows hands segments that occur in only one operand to the
result without copying them; `Safe` describes the calls after which no two rows share a bitmap that one of them may write.
-/
namespace Verif.Rw

/-- The columns of row `i`, as listed by `Columns`. -/
def World.cols (w : World) (i : Nat) : List Nat := columns w.heap (w.row i)

/-- How many of the rows have a segment for shard `m`. -/
def holders (m : Nat) (l : List Row) : Nat := (l.filter (fun r => r.any (fun t => decide (t.shard = m)))).length

/-- The row an operation is allowed to change. -/
def Op.target : Op → Option Nat
  | .setBit i _ => some i
  | .merge i _ => some i
  | _ => none

/-- A call is safe if every segment it hands on uncopied is not writable, or belongs to a row that is given up. -/
def Safe (w : World) : Op → Prop
  | .merge i j => ∀ s ∈ w.row j, s.writable = true → ∃ t ∈ w.row i, t.shard = s.shard
  | .union i js => ∀ k ∈ i :: js, ∀ s ∈ w.row k, s.writable = true → 2 ≤ holders s.shard ((i :: js).map w.row)
  | .xor i j => (∀ s ∈ w.row i, s.writable = true → ∃ t ∈ w.row j, t.shard = s.shard) ∧
      (∀ s ∈ w.row j, s.writable = true → ∃ t ∈ w.row i, t.shard = s.shard)
  | .difference i js => ∀ s ∈ w.row i, s.writable = true → ∃ j ∈ js, ∃ t ∈ w.row j, t.shard = s.shard
  | _ => True

/-- A program all of whose calls are safe. -/
inductive SafeRun : World → Prop where
  | init : SafeRun { heap := [], rows := [] }
  | step {w : World} (op : Op) : SafeRun w → Safe w op → SafeRun (step w op)

end Verif.Rw
