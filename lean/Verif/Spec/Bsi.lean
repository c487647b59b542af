import Verif.Model.Bsi
/-!
# What users may assume about bit-sliced integers
-/
namespace Verif.Rw

/-- The value of a column: bit `i` is set if the column is in the `i`-th set. -/
def value : List (List Nat) → Nat → Nat
  | [], _ => 0
  | s :: ss, c => (if c ∈ s then 1 else 0) + 2 * value ss c

/-- The columns of a BSI's rows. -/
def sets (h : Heap) (bsi : List Row) : List (List Nat) := bsi.map (columns h)

/-- Larger values first, columns of equal value ascending. -/
def before (a b : Nat × Nat) : Bool := decide (b.1 < a.1 ∨ (a.1 = b.1 ∧ a.2 ≤ b.2))

/-- The columns with their values, in the order a user wants them. -/
def ranked (val : Nat → Nat) (cols : List Nat) : List (Nat × Nat) := (cols.map fun c => (val c, c)).mergeSort before

/-- What the callback was told, one entry per column. -/
def told (calls : List (Nat × List Nat)) : List (Nat × Nat) := calls.flatMap fun p => p.2.map fun c => (p.1, c)

/-- `offset` entries left out, at most `limit` of the others kept (`none`: no such argument). -/
def page (lim off : Option Nat) (l : List (Nat × Nat)) : List (Nat × Nat) :=
  let l := match off with
    | none => l
    | some o => l.drop o
  match lim with
  | none => l
  | some n => l.take n

end Verif.Rw
