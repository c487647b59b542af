import Verif.Spec.Quote
import Verif.Spec.RenderText
/-! # Tables whose columns line up -/
namespace Verif.Tw
open Rd (Each)

/-- Text that a table takes as it is: no tab, newline, vertical tab or form feed, and no byte 0xFF. -/
def Clean (t : Bytes) : Prop := ∀ b ∈ t, b ≠ 9 ∧ b ≠ 10 ∧ b ≠ 11 ∧ b ≠ 12 ∧ b ≠ 255

/-- `t` has `n` characters; bytes that are not part of one count as one each. -/
def Chars (t : Bytes) (n : Nat) : Prop := ∃ l, Qt.Reading t l ∧ l.length = n

/-- A row: some cells, each ended by a tab, and the rest of the line. -/
structure Row where
  cells : List Bytes
  last : Bytes

/-- A row as it is written. -/
def Row.text (r : Row) : Bytes := (r.cells.flatMap fun c => c ++ ascii "\t") ++ r.last ++ ascii "\n"

/-- `p` is the cell `c`, filled up with spaces to `w` characters, on its right, or on its left. -/
def Padded (right : Bool) (w : Nat) (c p : Bytes) : Prop := ∃ n k, Chars c n ∧ n + k = w ∧
  p = if right then List.replicate k 32 ++ c else c ++ List.replicate k 32

/-- A line of the table: every cell filled up to the width of its column, and the rest of the line as it is. -/
def LineLaid (right : Bool) (w : Nat → Nat) (r : Row) (t : Bytes) : Prop := ∃ ps : List Bytes, ps.length = r.cells.length ∧
  (∀ (j : Nat) c p, r.cells[j]? = some c → ps[j]? = some p → Padded right (w j) c p) ∧ t = ps.flatten ++ r.last ++ ascii "\n"

/-- The table: one line for each row, in order; every column is as wide as its widest cell, and one more. -/
def Laid (right : Bool) (rows : List Row) (out : Bytes) : Prop := ∃ w : Nat → Nat,
  (∀ r ∈ rows, ∀ (j : Nat) c n, r.cells[j]? = some c → Chars c n → n + 1 ≤ w j) ∧
  (∀ (j : Nat), (∃ r ∈ rows, j < r.cells.length) → ∃ r ∈ rows, ∃ c n, r.cells[j]? = some c ∧ Chars c n ∧ n + 1 = w j) ∧
  ∃ ts, Each (LineLaid right w) rows ts ∧ out = ts.flatten

/-- What is left of a text without spaces, tabs and line ends. -/
def ink (t : Bytes) : Bytes := t.filter fun b => b != 32 && b != 9 && b != 10 && b != 11 && b != 12

mutual
/-- All keys inside are clean. -/
def CleanKeys : Rd.Any → Prop
  | .array l => CleanKeysAll l
  | .kvs l => CleanKeysPairs l
  | _ => True
/-- All keys inside are clean. -/
def CleanKeysAll : List Rd.Any → Prop
  | [] => True
  | a :: l => CleanKeys a ∧ CleanKeysAll l
/-- All keys are clean. -/
def CleanKeysPairs : List (Bytes × Rd.Any) → Prop
  | [] => True
  | (k, a) :: l => Clean k ∧ CleanKeys a ∧ CleanKeysPairs l
end

end Verif.Tw
