import Verif.Model.Float
import Verif.Spec.Duration
import Mathlib.Algebra.Order.Field.Power
import Mathlib.Algebra.Order.Ring.Rat
/-!
# Doubles as numbers, and texts of numbers

The doubles are the numbers `m * 2 ^ e` with `m < 2 ^ 53` and `-1074 ≤ e`, and their negatives. A number is read as a double by taking the nearest one, and if two are
equally near the one with an even mantissa (IEEE 754).
-/
namespace Verif.Fp

/-- A double that is not negative (the largest exponent plays no role here). -/
def IsDouble (v : ℚ) : Prop := ∃ (m : ℕ) (e : ℤ), m < 2 ^ 53 ∧ -1074 ≤ e ∧ v = m * 2 ^ e

/-- One with an even mantissa. -/
def IsEven (v : ℚ) : Prop := ∃ (m : ℕ) (e : ℤ), 2 * m < 2 ^ 53 ∧ -1074 ≤ e ∧ v = (2 * m : ℕ) * 2 ^ e

/-- `q` is read as the double `v`: no other double is nearer, and if one is as near, `v` is the even one. -/
def Reads (q v : ℚ) : Prop :=
  IsDouble v ∧ ∀ w, IsDouble w → w ≠ v → |q - v| < |q - w| ∨ (|q - v| = |q - w| ∧ IsEven v)

/-- The number `0.digits * 10 ^ dp`. -/
def Dec.value (d : Dec) : ℚ := digitsValue d.digits * 10 ^ (d.dp - (d.digits.length : ℤ))

/-- What `FormatFloat` promises: decimal digits that are read as `v`, and no fewer digits are. -/
structure Shortest (v : ℚ) (d : Dec) : Prop where
  digits : ∀ b ∈ d.digits, Un.isDig b = true
  reads : Reads d.value v
  least : ∀ (n : ℕ) (x : ℤ) (k : ℕ), n < 10 ^ k → Reads (n * 10 ^ x) v → d.digits.length ≤ k

/-- The digits are digits, and they are right for all doubles. -/
structure Right (shortest : Nat → Int → Dec) : Prop where
  digits : ∀ (m : ℕ) (e : ℤ), ∀ b ∈ (shortest m e).digits, Un.isDig b = true
  right : ∀ (m : ℕ) (e : ℤ), 0 < m → IsDouble (m * 2 ^ e) → (m * 2 ^ e : ℚ) < 2 ^ 1024 → Shortest (m * 2 ^ e) (shortest m e)

/-- An exponent: `e`, a sign and digits, or nothing. -/
def readExp : Bytes → Option ℤ
  | [] => some 0
  | b :: r => if b = 101 then match r with
      | [] => none
      | s :: ds => if ds ≠ [] ∧ ds.all Un.isDig then
          if s = 43 then some (digitsValue ds : ℤ) else if s = 45 then some (-(digitsValue ds : ℤ)) else none
        else none
    else none

/-- A number without sign: digits, a point and digits if there is one, and an exponent if there is one. -/
def readAbs (t : Bytes) : Option ℚ :=
  let whole := t.takeWhile Un.isDig
  let r := Un.afterPoint (t.dropWhile Un.isDig)
  if whole = [] then none else (readExp r.2).map fun x : ℤ => (digitsValue (whole ++ r.1) * 10 ^ (x - (r.1.length : ℤ)) : ℚ)

/-- A number, and whether it has a minus sign. -/
def readNumber : Bytes → Option (Bool × ℚ)
  | [] => none
  | b :: r => if b = 45 then (readAbs r).map (true, ·) else (readAbs (b :: r)).map (false, ·)

/-! IEEE 754 binary64: from the top, a bit for the sign, 11 for the exponent, 52 for the fraction. -/

def negative (bits : Nat) : Bool := decide (2 ^ 63 ≤ bits % 2 ^ 64)
def ieeeExp (bits : Nat) : Nat := bits / 2 ^ 52 % 2048
def ieeeFrac (bits : Nat) : Nat := bits % 2 ^ 52

/-- The value of a finite double, without its sign: `1.fraction * 2 ^ (exponent - 1023)`, or `0.fraction * 2 ^ -1022` if all bits of the exponent are zero. -/
def absValue (bits : Nat) : ℚ :=
  if ieeeExp bits = 0 then (ieeeFrac bits : ℚ) / 2 ^ 52 * 2 ^ (-1022 : ℤ) else (1 + (ieeeFrac bits : ℚ) / 2 ^ 52) * 2 ^ ((ieeeExp bits : ℤ) - 1023)

/-- Is it a number, and not an infinity? -/
def Finite (bits : Nat) : Prop := ieeeExp bits ≠ 2047
def IsNaN (bits : Nat) : Prop := ieeeExp bits = 2047 ∧ ieeeFrac bits ≠ 0

end Verif.Fp
