import Verif.Model.Render
/-!
# internal/render/unit.go: numbers with units

Floating point numbers are IEEE 754 doubles: `± m * 2 ^ e`. A product is rounded to 53 significant bits, ties to even. (A product too small
for that, a subnormal number, is below a nanosecond whatever its rounding.) Conversion of a product beyond 2^63 to an integer is left
open by Go: it is a parameter, like the printing of numbers without unit (`fmt.Sprint`) and of bytes (`humanize.IBytes`).
-/
namespace Verif.Un

/-- A finite double: `(-1)^neg * m * 2^e`. -/
structure Double where
  neg : Bool
  m : Nat
  e : Int

/-- Rounding to 53 significant bits, to the nearest, ties to even. -/
def round53 (n : Nat) : Nat :=
  let k := n.log2 + 1 - 53
  let q := n / 2 ^ k
  let r := n % 2 ^ k
  if 2 ^ k < 2 * r ∨ (2 * r = 2 ^ k ∧ q % 2 = 1) then (q + 1) * 2 ^ k else q * 2 ^ k

/-- `metricsv1.NumberDataPoint.Value`; `special`: an infinity or not a number. -/
inductive Number where
  | int (i : Int)
  | double (d : Double)
  | special (bits : Nat)
  | unset

/-- internal/render/metrics.go:127-134 `numericDataValue`; `Except.error`: not a finite number. -/
def value : Number → Except Nat Double
  | .int i => .ok ⟨decide (i < 0), round53 i.natAbs, 0⟩
  | .double d => .ok d
  | .special b => .error b
  | .unset => .ok ⟨false, 0, 0⟩

/-- `float64 * float64(k)` for a duration constant `k`, which is exact. -/
def mul (d : Double) (k : Nat) : Double := ⟨d.neg, round53 (d.m * k), d.e⟩

/-- The integer part, towards zero. -/
def Double.trunc (d : Double) : Int :=
  let n := if 0 ≤ d.e then d.m * 2 ^ d.e.toNat else d.m / 2 ^ (-d.e).toNat
  if d.neg then -(n : Int) else n

/-- What is left open. -/
structure Env where
  overflow : Double → Int
  specialNs : Nat → Nat → Int
  sprint : Except Nat Double → Bytes
  iBytes : Except Nat Double → Bytes

/-- `time.Duration(x)` for a float `x`. -/
def toDuration (E : Env) (d : Double) : Int := if d.trunc.natAbs < 2 ^ 63 then d.trunc else E.overflow d

/-- Go's time/time.go `fmtFrac`: digits are put in front of `acc`, the last one first; zeros at the end are omitted. What is left. -/
def fracLoop : Nat → Nat → Bool → Bytes → Bytes × Nat
  | 0, v, print, acc => (if print then 46 :: acc else acc, v)
  | p + 1, v, print, acc =>
    let print := print || v % 10 != 0
    fracLoop p (v / 10) print (if print then digit (v % 10) :: acc else acc)

/-- A number with `prec` digits after the point, in front of `acc`; `fmtInt` writes plain decimal digits. -/
def fixed (v prec : Nat) (acc : Bytes) : Bytes :=
  let r := fracLoop prec v false acc
  dec r.2 ++ r.1

/-- Go's time/time.go `Duration.format` of a duration that is not negative. -/
def durNat (u : Nat) : Bytes :=
  if u < 1000000000 then
    if u = 0 then [48, 115]
    else if u < 1000 then fixed u 0 [110, 115]
    else if u < 1000000 then fixed u 3 [194, 181, 115]
    else fixed u 6 [109, 115]
  else
    let r := fracLoop 9 u false [115]
    let s := dec (r.2 % 60) ++ r.1
    let u := r.2 / 60
    if 0 < u then
      let s := dec (u % 60) ++ 109 :: s
      let u := u / 60
      if 0 < u then dec u ++ 104 :: s else s
    else s

/-- Go's `Duration.String`. -/
def durText (d : Int) : Bytes := if d < 0 then 45 :: durNat d.natAbs else durNat d.natAbs

/-- unit.go:11-21: the units of time. -/
def factor (unit : Bytes) : Option Nat :=
  if unit = [104] then some 3600000000000
  else if unit = [109] then some 60000000000
  else if unit = [115] then some 1000000000
  else if unit = [109, 115] then some 1000000
  else if unit = [110, 115] then some 1
  else none

/-- unit.go:10-27 `formatUnit`. -/
def formatUnit (E : Env) (v : Except Nat Double) (unit : Bytes) : Bytes :=
  match factor unit with
  | some k => durText (match v with
    | .ok d => toDuration E (mul d k)
    | .error b => E.specialNs b k)
  | none => if unit = [66, 121] then E.iBytes v else E.sprint v

/-- internal/render/metrics.go:116: the cell of a data point. -/
def cell (E : Env) (n : Number) (unit : Bytes) : Bytes := formatUnit E (value n) unit

end Verif.Un
