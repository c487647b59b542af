import Verif.Model.Unit
/-!
# internal/render/attribute.go:29, unit.go:25: printing doubles

`fmt.Fprintf("%v")` and `fmt.Sprint` of a float64 are `strconv.AppendFloat(v, 'g', -1, 64)` (fmt/format.go `fmtFloat`), with a plus sign before an
infinity. The formatting (strconv/ftoa.go `formatDigits`, `fmtE`, `fmtF`) is transcribed. The digits themselves (Ryu's algorithm, `ryuFtoaShortest`) are a
parameter: what is asked of them is in Spec/Float.lean, and is what `FormatFloat` promises.
-/
namespace Verif.Fp

/-- strconv's `decimalSlice`: digits, and where the point is: `0.digits * 10 ^ dp`. -/
structure Dec where
  digits : Bytes
  dp : Int
deriving DecidableEq

/-- ftoa.go `fmtE`: the exponent, two or three digits (the exponents of doubles are below 1000: `exp_bound`). -/
def expText (x : Int) : Bytes :=
  let n := x.natAbs
  (if x < 0 then 45 else 43) :: (if n < 10 then [48, digit n] else if n < 100 then [digit (n / 10), digit (n % 10)]
    else [digit (n / 100 % 10), digit (n / 10 % 10), digit (n % 10)])

/-- ftoa.go `fmtE` with all digits (`prec = nd - 1`): the first one, a point and the others if there are any, and the exponent. -/
def fmtE (d : Dec) : Bytes :=
  let head := match d.digits with
    | [] => [48]
    | c :: _ => [c]
  let more := if 1 < d.digits.length then 46 :: d.digits.drop 1 else []
  head ++ more ++ 101 :: expText (if d.digits = [] then 0 else d.dp - 1)

/-- ftoa.go `fmtF`: the digit at a position after the point, a zero if there is none. -/
def fracDigit (d : Dec) (i : Nat) : UInt8 :=
  let j := d.dp + i
  if 0 ≤ j ∧ j < d.digits.length then d.digits.getD j.toNat 48 else 48

/-- ftoa.go `fmtF` with `prec = max(nd - dp, 0)`. -/
def fmtF (d : Dec) : Bytes :=
  let whole := if 0 < d.dp then d.digits.take d.dp.toNat ++ List.replicate (d.dp.toNat - d.digits.length) 48 else [48]
  let prec := ((d.digits.length : Int) - d.dp).toNat
  whole ++ if 0 < prec then 46 :: (List.range prec).map (fracDigit d) else []

/-- ftoa.go `formatDigits`, case 'g', shortest: `eprec` is 6. -/
def formatG (d : Dec) : Bytes := if d.dp - 1 < -4 ∨ 6 ≤ d.dp - 1 then fmtE d else fmtF d

/-- The digits of `m * 2 ^ e`; ftoa.go `FormatFloat`: none for zero. -/
def digitsOf (shortest : Nat → Int → Dec) (m : Nat) (e : Int) : Dec := if m = 0 then ⟨[], 0⟩ else shortest m e

/-- A finite number. -/
def finite (shortest : Nat → Int → Dec) (neg : Bool) (m : Nat) (e : Int) : Bytes :=
  (if neg then [45] else []) ++ formatG (digitsOf shortest m e)

/-- The sign of a double, by its bits. -/
def signBit (bits : Nat) : Bool := bits / 2 ^ 63 % 2 == 1
def expBits (bits : Nat) : Nat := bits / 2 ^ 52 % 2 ^ 11
def fracBits (bits : Nat) : Nat := bits % 2 ^ 52

/-- ftoa.go `genericFtoa`: mantissa and exponent of a finite double. -/
def mantissa (bits : Nat) : Nat := if expBits bits = 0 then fracBits bits else 2 ^ 52 + fracBits bits
def exponent (bits : Nat) : Int := (if expBits bits = 0 then 1 else (expBits bits : Int)) - 1075

/-- ftoa.go `genericFtoa`, and fmt/format.go `fmtFloat`: infinities have a sign in any case. -/
def special (bits : Nat) : Bytes :=
  if fracBits bits ≠ 0 then [78, 97, 78] else if signBit bits then [45, 73, 110, 102] else [43, 73, 110, 102]

/-- internal/render/attribute.go:29: `%v` of a double. -/
def double (shortest : Nat → Int → Dec) (bits : Nat) : Bytes :=
  if expBits bits = 2047 then special bits else finite shortest (signBit bits) (mantissa bits) (exponent bits)

/-- internal/render/unit.go:25: `fmt.Sprint(value)`. -/
def sprint (shortest : Nat → Int → Dec) : Except Nat Un.Double → Bytes
  | .ok d => finite shortest d.neg d.m d.e
  | .error bits => special bits

end Verif.Fp
