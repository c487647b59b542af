import Verif.Model.Parse
/-!
# internal/render/unit.go:23: numbers of bytes

`humanize.IBytes` of github.com/dustin/go-humanize v1.0.1 (bytes.go `humanateBytes`), with Go's floating point arithmetic. The logarithm (`math.Log(float64(s)) / math.Log(1024)`, rounded down) is a
parameter: what is asked of it is in Spec/Humanize.lean. `math.Pow(1024, e)` is exact: a power of two.
-/
namespace Verif.Hu
open Un

/-- bytes.go `IBytes`: `B`, `KiB`, `MiB`, `GiB`, `TiB`, `PiB`, `EiB`. -/
def sizes : List Bytes := [[66], [75, 105, 66], [77, 105, 66], [71, 105, 66], [84, 105, 66], [80, 105, 66], [69, 105, 66]]

/-- strconv/decimal.go `Round`: a fraction rounded to a whole number, halves to the even one. -/
def roundEven (a b : Nat) : Nat := if b < 2 * (a % b) ∨ (2 * (a % b) = b ∧ a / b % 2 = 1) then a / b + 1 else a / b

/-- bytes.go `humanateBytes`: `math.Floor(float64(s)/math.Pow(base, e)*10+0.5)`, for `r = float64(s)`. The product with 10 and the sum are rounded; they are kept as fractions over `1024 ^ e` and
`2 * 1024 ^ e`, which does not matter to the rounding. -/
def tenths (r e : Nat) : Nat := round53 (2 * round53 (r * 10) + 2 ^ (10 * e)) / 2 ^ (10 * e + 1)

/-- `val`, the quotient of `n` and 10, is `quoM n 10 / scale`. -/
def scale : Nat := 2 ^ (quoE 10 + 1)

/-- `%.0f` if `val` is 10 or more, `%.1f` otherwise: exact decimals, rounded. -/
def valText (n : Nat) : Bytes :=
  let v := quoM n 10
  if v < 10 * scale then
    let t := roundEven (v * 10) scale
    dec (t / 10) ++ 46 :: dec (t % 10)
  else dec (roundEven v scale)

/-- bytes.go `humanateBytes`; `none`: the index is out of range, a panic. -/
def text (log : Nat → Nat) (s : Nat) : Option Bytes :=
  if s < 10 then some (dec s ++ [32, 66])
  else match sizes[log (round53 s)]? with
    | none => none
    | some suffix => some (valText (tenths (round53 s) (log (round53 s))) ++ 32 :: suffix)

/-- What Go leaves open: the logarithm, and the conversion of numbers that an unsigned 64-bit integer cannot hold. -/
structure Open where
  log : Nat → Nat
  outOfRange : Except Nat Double → Nat

/-- unit.go:23 `uint64(value)`. -/
def toUint64 (P : Open) (v : Except Nat Double) : Nat :=
  match v with
  | .ok d => if 0 ≤ d.trunc ∧ d.trunc < 2 ^ 64 then d.trunc.toNat else P.outOfRange v % 2 ^ 64
  | .error _ => P.outOfRange v % 2 ^ 64

/-- unit.go:23. -/
def iBytes (P : Open) (v : Except Nat Double) : Option Bytes := text P.log (toUint64 P v)

end Verif.Hu
