/-!
# Byte strings, decimal printing, big-endian integers

Go `string` and `[]byte` values are `List UInt8`.
-/
namespace Verif

abbrev Bytes := List UInt8

/-- ASCII code of a decimal digit. -/
def digit (d : Nat) : UInt8 := UInt8.ofNat (48 + d)

/-- Decimal digits with a bound on their number. -/
def decFuel : Nat → Nat → Bytes
  | 0, _ => []
  | f + 1, n => if n < 10 then [digit n] else decFuel f (n / 10) ++ [digit (n % 10)]

/-- `fmt`'s `%d` of an unsigned integer (fmt/format.go `fmtInteger`, base 10, no padding). A number `n` has at most `n + 1`
digits; see `dec_eq` for the plain recursive equation. -/
def dec (n : Nat) : Bytes := decFuel (n + 1) n

/-- `fmt`'s `%d` of a signed integer: a `-` sign for negative values. -/
def decInt : Int → Bytes
  | .ofNat n => dec n
  | .negSucc n => 45 :: dec (n + 1)

/-- One byte of the big-endian encoding. -/
def byteAt (v i : Nat) : UInt8 := UInt8.ofNat (v / 256 ^ i % 256)

/-- internal/translate/translate.go:137-142 `u64tob`: `binary.BigEndian.PutUint64`. The argument is the
mathematical value; Go's `uint64` type reduces it modulo 2^64. -/
def u64tob (v : Nat) : Bytes :=
  [byteAt v 7, byteAt v 6, byteAt v 5, byteAt v 4, byteAt v 3, byteAt v 2, byteAt v 1, byteAt v 0]

/-- internal/translate/translate.go:145 `btou64`: `binary.BigEndian.Uint64` reads the first eight bytes and
panics on fewer; the panic is `none`. -/
def btou64 : Bytes → Option Nat
  | b7 :: b6 :: b5 :: b4 :: b3 :: b2 :: b1 :: b0 :: _ =>
    some (b7.toNat * 256 ^ 7 + b6.toNat * 256 ^ 6 + b5.toNat * 256 ^ 5 + b4.toNat * 256 ^ 4 +
      b3.toNat * 256 ^ 3 + b2.toNat * 256 ^ 2 + b1.toNat * 256 + b0.toNat)
  | _ => none

end Verif
