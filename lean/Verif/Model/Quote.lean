import Verif.Model.Render
/-!
# `%q`: Go's quoted strings

The `fmt.Fprintf(b, "%q", …)` of internal/render/attribute.go:22-23, that is `strconv.Quote` of Go's library, with the UTF-8 decoder and encoder that it uses
(`unicode/utf8`). Which characters above U+00FF are printable (the tables of `strconv/isprint.go`) is a parameter.
-/
namespace Verif.Qt
open Rd (hexDigit)

/-- `utf8.RuneError` -/
def runeError : Nat := 0xFFFD

/-- The tables `first` and `acceptRanges` of Go's `unicode/utf8`, for internal/render/attribute.go:23, of bytes from 0x80: the number of bytes of a sequence that starts with `b`, and the least
and the greatest second byte; `none`: no sequence starts with it. -/
def first (b : Nat) : Option (Nat × Nat × Nat) :=
  if b < 0xC2 then none
  else if b < 0xE0 then some (2, 0x80, 0xBF)
  else if b = 0xE0 then some (3, 0xA0, 0xBF)
  else if b = 0xED then some (3, 0x80, 0x9F)
  else if b < 0xF0 then some (3, 0x80, 0xBF)
  else if b = 0xF0 then some (4, 0x90, 0xBF)
  else if b < 0xF4 then some (4, 0x80, 0xBF)
  else if b = 0xF4 then some (4, 0x80, 0x8F)
  else none

/-- A byte that continues a sequence: `locb`, `hicb` of Go's `unicode/utf8`, for internal/render/attribute.go:23. -/
def isCont (b : Nat) : Bool := 0x80 ≤ b && b ≤ 0xBF

/-- `utf8.DecodeRuneInString` of Go's library, for internal/render/attribute.go:23, of a string that starts with the byte `b`, which is 0x80 or more, and goes on with `s`: the rune and
the number of bytes. -/
def decodeRune (b : Nat) (s : Bytes) : Nat × Nat :=
  match first b with
  | none => (runeError, 1)
  | some (sz, lo, hi) =>
    if s.length + 1 < sz then (runeError, 1)
    else
      let s1 := (s.getD 0 0).toNat
      if s1 < lo || hi < s1 then (runeError, 1)
      else if sz ≤ 2 then (b % 32 * 64 + s1 % 64, 2)
      else
        let s2 := (s.getD 1 0).toNat
        if !isCont s2 then (runeError, 1)
        else if sz ≤ 3 then (b % 16 * 4096 + s1 % 64 * 64 + s2 % 64, 3)
        else
          let s3 := (s.getD 2 0).toNat
          if !isCont s3 then (runeError, 1)
          else (b % 8 * 262144 + s1 % 64 * 4096 + s2 % 64 * 64 + s3 % 64, 4)

/-- `utf8.AppendRune` of Go's library, for internal/render/attribute.go:23. -/
def encodeRune (r : Nat) : Bytes :=
  if r ≤ 0x7F then [UInt8.ofNat r]
  else if r ≤ 0x7FF then [UInt8.ofNat (0xC0 + r / 64), UInt8.ofNat (0x80 + r % 64)]
  else if r > 0x10FFFF || (0xD800 ≤ r && r ≤ 0xDFFF) then [0xEF, 0xBF, 0xBD]
  else if r ≤ 0xFFFF then [UInt8.ofNat (0xE0 + r / 4096), UInt8.ofNat (0x80 + r / 64 % 64), UInt8.ofNat (0x80 + r % 64)]
  else [UInt8.ofNat (0xF0 + r / 262144), UInt8.ofNat (0x80 + r / 4096 % 64), UInt8.ofNat (0x80 + r / 64 % 64), UInt8.ofNat (0x80 + r % 64)]

/-- `strconv.IsPrint` of Go's library, for internal/render/attribute.go:23. `above`: the tables for runes above 0xFF. -/
def isPrint (above : Nat → Bool) (r : Nat) : Bool :=
  if r ≤ 0xFF then
    if 0x20 ≤ r && r < 0x7F then true
    else if 0xA1 ≤ r && r ≤ 0xFF then r != 0xAD
    else false
  else above r

/-- The last `n` hexadecimal digits of `r`. -/
def hexDigits : Nat → Nat → Bytes
  | 0, _ => []
  | n + 1, r => hexDigits n (r / 16) ++ [hexDigit (r % 16)]

/-- `appendEscapedRune` of Go's `strconv` (the quote is `"`, neither `ASCIIonly` nor `graphicOnly`), for internal/render/attribute.go:23. -/
def escapedRune (above : Nat → Bool) (r : Nat) : Bytes :=
  if r = 34 ∨ r = 92 then [92, UInt8.ofNat r]
  else if isPrint above r then encodeRune r
  else if r = 7 then [92, 97]
  else if r = 8 then [92, 98]
  else if r = 12 then [92, 102]
  else if r = 10 then [92, 110]
  else if r = 13 then [92, 114]
  else if r = 9 then [92, 116]
  else if r = 11 then [92, 118]
  else if r < 32 ∨ r = 0x7F then 92 :: 120 :: hexDigits 2 r
  else if r > 0x10FFFF ∨ (0xD800 ≤ r ∧ r ≤ 0xDFFF) then 92 :: 117 :: hexDigits 4 runeError
  else if r < 0x10000 then 92 :: 117 :: hexDigits 4 r
  else 92 :: 85 :: hexDigits 8 r

/-- The rune at the front of `b :: s` and its width: the first lines of the loop of `appendQuotedWith` of Go's `strconv`, for internal/render/attribute.go:23. -/
def front (b : UInt8) (s : Bytes) : Nat × Nat := if b.toNat < 0x80 then (b.toNat, 1) else decodeRune b.toNat s

/-- The loop of `appendQuotedWith` of Go's `strconv`, for internal/render/attribute.go:23. -/
def quoteBody (above : Nat → Bool) : Bytes → Bytes
  | [] => []
  | b :: s =>
    (if (front b s).2 = 1 ∧ (front b s).1 = runeError then 92 :: 120 :: [hexDigit (b.toNat / 16), hexDigit (b.toNat % 16)]
      else escapedRune above (front b s).1) ++ quoteBody above (s.drop ((front b s).2 - 1))
termination_by s => s.length

/-- `strconv.Quote` of Go's library, for internal/render/attribute.go:23. -/
def quote (above : Nat → Bool) (s : Bytes) : Bytes := 34 :: (quoteBody above s ++ [34])

/-- internal/render/attribute.go:20-60: the printing of leaves, with `%q`. `double`: `%v` of a double. -/
def fmt (above : Nat → Bool) (double : Nat → Bytes) : Rd.Fmt := { quote := quote above, double := double }

end Verif.Qt
