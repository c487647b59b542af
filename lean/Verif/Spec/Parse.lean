import Verif.Spec.Duration
/-!
# The durations that scripts write

A duration is a sign, if any, and numbers with units, one after another: `90s`, `1h30m`, `-1.5h`, `.5s`, `+2.m`. A number has digits before or after
its point; the units are `ns`, `us` (also with either of the two letters for micro), `ms`, `s`, `m` and `h`.
-/
namespace Verif.Un

/-- Nanoseconds of a unit. -/
def writtenNs (u : Bytes) : Option Nat :=
  if u = ascii "us" ∨ u = [206, 188] ++ ascii "s" then some 1000 else unitNs u

/-- A number with its unit. -/
structure Piece where
  whole : Bytes
  frac : Option Bytes
  unit : Bytes
  deriving DecidableEq

/-- The digits after the point. -/
def Piece.digits (p : Piece) : Bytes := p.frac.getD []

/-- The point and the digits after it. -/
def pointed : Option Bytes → Bytes
  | none => []
  | some f => ascii "." ++ f

def Piece.text (p : Piece) : Bytes := p.whole ++ pointed p.frac ++ p.unit

/-- A number of nanoseconds `F` is in the unit. -/
structure Piece.Ok (p : Piece) (F : Nat) : Prop where
  whole : ∀ b ∈ p.whole, isDig b = true
  frac : ∀ b ∈ p.digits, isDig b = true
  any : p.whole ≠ [] ∨ p.digits ≠ []
  unit : writtenNs p.unit = some F

/-- `x` is what the piece says in nanoseconds: exactly if its digits are of whole nanoseconds, otherwise the nanoseconds are cut off, up to
a hundredth of a nanosecond. -/
structure Worth (p : Piece) (x : Nat) : Prop where
  exact : ∀ F, writtenNs p.unit = some F → 10 ^ p.digits.length ∣ F →
    x * 10 ^ p.digits.length = digitsValue (p.whole ++ p.digits) * F
  below : ∀ F, writtenNs p.unit = some F →
    100 * x * 10 ^ p.digits.length ≤ 100 * (digitsValue (p.whole ++ p.digits) * F) + 10 ^ p.digits.length
  above : ∀ F, writtenNs p.unit = some F →
    100 * (digitsValue (p.whole ++ p.digits) * F) ≤ (100 * x + 101) * 10 ^ p.digits.length

/-- A sign, if any. -/
def Sign (t : Bytes) (neg : Bool) : Prop := (t = ascii "-" ∧ neg = true) ∨ ((t = [] ∨ t = ascii "+") ∧ neg = false)

/-- The pieces in a text. -/
structure Spelled (s : Bytes) (neg : Bool) (ps : List Piece) : Prop where
  text : ∃ t, Sign t neg ∧ s = t ++ (ps.map Piece.text).flatten
  any : ps ≠ []
  ok : ∀ p ∈ ps, ∃ F, p.Ok F

/-- Zero needs no unit. -/
def Zero (s : Bytes) : Prop := ∃ t neg, Sign t neg ∧ s = t ++ ascii "0"

def signed (neg : Bool) (n : Nat) : Int := if neg then -(n : Int) else n

end Verif.Un
