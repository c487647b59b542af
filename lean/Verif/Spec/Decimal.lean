import Verif.Model.Bytes
/-! # Decimal text -/
namespace Verif

/-- The bytes of a text in ASCII. -/
def ascii (s : String) : Bytes := s.toList.map fun c => UInt8.ofNat c.toNat

/-- The number that a text of decimal digits spells. -/
def digitsValue (s : Bytes) : Nat := s.foldl (fun a c => 10 * a + (c.toNat - 48)) 0

/-- `s` is the decimal text of `n`: digits, without leading zeros, at least one. -/
def NatText (n : Nat) (s : Bytes) : Prop :=
  s ≠ [] ∧ (∀ c ∈ s, 48 ≤ c.toNat ∧ c.toNat ≤ 57) ∧ (s.head? = some 48 → s = [48]) ∧ digitsValue s = n

/-- `s` is the decimal text of `i`, with a minus sign if `i` is negative. -/
def IntText (i : Int) (s : Bytes) : Prop :=
  (0 ≤ i ∧ NatText i.natAbs s) ∨ (i < 0 ∧ ∃ t, s = 45 :: t ∧ NatText i.natAbs t)

end Verif
