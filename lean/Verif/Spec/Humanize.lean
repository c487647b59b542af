import Verif.Model.Humanize
import Verif.Spec.Float
/-! # Sizes -/
namespace Verif.Hu

/-- The unit of `1024 ^ e` bytes. -/
def unitName : Nat → Bytes
  | 0 => ascii "B"
  | 1 => ascii "KiB"
  | 2 => ascii "MiB"
  | 3 => ascii "GiB"
  | 4 => ascii "TiB"
  | 5 => ascii "PiB"
  | _ => ascii "EiB"

/-- What is asked of the logarithm: it is right, but for numbers next to a power of 1024. -/
def Near (log : Nat → Nat) : Prop :=
  ∀ n, 10 ≤ n → 1024 ^ log n * (2 ^ 40 - 1) ≤ n * 2 ^ 40 ∧ n * (2 ^ 40 - 1) < 1024 ^ (log n + 1) * 2 ^ 40

/-- A number of tenths: with its tenths below 10, otherwise as the nearest whole number (the even one of two). -/
def shown (n : Nat) : Bytes :=
  if n < 100 then dec (n / 10) ++ ascii "." ++ dec (n % 10)
  else dec (if n % 10 < 5 ∨ (n % 10 = 5 ∧ n / 10 % 2 = 0) then n / 10 else n / 10 + 1)

/-- Reading a size: a number, a space and a unit. -/
def readSize (t : Bytes) : Option ℚ :=
  match t.dropWhile (· != 32) with
  | [] => none
  | _ :: u => match (List.range 7).find? (fun e => unitName e == u) with
    | none => none
    | some e => (Fp.readAbs (t.takeWhile (· != 32))).map (· * 1024 ^ e)

end Verif.Hu
