import Verif.Spec.Decimal
/-!
# Reading a duration

A duration is written as numbers with units, one after another: `1h2m3.5s`, `1.5ms`, with a minus sign in front if it is negative. It is read by
adding them up. The result is in nanoseconds.
-/
namespace Verif.Un

def isDig (b : UInt8) : Bool := decide (48 ≤ b.toNat) && decide (b.toNat < 58)

/-- Nanoseconds of a unit (the last two bytes but one of `µs` are one letter). -/
def unitNs (u : Bytes) : Option Nat :=
  if u = ascii "ns" then some 1
  else if u = [194, 181] ++ ascii "s" then some 1000
  else if u = ascii "ms" then some (1000 * 1000)
  else if u = ascii "s" then some (1000 * 1000 * 1000)
  else if u = ascii "m" then some (60 * (1000 * 1000 * 1000))
  else if u = ascii "h" then some (60 * (60 * (1000 * 1000 * 1000)))
  else none

/-- The digits after a point, if there is one, and the rest. -/
def afterPoint : Bytes → Bytes × Bytes
  | [] => ([], [])
  | b :: r => if b = 46 then (r.takeWhile isDig, r.dropWhile isDig) else ([], b :: r)

/-- Numbers with units, added up. -/
def readParts : Nat → Bytes → Option Nat
  | 0, _ => none
  | fuel + 1, t =>
    let whole := t.takeWhile isDig
    let (frac, t2) := afterPoint (t.dropWhile isDig)
    let unit := t2.takeWhile fun b => !isDig b
    let rest := t2.dropWhile fun b => !isDig b
    match unitNs unit with
    | none => none
    | some F =>
      if whole = [] then none
      else
        let n := digitsValue whole * F + digitsValue frac * F / 10 ^ frac.length
        if rest = [] then some n else (readParts fuel rest).map (n + ·)

/-- The duration that a text spells, in nanoseconds. -/
def readDuration (t : Bytes) : Option Int :=
  match t with
  | [] => none
  | b :: r => if b = 45 then (readParts (r.length + 1) r).map fun n => -(n : Int) else (readParts ((b :: r).length + 1) (b :: r)).map fun n => (n : Int)

/-- Nanoseconds in one of the units of time a metric may have. -/
def metricUnit (u : Bytes) : Option Nat :=
  if u = ascii "h" then some (60 * 60 * 1000000000)
  else if u = ascii "m" then some (60 * 1000000000)
  else if u = ascii "s" then some 1000000000
  else if u = ascii "ms" then some 1000000
  else if u = ascii "ns" then some 1
  else none

end Verif.Un
