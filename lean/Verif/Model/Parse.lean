import Verif.Model.Unit
/-!
# internal/js/scan.go:46, 147: reading a duration

`Scan.Offset` and `Scan.Ago` hand their text to Go's `time.ParseDuration` (time/format.go). It is modelled here with its arithmetic of 64 bits
and of floating point numbers: a double is `m / 2 ^ e` with `m` rounded to 53 bits.
-/
namespace Verif.Un

/-- `'0' <= c && c <= '9'`. -/
def digitC (c : UInt8) : Bool := decide (48 ≤ c.toNat) && decide (c.toNat ≤ 57)

/-- time/format.go `leadingInt`: the digits in front, as a number, and the rest; `none`: too large. -/
def leadingInt : Nat → Bytes → Option (Nat × Bytes)
  | x, [] => some (x, [])
  | x, c :: s =>
    if digitC c then
      if 2 ^ 63 / 10 < x then none
      else if 2 ^ 63 < x * 10 + (c.toNat - 48) then none
      else leadingInt (x * 10 + (c.toNat - 48)) s
    else some (x, c :: s)

/-- time/format.go `leadingFraction`: the digits in front as a number, ten to the power of how many were read, and the rest. Digits that do not
fit are read over. -/
def leadingFraction : Nat → Nat → Bool → Bytes → Nat × Nat × Bytes
  | x, scale, _, [] => (x, scale, [])
  | x, scale, overflow, c :: s =>
    if digitC c then
      if overflow then leadingFraction x scale true s
      else if (2 ^ 63 - 1) / 10 < x then leadingFraction x scale true s
      else if 2 ^ 63 < x * 10 + (c.toNat - 48) then leadingFraction x scale true s
      else leadingFraction (x * 10 + (c.toNat - 48)) (round53 (scale * 10)) false s
    else (x, scale, c :: s)

/-- time/format.go `unitMap`. -/
def unitMap (u : Bytes) : Option Nat :=
  if u = [110, 115] then some 1
  else if u = [117, 115] then some 1000
  else if u = [194, 181, 115] then some 1000
  else if u = [206, 188, 115] then some 1000
  else if u = [109, 115] then some 1000000
  else if u = [115] then some 1000000000
  else if u = [109] then some 60000000000
  else if u = [104] then some 3600000000000
  else none

/-- `float64(unit) / scale` is `quoM unit scale / 2 ^ (quoE scale + 1)`: more bits than a double has, the last one set if there is a remainder,
rounded. -/
def quoE (scale : Nat) : Nat := 64 + (scale.log2 + 1)

def quoM (unit scale : Nat) : Nat :=
  let n := unit * 2 ^ quoE scale
  round53 (2 * (n / scale) + if n % scale = 0 then 0 else 1)

/-- `uint64(float64(f) * (float64(unit) / scale))`. (A quotient that would be subnormal or, with a scale beyond the largest double, zero makes the
product less than one either way.) -/
def fracNs (f unit scale : Nat) : Nat := round53 (round53 f * quoM unit scale) / 2 ^ (quoE scale + 1)

/-- time/format.go `ParseDuration`: the part after the point; whether there were digits. -/
def fraction : Bytes → Nat × Nat × Bytes × Bool
  | [] => (0, 1, [], false)
  | c :: s =>
    if c = 46 then
      let r := leadingFraction 0 1 false s
      (r.1, r.2.1, r.2.2, r.2.2.length != s.length)
    else (0, 1, c :: s, false)

/-- The value of a number with its unit. -/
def valued (v f scale unit : Nat) : Option Nat :=
  if 2 ^ 63 / unit < v then none
  else
    let v := v * unit
    if 0 < f then
      let v := v + fracNs f unit scale
      if 2 ^ 63 < v then none else some v
    else some v

/-- The unit, and the value of the number in front of it. -/
def united (v f scale : Nat) (s : Bytes) : Option (Nat × Bytes) :=
  let u := s.takeWhile fun c => !(c == 46 || digitC c)
  if u = [] then none
  else match unitMap u with
    | none => none
    | some unit => (valued v f scale unit).map (·, s.dropWhile fun c => !(c == 46 || digitC c))

/-- One round of the loop in `ParseDuration`: a number with its unit, in nanoseconds, and the rest. -/
def one (s : Bytes) : Option (Nat × Bytes) :=
  match s with
  | [] => none
  | c :: _ =>
    if c == 46 || digitC c then
      match leadingInt 0 s with
      | none => none
      | some (v, t) =>
        let r := fraction t
        if t.length == s.length && !r.2.2.2 then none else united v r.1 r.2.1 r.2.2.1
    else none

/-- The loop, `d` so far. (Every round reads something: `fuel` is the length.) -/
def loop : Nat → Nat → Bytes → Option Nat
  | _, d, [] => some d
  | 0, _, _ :: _ => none
  | fuel + 1, d, c :: s =>
    match one (c :: s) with
    | none => none
    | some (v, r) => if 2 ^ 63 < (d + v) % 2 ^ 64 then none else loop fuel ((d + v) % 2 ^ 64) r

/-- After the sign. -/
def unsigned (neg : Bool) (s : Bytes) : Option Int :=
  if s = [48] then some 0
  else if s = [] then none
  else match loop s.length 0 s with
    | none => none
    | some d => if neg then some (-(d : Int)) else if 2 ^ 63 - 1 < d then none else some d

/-- time/format.go `ParseDuration`; `none`: an error. -/
def parseDuration : Bytes → Option Int
  | [] => none
  | c :: s => if c = 45 then unsigned true s else if c = 43 then unsigned false s else unsigned false (c :: s)

end Verif.Un
