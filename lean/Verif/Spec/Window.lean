import Verif.Spec.Scan
/-!
# Which times a window of hours, days, months or years takes in
-/
namespace Verif
open Tm Cal

/-- The name of a period in the index: `std_YYYY`, `std_YYYYMM`, `std_YYYYMMDD`, `std_YYYYMMDDHH`. -/
def unitName : TUnit → Date → Nat → Bytes
  | .Y, t, _ => viewPrefix ++ pad4 t.y
  | .M, t, _ => viewPrefix ++ pad4 t.y ++ pad2 t.m
  | .D, t, _ => viewPrefix ++ pad4 t.y ++ pad2 t.m ++ pad2 t.d
  | .H, t, h => viewPrefix ++ pad4 t.y ++ pad2 t.m ++ pad2 t.d ++ pad2 h

/-- `v` is the name of the hour (day, month, year) of the instant `x`. -/
def PeriodName (u : TUnit) (x : Int) (v : Bytes) : Prop := ∃ t h, IsTime x t h ∧ v = unitName u t h

/-- Two instants lie in the same hour (day, month, year). -/
def SamePeriod (u : TUnit) (x y : Int) : Prop := ∃ s h t k, IsTime x s h ∧ IsTime y t k ∧
  match u with
  | .Y => s.y = t.y
  | .M => s.y = t.y ∧ s.m = t.m
  | .D => s = t
  | .H => s = t ∧ h = k

/-- What one wants of the views of a window: they name exactly the periods that have a moment in the window. -/
def Covers (vbr : Int → Int → TUnit → List Bytes) : Prop := ∀ a b u v, Int64 a → Int64 b →
  (v ∈ vbr a b u ↔ ∃ x, a ≤ x ∧ x < b ∧ PeriodName u x v)

/-- What the library takes in: hours at whole steps from the start of the window, as long as the step lies before its end; days,
months and years from that of the start to the last one *before* that of the end. -/
def Selected : TUnit → Int → Int → Int → Prop
  | .H, a, b, x => ∃ k : Nat, a + k * 3600000000000 < b ∧ (a + k * 3600000000000) / 3600000000000 = x / 3600000000000
  | .D, a, b, x => a / 86400000000000 ≤ x / 86400000000000 ∧ x / 86400000000000 < b / 86400000000000
  | .M, a, b, x => ∃ s h t k r l, IsTime a s h ∧ IsTime b t k ∧ IsTime x r l ∧ 12 * s.y + s.m ≤ 12 * r.y + r.m ∧ 12 * r.y + r.m < 12 * t.y + t.m
  | .Y, a, b, x => ∃ s h t k r l, IsTime a s h ∧ IsTime b t k ∧ IsTime x r l ∧ s.y ≤ r.y ∧ r.y < t.y

/-- A range of months that begins after the 28th and ends in the next month. -/
def ShortMonths (a b : Int) : Prop := ∃ s h t k, IsTime a s h ∧ IsTime b t k ∧ 28 < s.d ∧ 12 * t.y + t.m = 12 * s.y + s.m + 1

/-- The time a sample is filed under, as a signed number. -/
def St.Offered.time (o : St.Offered) : Int := toInt64 (St.startOf o.sample.data)

end Verif
