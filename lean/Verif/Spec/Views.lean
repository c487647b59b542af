import Verif.Spec.Calendar
import Verif.Model.Time
/-!
# Specification: the four view names of an instant
-/
namespace Verif
open Tm Cal

/-- The views of a calendar time: `std_YYYY`, `std_YYYYMM`, `std_YYYYMMDD`, `std_YYYYMMDDHH`. -/
def specViews (t : Date) (h : Nat) : List Bytes :=
  [viewPrefix ++ pad4 t.y,
   viewPrefix ++ pad4 t.y ++ pad2 t.m,
   viewPrefix ++ pad4 t.y ++ pad2 t.m ++ pad2 t.d,
   viewPrefix ++ pad4 t.y ++ pad2 t.m ++ pad2 t.d ++ pad2 h]

/-- `v` is one of the four views of the instant `ns`. -/
def IsView (ns : Int) (v : Bytes) : Prop := ∃ t h, IsTime ns t h ∧ v ∈ specViews t h

/-- The range of an `int64`, i.e. of the times the program can hold. -/
def Int64 (ns : Int) : Prop := -2 ^ 63 ≤ ns ∧ ns < 2 ^ 63

end Verif
