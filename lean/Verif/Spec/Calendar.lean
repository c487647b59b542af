/-!
# Specification: the proleptic Gregorian calendar, by counting days
-/
namespace Verif.Cal

/-- Leap years. -/
def leap (y : Nat) : Bool := y % 4 = 0 && (y % 100 ≠ 0 || y % 400 = 0)

def yearLen (y : Nat) : Nat := if leap y then 366 else 365

def monthLen (y m : Nat) : Nat :=
  match m with
  | 1 => 31 | 2 => if leap y then 29 else 28 | 3 => 31 | 4 => 30 | 5 => 31 | 6 => 30
  | 7 => 31 | 8 => 31 | 9 => 30 | 10 => 31 | 11 => 30 | 12 => 31 | _ => 0

/-- Days of years 0 … y-1. -/
def daysBeforeYear : Nat → Nat
  | 0 => 0
  | y + 1 => daysBeforeYear y + yearLen y

/-- Days of months 1 … m-1 of year y. -/
def daysBeforeMonth (y : Nat) : Nat → Nat
  | 0 => 0
  | m + 1 => daysBeforeMonth y m + monthLen y m

structure Date where
  y : Nat
  m : Nat
  d : Nat
deriving DecidableEq, Repr

def Date.Valid (t : Date) : Prop := 1 ≤ t.m ∧ t.m ≤ 12 ∧ 1 ≤ t.d ∧ t.d ≤ monthLen t.y t.m

/-- Days from 0000-01-01. -/
def Date.dayNo (t : Date) : Nat := daysBeforeYear t.y + daysBeforeMonth t.y t.m + (t.d - 1)

/-- 1970-01-01 is day number 719528 (`epoch`, Props/Time.lean). -/
def epochDay : Nat := 719528

/-- `t` is the calendar date, and `h` the clock hour, of the instant `ns` nanoseconds after 1970-01-01T00:00 UTC. -/
def IsTime (ns : Int) (t : Date) (h : Nat) : Prop :=
  t.Valid ∧ h < 24 ∧
  3600000000000 * (24 * ((t.dayNo : Int) - epochDay) + h) ≤ ns ∧
  ns < 3600000000000 * (24 * ((t.dayNo : Int) - epochDay) + h + 1)

end Verif.Cal
