import Verif.Model.Js
/-!
# github.com/gernest/rbf/quantum `ViewsByTimeRange`

The function that lists the index views of a time range (internal/shards/shards.go:107, internal/dataframe/dataframe.go:82,
internal/view/view.go:50). It is **not part of /repo** and its source is not in the sandbox. This is a transcription of the
public source it was taken from (Pilosa / FeatureBase `viewsByTimeRange`), for UTC times. Only the theorems of
Props/Window.lean that name `viewsByTimeRange` depend on it; everywhere else the list of views is an arbitrary parameter.
-/
namespace Verif.Qm
open Tm Js

def dayNs : Int := 86400000000000

/-- Go `t.AddDate(1, 0, 0)`: the day of the month is normalised by `time.Date`, the clock is kept. -/
def addYear (t : Int) : Int := goDate ((date t).1 + 1) (date t).2.1 (date t).2.2 + t % dayNs

/-- Go `t.AddDate(0, 1, 0)`. -/
def addMonth1 (t : Int) : Int :=
  (if (date t).2.1 = 12 then goDate ((date t).1 + 1) 1 (date t).2.2 else goDate (date t).1 ((date t).2.1 + 1) (date t).2.2) + t % dayNs

/-- quantum `addMonth`: after the 28th, from the first of the month, on the hour. -/
def addMonth (t : Int) : Int :=
  if (date t).2.2 > 28 then addMonth1 (goDate (date t).1 (date t).2.1 1 + hourOf t * hour) else addMonth1 t

/-- quantum `nextYearGTE`. -/
def nextYearGTE (t b : Int) : Bool := decide ((date (addYear t)).1 = (date b).1) || decide (addYear t < b)

/-- quantum `nextMonthGTE`. -/
def nextMonthGTE (t b : Int) : Bool :=
  decide ((date (addMonth1 t)).1 = (date b).1 ∧ (date (addMonth1 t)).2.1 = (date b).2.1) || decide (addMonth1 t < b)

/-- quantum `nextDayGTE`. -/
def nextDayGTE (t b : Int) : Bool := decide (date (t + dayNs) = date b) || decide (t + dayNs < b)

/-- quantum `viewByTimeUnit` for the view `std`. -/
def viewByTimeUnit (u : TUnit) (t : Int) : Bytes :=
  viewPrefix ++ (ymdh t).take (match u with | .Y => 4 | .M => 6 | .D => 8 | .H => 10)

/-- "Walk up from smallest units to largest units." Returns the views and the time reached. `n` bounds the number of rounds
(every round adds at least an hour). -/
def upLoop (q : List TUnit) (b : Int) : Nat → Int → List Bytes × Int
  | 0, t => ([], t)
  | n + 1, t =>
    if ¬ t < b then ([], t)
    else if .H ∈ q ∧ nextDayGTE t b = false then ([], t)
    else if .H ∈ q ∧ hourOf t ≠ 0 then (viewByTimeUnit .H t :: (upLoop q b n (t + hour)).1, (upLoop q b n (t + hour)).2)
    else if .D ∈ q ∧ nextMonthGTE t b = false then ([], t)
    else if .D ∈ q ∧ (date t).2.2 ≠ 1 then (viewByTimeUnit .D t :: (upLoop q b n (t + dayNs)).1, (upLoop q b n (t + dayNs)).2)
    else if .M ∈ q ∧ nextYearGTE t b = false then ([], t)
    else if .M ∈ q ∧ (date t).2.1 ≠ 1 then (viewByTimeUnit .M t :: (upLoop q b n (addMonth t)).1, (upLoop q b n (addMonth t)).2)
    else ([], t)

/-- "Walk back down from largest units to smallest units." -/
def downLoop (q : List TUnit) (b : Int) : Nat → Int → List Bytes
  | 0, _ => []
  | n + 1, t =>
    if ¬ t < b then []
    else if .Y ∈ q ∧ nextYearGTE t b = true then viewByTimeUnit .Y t :: downLoop q b n (addYear t)
    else if .M ∈ q ∧ nextMonthGTE t b = true then viewByTimeUnit .M t :: downLoop q b n (addMonth t)
    else if .D ∈ q ∧ nextDayGTE t b = true then viewByTimeUnit .D t :: downLoop q b n (t + dayNs)
    else if .H ∈ q then viewByTimeUnit .H t :: downLoop q b n (t + hour)
    else []

/-- quantum `ViewsByTimeRange("std", a, b, q)`. -/
def viewsByTimeRange (a b : Int) (u : TUnit) : List Bytes :=
  let n := ((b - a) / hour).toNat + 1
  let w := upLoop [u] b n a
  w.1 ++ downLoop [u] b n w.2

end Verif.Qm
