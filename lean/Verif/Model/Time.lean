import Verif.Model.Bytes
/-!
# Time: Go's civil dates, quantized times and views, scan windows

Times are nanoseconds since 1970-01-01 UTC as `Int`.
-/
namespace Verif.Tm

/-- Go's `int64(x)` of a `uint64` (two's complement), used by internal/transform/transform.go:56 and
internal/dataframe/dataframe.go:145 on the sample's `MinTs`. -/
def toInt64 (x : Nat) : Int := if x < 2 ^ 63 then (x : Int) else (x : Int) - 2 ^ 64

/-- Go `time.Unix(0, ns)`: whole seconds, rounded down. -/
def unixSec (ns : Int) : Int := ns / 1000000000

/-- Days since the epoch and hour of the day (Go `Time.abs`, `absClock`). -/
def unixDay (ns : Int) : Int := unixSec ns / 86400
def hourOf (ns : Int) : Nat := (unixSec ns % 86400 / 3600).toNat

/-- Days between the start of Go's absolute year -292277022399 and 1970-01-01:
719162 days from year 1, and 730692556 cycles of 400 years. -/
def absOffset : Int := 719162 + 730692556 * 146097

/-- Go `time.isLeap`. -/
def goIsLeap (y : Int) : Bool := y % 4 = 0 && (y % 100 ≠ 0 || y % 400 = 0)

/-- Go `time.daysBefore`: days of a non-leap year before each month. -/
def daysBefore : List Nat := [0, 31, 59, 90, 120, 151, 181, 212, 243, 273, 304, 334, 365]

/-- Go `time.absDate`, first part: year and day of the year from the number of absolute days. The shifts `n >> 2` of
the code are `/ 4`. -/
def absYear (d0 : Nat) : Int × Nat :=
  let n := d0 / 146097
  let y := 400 * n
  let d := d0 - 146097 * n
  let n := d / 36524
  let n := n - n / 4
  let y := y + 100 * n
  let d := d - 36524 * n
  let n := d / 1461
  let y := y + 4 * n
  let d := d - 1461 * n
  let n := d / 365
  let n := n - n / 4
  let y := y + n
  let d := d - 365 * n
  ((y : Int) - 292277022399, d)

/-- Go `time.absDate`, second part: month and day of the month. -/
def monthDay (leap : Bool) (yday : Nat) : Nat × Nat :=
  if leap && yday = 31 + 29 - 1 then (2, 29)
  else
    let day := if leap && yday > 31 + 29 - 1 then yday - 1 else yday
    let month := day / 31
    let stop := daysBefore.getD (month + 1) 0
    if day ≥ stop then (month + 2, day - stop + 1)
    else (month + 1, day - daysBefore.getD month 0 + 1)

/-- Go `Time.Date` of a UTC time. -/
def date (ns : Int) : Int × Nat × Nat :=
  let (y, yday) := absYear (unixDay ns + absOffset).toNat
  let (m, d) := monthDay (goIsLeap y) yday
  (y, m, d)

/-- Go `time.appendInt(x, 2)` for `0 ≤ x < 100`. -/
def pad2 (n : Nat) : Bytes := [digit (n / 10 % 10), digit (n % 10)]
/-- Go `time.appendInt(x, 4)` for `0 ≤ x < 10000`. -/
def pad4 (n : Nat) : Bytes := [digit (n / 1000 % 10), digit (n / 100 % 10), digit (n / 10 % 10), digit (n % 10)]

/-- internal/batch/time.go:43-45 `QuantizedTime.Set`: `t.Format("2006010215")` copied to a 10-byte array.
Simplification: four year digits, i.e. years 0 … 9999 (64-bit nanosecond times lie in 1677 … 2262). -/
def ymdh (ns : Int) : Bytes :=
  let (y, m, d) := date ns
  pad4 y.toNat ++ pad2 m ++ pad2 d ++ pad2 (hourOf ns)

/-- `"std_"` (internal/view/view.go:12, internal/batch/time.go:12). -/
def viewPrefix : Bytes := [115, 116, 100, 95]

inductive TUnit where
  | Y | M | D | H
deriving DecidableEq, Repr

/-- internal/batch/batch.go:18 `Quantum = "YMDH"`. -/
def quantumYMDH : List TUnit := [.Y, .M, .D, .H]

/-- internal/batch/time.go:84-116 `QuantizedTime.ViewsBuf`; `none` is the error "no data set for …". -/
def viewsOf (q : Bytes) : List TUnit → Option (List Bytes)
  | [] => some []
  | u :: us =>
    let (i, n) := match u with | .Y => (0, 4) | .M => (4, 6) | .D => (6, 8) | .H => (8, 10)
    if q.getD i 0 = 0 then none
    else (viewsOf q us).map ((viewPrefix ++ q.take n) :: ·)

/-- The views a sample is written to: internal/transform/transform.go:54-58 with internal/batch/batch.go:80,
and internal/dataframe/dataframe.go:144-149. -/
def sampleViews (minTs : Nat) : Option (List Bytes) := viewsOf (ymdh (toInt64 minTs)) quantumYMDH

/-- internal/view/view.go:24-34: durations in nanoseconds. -/
def hour : Int := 3600000000000
def day : Int := 24 * hour
def month : Int := 30 * day
def year : Int := 12 * month

/-- internal/view/view.go:37-48 `ChooseQuantum`. -/
def chooseQuantum (duration : Int) : TUnit :=
  if duration ≥ year then .Y
  else if duration ≥ month then .M
  else if duration ≥ day then .D
  else .H

/-- Go `Time.Sub`: the difference, saturated to the int64 range of `time.Duration`. -/
def timeSub (a b : Int) : Int :=
  if a - b > 2 ^ 63 - 1 then 2 ^ 63 - 1 else if a - b < -2 ^ 63 then -2 ^ 63 else a - b

/-- The time fields of `v1.Scan` (proto/rq/v1): nanoseconds; a range is (start, end). -/
structure ScanTime where
  range : Option (Int × Int) := none
  now : Option Int := none
  offset : Option Int := none
deriving DecidableEq, Repr

/-- internal/x/x.go:12 `DefaultTimeRange`: 15 minutes. -/
def defaultRange : Int := 15 * 60 * 1000000000

/-- internal/x/x.go:33-52 `TimeBounds`. Simplification: unbounded time arithmetic. -/
def timeBounds (clock : Int) (s : ScanTime) : Int × Int :=
  let ts := s.now.getD clock
  let ts := match s.offset with | some o => ts - o | none => ts
  match s.range with
  | some (start, stop) => (start, stop)
  | none => (ts - defaultRange, ts)

end Verif.Tm
