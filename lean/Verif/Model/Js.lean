import Verif.Model.Visit
/-!
# internal/js: the scan builder and scans of scripts

`time.ParseDuration` is a parameter. Every call of a builder comes with the reading of the clock at that moment. The clock of
`rq query` is `time.Now` (internal/commands/query/query.go:72), which carries the time zone of the machine; without a clock the
builder uses UTC (rq.go:48). So the zone is a parameter. Calls that return an error (which the script sees as an exception) leave the scan
unchanged.
-/
namespace Verif.Js
open Tm
open St (Filter Scan Result)

/-- The builder methods that scripts call, scan.go:30-153. -/
inductive Call where
  | resource (s : Bytes)
  | limit (n : Int)
  | offset (d : Bytes)
  | now (ms : Int)
  | reverse
  | resourceSchema (v : Bytes)
  | scopeSchema (v : Bytes)
  | scopeName (v : Bytes)
  | scopeVersion (v : Bytes)
  | name (v : Bytes)
  | traceId (v : Bytes)
  | spanId (v : Bytes)
  | parentSpanId (v : Bytes)
  | logLevel (v : Bytes)
  | resourceAttr (k v : Bytes)
  | scopeAttr (k v : Bytes)
  | attr (k v : Bytes)
  | timeRange (start stop : Int)
  | today
  | thisWeek
  | thisMonth
  | thisYear
  | ago (d : Bytes)
deriving DecidableEq, Repr

/-- `"metrics"`, `"logs"`, `"traces"`. -/
def textMetrics : Bytes := [109, 101, 116, 114, 105, 99, 115]
def textLogs : Bytes := [108, 111, 103, 115]
def textTraces : Bytes := [116, 114, 97, 99, 101, 115]

/-- Go `time.daysSinceEpoch`: days from the start of the absolute year to the start of year `y`. -/
def daysSinceEpoch (y : Int) : Nat :=
  let y := (y + 292277022399).toNat
  let n := y / 400
  let d := 146097 * n
  let y := y - 400 * n
  let n := y / 100
  let d := d + 36524 * n
  let y := y - 100 * n
  let n := y / 4
  let d := d + 1461 * n
  let y := y - 4 * n
  d + 365 * y

/-- Go `time.Date(y, m, d, 0, 0, 0, 0, time.UTC)` for a valid date. -/
def goDate (y : Int) (m d : Nat) : Int :=
  let n := daysSinceEpoch y + daysBefore.getD (m - 1) 0
  let n := if goIsLeap y && decide (3 ≤ m) then n + 1 else n
  let n := n + (d - 1)
  ((n : Int) - absOffset) * 86400000000000

/-- What Go's `Location.lookup` returns: offset east of UTC and the period in which it is in force, here in nanoseconds. -/
structure Period where
  off : Int
  begins : Int
  ends : Int
deriving DecidableEq, Repr

/-- A Go `*time.Location`: the period of every instant. -/
structure Zone where
  period : Int → Period

/-- `time.UTC`. -/
def Zone.utc : Zone := { period := fun _ => { off := 0, begins := -2 ^ 63 * 1000000000, ends := (2 ^ 63 - 1) * 1000000000 } }

/-- Go `Time.abs`: the instant whose UTC clock shows what the clock of the zone shows at `t`. -/
def Zone.wall (z : Zone) (t : Int) : Int := t + (z.period t).off

/-- Go `time.Date`, the end: from the reading of the clock of a zone to an instant. The offset in force at the reading taken as
UTC is tried first; if the result lies outside of its period, the offset in force at the result is used. -/
def Zone.ofWall (z : Zone) (w : Int) : Int :=
  let p := z.period w
  if p.off = 0 then w
  else if w - p.off < p.begins ∨ p.ends ≤ w - p.off then w - (z.period (w - p.off)).off
  else w - p.off

/-- github.com/jinzhu/now `BeginningOfDay`: `time.Date(y, m, d, 0, 0, 0, 0, Location())`. -/
def beginningOfDay (z : Zone) (t : Int) : Int :=
  z.ofWall (goDate (date (z.wall t)).1 (date (z.wall t)).2.1 (date (z.wall t)).2.2)
/-- `Time.Weekday` of a clock reading; day 0 of the epoch is a Thursday. -/
def weekday (t : Int) : Int := (unixDay t + 4) % 7
/-- `BeginningOfWeek` (with `WeekStartDay` Sunday, the default): `AddDate(0, 0, -weekday)` on `BeginningOfDay`, which is
`time.Date` with the day reduced and the clock kept. -/
def beginningOfWeek (z : Zone) (t : Int) : Int :=
  z.ofWall (z.wall (beginningOfDay z t) - weekday (z.wall (beginningOfDay z t)) * 86400000000000)
/-- `BeginningOfMonth`. -/
def beginningOfMonth (z : Zone) (t : Int) : Int := z.ofWall (goDate (date (z.wall t)).1 (date (z.wall t)).2.1 1)
/-- `BeginningOfYear`. -/
def beginningOfYear (z : Zone) (t : Int) : Int := z.ofWall (goDate (date (z.wall t)).1 1 1)

/-- `uint64(x)` of an `int64`. -/
def toUint64 (x : Int) : Nat := (x % 2 ^ 64).toNat

/-- scan.go:155-160 `rangeTS`. -/
def rangeTS (s : Scan) (start stop : Int) : Scan := { s with time := { s.time with range := some (start, stop) } }
/-- scan.go:166-175 `base`. -/
def base (s : Scan) (prop : Int) (v : Bytes) : Scan := { s with filters := s.filters ++ [.base prop v] }
/-- scan.go:176-186 `attr`. -/
def attr (s : Scan) (prop : Int) (k v : Bytes) : Scan := { s with filters := s.filters ++ [.attr prop k v] }

/-- scan.go:151 `ts.Add(-d)`: an `int64` has no opposite of the least one, its negation is itself. -/
def addNeg (ts d : Int) : Int := ts + if d = -2 ^ 63 then d else -d

variable (parse : Bytes → Option Int) (z : Zone)

/-- scan.go:30-153: one call at time `ts`, in zone `z`. -/
def call (s : Scan) (ts : Int) : Call → Scan
  | .resource r =>
    if r = textMetrics then { s with scope := Res.metrics }
    else if r = textLogs then { s with scope := Res.logs }
    else if r = textTraces then { s with scope := Res.traces }
    else s
  | .limit n => { s with limit := toUint64 n }
  | .offset d =>
    match parse d with
    | none => s
    | some d => { s with time := { s.time with offset := some d } }
  | .now ms => { s with time := { s.time with now := some (ms * 1000000) } }
  | .reverse => { s with reverse := true }
  | .resourceSchema v => base s Pfx.resourceSchema v
  | .scopeSchema v => base s Pfx.scopeSchema v
  | .scopeName v => base s Pfx.scopeName v
  | .scopeVersion v => base s Pfx.scopeVersion v
  | .name v => base s Pfx.name v
  | .traceId v => base s Pfx.traceId v
  | .spanId v => base s Pfx.spanId v
  | .parentSpanId v => base s Pfx.parentSpanId v
  | .logLevel v => base s Pfx.logsLevel v
  | .resourceAttr k v => attr s Pfx.resourceAttributes k v
  | .scopeAttr k v => attr s Pfx.scopeAttributes k v
  | .attr k v => attr s Pfx.attributes k v
  | .timeRange a b => rangeTS s (a * 1000000) (b * 1000000)
  | .today => rangeTS s (beginningOfDay z ts) ts
  | .thisWeek => rangeTS s (beginningOfWeek z ts) ts
  | .thisMonth => rangeTS s (beginningOfMonth z ts) ts
  | .thisYear => rangeTS s (beginningOfYear z ts) ts
  | .ago d =>
    match parse d with
    | none => s
    | some d => rangeTS s (addNeg ts d) ts

/-- scan.go:21-28 `Create`, followed by calls at their times. -/
def build (r : Bytes) (cs : List (Int × Call)) : Scan :=
  cs.foldl (fun s c => call parse z s c.1 c.2) (call parse z { scope := Res.unknown } 0 (.resource r))

/-- rq.go:78-99 `JS.Scan`; `fn` is `ScanFn` (`none`: not set), `clock` the clock of `x.UTC`. A nil payload panics in `Visit`
(visit.go:47). -/
def jsScan (P : Vs.Hashes) (fn : Option (Scan → Result)) (clock : Int) (a : Scan) : Result :=
  match fn with
  | none => .err
  | some f =>
    match f a with
    | .err => .err
    | .panic => .panic
    | .undefined => .undefined
    | .data d =>
      if a.time.range = none ∧ a.filters = [] then .data d
      else
        match d with
        | none => .panic
        | some d =>
          let b := timeBounds clock a.time
          match Vs.visit P (Vs.compile P a.filters (Vs.setTimeRange {} (toUint64 b.1) (toUint64 b.2))) d with
          | none => .panic
          | some out => .data (some out)

/-- internal/service/api.go:12-14 `ScanSamples` called over gRPC: a nil message arrives as an empty one; if the server panics
the call fails. -/
def rpc : Result → Result
  | .data d => .data (some (d.getD .none))
  | .panic => .err
  | r => r

/-- internal/commands/query/query.go:68-72: the scans of a script run by `rq query`. -/
def queryScan (P : Vs.Hashes) (store : Scan → Result) (clock : Int) (a : Scan) : Result :=
  jsScan P (some fun a => rpc (store a)) clock a

end Verif.Js
