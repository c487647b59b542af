import Verif.Model.Js
/-!
# packages/rq: what scripts import

The package `@requiemdb/rq` is TypeScript (packages/rq/src); the server embeds its compiled form (internal/js/bundle/index.js), which
has the same classes. A script makes query objects (`new Metrics(name)`, `new Logs()`, `new Trace()`), calls their methods and runs
`query()`. Every object holds a pointer to a Go builder (internal/js/scan.go) of its own: the builders are kept in a heap, and objects
hold addresses. A script is any sequence of such operations; each comes with the reading of the clock at that moment. A Go method
that returns an error throws an exception, which the script may catch; a Go panic is not caught. Arguments are of the declared types
(dates are valid, numbers are integers).
-/
namespace Verif.Pk
open Js (Call Zone)
open St (Scan Result)

/-- core_metrics.ts:4, core_logs.ts:4, core_trace.ts:4. -/
inductive Class where
  | metrics
  | logs
  | trace
deriving DecidableEq, Repr

/-- core.ts:9-13 `RESOURCE`, as the constructors pass it to `super`: core_metrics.ts:6, core_logs.ts:6, core_trace.ts:6. -/
def Class.resource : Class → Bytes
  | .metrics => [109, 101, 116, 114, 105, 99, 115]
  | .logs => [108, 111, 103, 115]
  | .trace => [116, 114, 97, 99, 101, 115]

/-- The methods of query objects, core.ts:34-163. -/
inductive Method where
  | limit (n : Int)
  | offset (d : Bytes)
  | now (ms : Int)
  | reverse
  | resourceSchema (v : Bytes)
  | scopeSchema (v : Bytes)
  | scopeName (v : Bytes)
  | scopeVersion (v : Bytes)
  | name (v : Bytes)
  | traceId (v : Bytes)
  | spanId (v : Bytes)
  | parentSpanId (v : Bytes)
  | logLevel (v : Bytes)
  | resourceAttr (k v : Bytes)
  | scopeAttr (k v : Bytes)
  | attr (k v : Bytes)
  | latest
  | today
  | thisWeek
  | thisMonth
  | thisYear
  | ago (d : Bytes)
deriving DecidableEq, Repr

/-- core.ts:34-163: the call of the Go builder that a method makes. -/
def Method.call : Method → Call
  | .limit n => .limit n
  | .offset d => .offset d
  | .now ms => .now ms
  | .reverse => .reverse
  | .resourceSchema v => .resourceSchema v
  | .scopeSchema v => .scopeSchema v
  | .scopeName v => .scopeName v
  | .scopeVersion v => .scopeVersion v
  | .name v => .name v
  | .traceId v => .traceId v
  | .spanId v => .spanId v
  | .parentSpanId v => .parentSpanId v
  | .logLevel v => .logLevel v
  | .resourceAttr k v => .resourceAttr k v
  | .scopeAttr k v => .scopeAttr k v
  | .attr k v => .attr k v
  | .latest => .ago [49, 53, 109]
  | .today => .today
  | .thisWeek => .thisWeek
  | .thisMonth => .thisMonth
  | .thisYear => .thisYear
  | .ago d => .ago d

/-- A query object: its class and the address of its builder, core.ts:15-20. -/
structure Obj where
  cls : Class
  ptr : Nat

/-- The builders and the query objects that a script has made, in order. -/
structure State where
  heap : List Scan := []
  objs : List Obj := []

/-- What scripts get from `query()`: `null`, or a message. -/
inductive Value where
  | null
  | metrics (rs : List (ResourceG Metric))
  | logs (rs : List (ResourceG LogRecord))
  | traces (rs : List (ResourceG Span))
deriving DecidableEq

/-- What comes of an operation: the query object, a value, an exception, the end of the process (a Go panic), or an access of the
store that is not modelled. -/
inductive Outcome where
  | this
  | value (v : Value)
  | thrown
  | crashed
  | undefined
deriving DecidableEq

/-- The generated getters `GetMetrics`, `GetLogs` and `GetTraces` of `v1.Data`, as `query()` calls them: core_metrics.ts:12-14,
core_logs.ts:9-11, core_trace.ts:9-11. A nil pointer is `null` in the script. -/
def get : Class → Data → Value
  | .metrics, .metrics rs => .metrics rs
  | .logs, .logs rs => .logs rs
  | .trace, .traces rs => .traces rs
  | _, _ => .null

/-- core.ts:22-25 `scan` and `query()` of the classes. A nil `*v1.Data` is `null` in the script, which has no getters. -/
def got (c : Class) : Result → Outcome
  | .data none => .thrown
  | .data (some d) => .value (get c d)
  | .err => .thrown
  | .panic => .crashed
  | .undefined => .undefined

variable (parse : Bytes → Option Int) (z : Zone) (P : Vs.Hashes)

/-- scan.go:52-59 `Offset` and scan.go:139-147 `Ago` return an error if the duration cannot be parsed. -/
def fails : Call → Bool
  | .offset d => (parse d).isNone
  | .ago d => (parse d).isNone
  | _ => false

/-- A call of the builder at address `p`; tells whether it failed. -/
def onHeap (heap : List Scan) (p : Nat) (ts : Int) (c : Call) : List Scan × Bool :=
  (heap.modify p fun s => Js.call parse z s ts c, fails parse c)

/-- What a script does. `query` comes with what the engine's scan function does at that moment and the clock of `x.UTC`. -/
inductive Op where
  | new (cls : Class) (name : Option Bytes)
  | call (obj : Nat) (m : Method)
  | query (obj : Nat) (fn : Option (Scan → Result)) (clock : Int)

/-- `SCAN.Create(resource)`, scan.go:21-28: a new builder. -/
def create (heap : List Scan) (ts : Int) (r : Bytes) : List Scan :=
  heap ++ [Js.call parse z { scope := Res.unknown } ts (.resource r)]

/-- The end of the constructor of `Metrics`, core_metrics.ts:7-9: a name that is given and not empty becomes a filter. -/
def named (heap : List Scan) (p : Nat) (ts : Int) : Class → Option Bytes → List Scan
  | .metrics, some n => if n = [] then heap else (onHeap parse z heap p ts (.name n)).1
  | _, _ => heap

/-- One operation at time `ts`. Only objects that have been made can be used. -/
def step (s : State) (ts : Int) : Op → State × Outcome
  | .new cls name =>
    ({ heap := named parse z (create parse z s.heap ts cls.resource) s.heap.length ts cls name, objs := s.objs ++ [⟨cls, s.heap.length⟩] }, .this)
  | .call i m =>
    match s.objs[i]? with
    | none => (s, .thrown)
    | some o =>
      let r := onHeap parse z s.heap o.ptr ts m.call
      ({ s with heap := r.1 }, if r.2 then .thrown else .this)
  | .query i fn clock =>
    match s.objs[i]? with
    | none => (s, .thrown)
    | some o =>
      match s.heap[o.ptr]? with
      | none => (s, .thrown)
      | some a => (s, got o.cls (Js.jsScan P fn clock a))

/-- A script: operations at their times. -/
def run (ops : List (Int × Op)) : State := ops.foldl (fun s op => (step parse z P s op.1 op.2).1) {}

/-- What comes of an operation after others. -/
def outcome (ops : List (Int × Op)) (ts : Int) (op : Op) : Outcome := (step parse z P (run parse z P ops) ts op).2

end Verif.Pk
