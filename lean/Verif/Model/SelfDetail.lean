import Verif.Model.Self
/-!
# internal/self: spans and data points in full

What `span` (span.go) and the functions for data points (metricdata.go) make of one span or data point; the `β` and `conv` of
Model/Self.lean. Times are instants in nanoseconds since 1970, of any size (`time.Time` reaches further than `int64`). Doubles are
given by their bits; `f` is the conversion `float64(x)` of an `int64`. Lists that are nil and lists that are empty are the same: they
are in protobuf.
-/
namespace Verif.Sf

/-- `attribute.KeyValue`. -/
abbrev Attr := Bytes × Value

/-- tracetransform/attribute.go:13-23 `KeyValues`, 26-37 `Iterator`, 45-47 `KeyValue`; metrics/transform/attribute.go:15-26 `AttrIter`,
29-39 `KeyValues`, 42-44 `KeyValue`. -/
def keyValues (l : List Attr) : List (Bytes × Any) := l.map fun kv => (kv.1, value kv.2)

/-- `uint64(t.UnixNano())`: the sum of seconds and nanoseconds wraps around. -/
def unixNano (t : Int) : Nat := (t % 2 ^ 64).toNat

/-- `uint32(n)` of an `int`. -/
def toUint32 (n : Int) : Nat := (n % 2 ^ 32).toNat

/-! ## Spans -/

/-- `tracesdk.Event`. -/
structure EventIn where
  name : Bytes
  time : Int
  attrs : List Attr
  dropped : Int

/-- `tracepb.Span_Event`. -/
structure EventOut where
  name : Bytes
  time : Nat
  attrs : List (Bytes × Any)
  dropped : Nat

/-- span.go:160-176 `spanEvents`. -/
def spanEvents (l : List EventIn) : List EventOut :=
  l.map fun e => { name := e.name, time := unixNano e.time, attrs := keyValues e.attrs, dropped := toUint32 e.dropped }

/-- `tracesdk.Link`; of its span context also the trace state and the flags. -/
structure LinkIn where
  traceId : Bytes
  spanId : Bytes
  traceState : Bytes
  flags : Nat
  attrs : List Attr
  dropped : Int

/-- `tracepb.Span_Link`. -/
structure LinkOut where
  traceId : Bytes
  spanId : Bytes
  attrs : List (Bytes × Any)
  dropped : Nat

/-- span.go:135-157 `links`. -/
def links (l : List LinkIn) : List LinkOut :=
  l.map fun x => { traceId := x.traceId, spanId := x.spanId, attrs := keyValues x.attrs, dropped := toUint32 x.dropped }

/-- span.go:118-132 `status`: `codes.Error` is 1, `codes.Ok` 2; `STATUS_CODE_OK` is 1, `STATUS_CODE_ERROR` 2. -/
def status (code : Nat) : Nat := if code = 2 then 1 else if code = 1 then 2 else 0

/-- span.go:179-194 `spanKind`: internal 1, server 2, client 3, producer 4, consumer 5, in both. -/
def spanKind (kind : Int) : Int :=
  if kind = 1 then 1 else if kind = 3 then 3 else if kind = 2 then 2 else if kind = 4 then 4 else if kind = 5 then 5 else 0

/-- `tracesdk.ReadOnlySpan`, without resource and scope (those are in `SpanIn`). -/
structure SpanDetail where
  traceId : Bytes
  spanId : Bytes
  traceState : Bytes
  flags : Nat
  /-- of the parent's context: its span id, all zeros if there is no parent -/
  parentId : Bytes
  parentTraceId : Bytes
  kind : Int
  name : Bytes
  start : Int
  stop : Int
  statusCode : Nat
  statusText : Bytes
  attrs : List Attr
  events : List EventIn
  links : List LinkIn
  droppedAttrs : Int
  droppedEvents : Int
  droppedLinks : Int

/-- `tracepb.Span`. -/
structure SpanOut where
  traceId : Bytes
  spanId : Bytes
  traceState : Bytes
  parentId : Option Bytes
  kind : Int
  name : Bytes
  start : Nat
  stop : Nat
  statusCode : Nat
  statusText : Bytes
  attrs : List (Bytes × Any)
  events : List EventOut
  links : List LinkOut
  droppedAttrs : Nat
  droppedEvents : Nat
  droppedLinks : Nat

/-- span.go:85-115 `span`; `SpanID.IsValid`: not all zeros. -/
def span (s : SpanDetail) : SpanOut where
  traceId := s.traceId
  spanId := s.spanId
  traceState := s.traceState
  parentId := if s.parentId.all (· == 0) then none else some s.parentId
  kind := spanKind s.kind
  name := s.name
  start := unixNano s.start
  stop := unixNano s.stop
  statusCode := status s.statusCode
  statusText := s.statusText
  attrs := keyValues s.attrs
  events := spanEvents s.events
  links := links s.links
  droppedAttrs := toUint32 s.droppedAttrs
  droppedEvents := toUint32 s.droppedEvents
  droppedLinks := toUint32 s.droppedLinks

/-! ## Data points -/

/-- The zero `time.Time`: the first of January of year 1. -/
def zeroTime : Int := -62135596800000000000

/-- metricdata.go:281-286 `timeUnixNano`. -/
def timeUnixNano (t : Int) : Nat := if t = zeroTime then 0 else unixNano t

/-- A value of type `int64` or `float64`. -/
inductive Num where
  | int (i : Int)
  | float (bits : Nat)
deriving DecidableEq, Repr

variable (f : Int → Nat)

/-- `float64(v)`. -/
def toFloat : Num → Nat
  | .int i => f i
  | .float b => b

/-- `metricdata.Exemplar`. -/
structure Exemplar where
  filtered : List Attr
  time : Int
  value : Num
  spanId : Bytes
  traceId : Bytes

/-- `mpb.Exemplar`. -/
structure ExemplarOut where
  filtered : List (Bytes × Any)
  time : Nat
  value : Num
  spanId : Bytes
  traceId : Bytes

/-- metricdata.go:289-311 `Exemplars`. -/
def exemplars (l : List Exemplar) : List ExemplarOut :=
  l.map fun e => { filtered := keyValues e.filtered, time := timeUnixNano e.time, value := e.value, spanId := e.spanId, traceId := e.traceId }

/-- What all data points have. -/
structure Base where
  attrs : List Attr
  start : Int
  time : Int

structure BaseOut where
  attrs : List (Bytes × Any)
  start : Nat
  time : Nat

/-- metricdata.go:139-141, 181-183, 225-227, 328-330. -/
def base (b : Base) : BaseOut := { attrs := keyValues b.attrs, start := timeUnixNano b.start, time := timeUnixNano b.time }

/-- `metricdata.ExponentialBucket`, `mpb.…Buckets`. -/
structure Buckets where
  offset : Int
  counts : List Nat
deriving DecidableEq, Repr

/-- `metricdata.DataPoint`, `HistogramDataPoint`, `ExponentialHistogramDataPoint`, `SummaryDataPoint`. -/
inductive Pt where
  | number (b : Base) (value : Num) (ex : List Exemplar)
  | hist (b : Base) (count : Nat) (bounds counts : List Nat) (min max : Option Num) (sum : Num) (ex : List Exemplar)
  | exp (b : Base) (count : Nat) (min max : Option Num) (sum : Num) (scale : Int) (zeroCount zeroThreshold : Nat) (pos neg : Buckets) (ex : List Exemplar)
  | summary (b : Base) (count : Nat) (sum : Nat) (quantiles : List (Nat × Nat))

/-- `mpb.NumberDataPoint`, …; the zero threshold of exponential histograms is never set. -/
inductive PtOut where
  | number (b : BaseOut) (value : Num) (ex : List ExemplarOut)
  | hist (b : BaseOut) (count : Nat) (bounds counts : List Nat) (min max : Option Nat) (sum : Nat) (ex : List ExemplarOut)
  | exp (b : BaseOut) (count : Nat) (min max : Option Nat) (sum : Nat) (scale : Int) (zeroCount : Nat) (pos neg : Buckets) (ex : List ExemplarOut)
  | summary (b : BaseOut) (count : Nat) (sum : Nat) (quantiles : List (Nat × Nat))

/-- metricdata.go:135-157 `DataPoints`, 176-201 `HistogramDataPoints`, 220-248 `ExponentialHistogramDataPoints` with 252-257, 324-338
`SummaryDataPoints` with `QuantileValues` (342-352): one point. -/
def point : Pt → PtOut
  | .number b v ex => .number (base b) v (exemplars ex)
  | .hist b n bounds counts lo hi sum ex => .hist (base b) n bounds counts (lo.map (toFloat f)) (hi.map (toFloat f)) (toFloat f sum) (exemplars ex)
  | .exp b n lo hi sum scale zc _ pos neg ex =>
    .exp (base b) n (lo.map (toFloat f)) (hi.map (toFloat f)) (toFloat f sum) scale zc pos neg (exemplars ex)
  | .summary b n sum qs => .summary (base b) n sum (qs.map fun q => (q.1, q.2))

end Verif.Sf
