import Verif.Model.Bytes
/-!
# OTLP payloads (generated protobuf types of go.opentelemetry.io/proto/otlp and proto/rq/v1)

The fields the code reads are explicit; the fields it only carries along are gathered in an opaque `rest`. Strings and byte
slices are byte lists; a byte slice that can be `nil` is an `Option`.
-/
namespace Verif

/-- `commonv1.AnyValue`: a string value, or anything else (its wire encoding). -/
inductive AnyValue where
  | str (s : Bytes)
  | other (raw : Bytes)
deriving DecidableEq, Repr

/-- `commonv1.KeyValue`. -/
structure KeyValue where
  key : Bytes
  value : Option AnyValue
deriving DecidableEq, Repr

/-- `GetStringValue` of a possibly nil value: empty unless a string. -/
def KeyValue.stringValue (kv : KeyValue) : Bytes :=
  match kv.value with
  | some (.str s) => s
  | _ => []

/-- `resourcev1.Resource`. -/
structure Resource where
  attrs : List KeyValue
deriving DecidableEq, Repr

/-- `commonv1.InstrumentationScope`. -/
structure InstrScope where
  name : Bytes := []
  version : Bytes := []
  attrs : List KeyValue := []
deriving DecidableEq, Repr

/-- `NumberDataPoint`, `HistogramDataPoint`, `ExponentialHistogramDataPoint`, `SummaryDataPoint`. -/
structure DataPoint where
  ts : Nat
  attrs : List KeyValue := []
  rest : Bytes := []
deriving DecidableEq, Repr

inductive MKind where
  | gauge | sum | histogram | exponentialHistogram | summary
deriving DecidableEq, Repr

/-- The data of a metric: `Gauge`, `Sum`, `Histogram`, `ExponentialHistogram` or `Summary`. -/
structure MData where
  kind : MKind
  temporality : Int := 0
  monotonic : Bool := false
  points : List DataPoint
deriving DecidableEq, Repr

/-- `metricsv1.Metric`; `rest` is description, unit and metadata; `data` is nil when the oneof is unset. -/
structure Metric where
  name : Bytes
  rest : Bytes := []
  data : Option MData
deriving DecidableEq, Repr

/-- `logsv1.LogRecord`. -/
structure LogRecord where
  ts : Nat
  severity : Bytes := []
  attrs : List KeyValue := []
  spanId : Option Bytes := none
  traceId : Option Bytes := none
  rest : Bytes := []
deriving DecidableEq, Repr

/-- `tracev1.Span`. -/
structure Span where
  name : Bytes := []
  traceId : Option Bytes := none
  spanId : Option Bytes := none
  parentSpanId : Option Bytes := none
  start : Nat
  stop : Nat
  attrs : List KeyValue := []
  rest : Bytes := []
deriving DecidableEq, Repr

/-- `ScopeMetrics`, `ScopeLogs`, `ScopeSpans`. -/
structure ScopeG (α : Type) where
  schema : Bytes := []
  scope : Option InstrScope := none
  items : List α
deriving DecidableEq, Repr

/-- `ResourceMetrics`, `ResourceLogs`, `ResourceSpans`. -/
structure ResourceG (α : Type) where
  schema : Bytes := []
  resource : Option Resource := none
  scopes : List (ScopeG α)
deriving DecidableEq, Repr

/-- proto/rq/v1 `Data`; `none` when the oneof is unset. -/
inductive Data where
  | metrics (rs : List (ResourceG Metric))
  | logs (rs : List (ResourceG LogRecord))
  | traces (rs : List (ResourceG Span))
  | none
deriving DecidableEq, Repr

/-- proto/rq/v1 `Sample`. -/
structure Sample where
  id : Nat
  data : Data
  minTs : Nat := 0
  maxTs : Nat := 0
deriving DecidableEq, Repr

/-- encoding/hex `EncodeToString`. -/
def hexDigit (n : Nat) : UInt8 := if n < 10 then UInt8.ofNat (48 + n) else UInt8.ofNat (87 + n)
def hexEncode (b : Bytes) : Bytes := b.flatMap fun x => [hexDigit (x.toNat / 16), hexDigit (x.toNat % 16)]

end Verif
