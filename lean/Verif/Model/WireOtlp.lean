import Verif.Model.Wire
/-!
# The numbers of the fields

The message types of OTLP (go.opentelemetry.io/proto/otlp v1.2.0, go.mod:32) and proto/rq/v1/scan.proto:80-86 `Data`, as they are read from
the wire (internal/service, gRPC) and written to it. The types have the numbers of `A3.otlp` (Model/ArrowOtlp.lean); `AnyValue` is 31.
-/
namespace Verif.Pb

/-- A scalar without presence. -/
def fld (n : Nat) (k : Kind) : Field := { num := n, kind := k }
/-- A message, or an optional scalar. -/
def opt (n : Nat) (k : Kind) : Field := { num := n, kind := k, card := .optional }
def rep (n : Nat) (k : Kind) : Field := { num := n, kind := k, card := .repeated }
def packed (n : Nat) (k : Kind) : Field := { num := n, kind := k, card := .packed }
def alt (n : Nat) (k : Kind) : Field := { num := n, kind := k, card := .oneof 0 }

/-- proto/rq/v1/scan.proto:80-86 and OTLP v1.2.0. -/
def otlp : Schema
  -- rq.v1.Data
  | 0 => [alt 1 (.msg 1), alt 2 (.msg 2), alt 3 (.msg 3)]
  -- MetricsData, LogsData, TracesData
  | 1 => [rep 1 (.msg 4)]
  | 2 => [rep 1 (.msg 5)]
  | 3 => [rep 1 (.msg 6)]
  -- ResourceMetrics, ResourceLogs, ResourceSpans
  | 4 => [opt 1 (.msg 7), rep 2 (.msg 8), fld 3 .string]
  | 5 => [opt 1 (.msg 7), rep 2 (.msg 9), fld 3 .string]
  | 6 => [opt 1 (.msg 7), rep 2 (.msg 10), fld 3 .string]
  -- Resource
  | 7 => [rep 1 (.msg 11), fld 2 .uint32]
  -- ScopeMetrics, ScopeLogs, ScopeSpans
  | 8 => [opt 1 (.msg 12), rep 2 (.msg 13), fld 3 .string]
  | 9 => [opt 1 (.msg 12), rep 2 (.msg 14), fld 3 .string]
  | 10 => [opt 1 (.msg 12), rep 2 (.msg 15), fld 3 .string]
  -- KeyValue
  | 11 => [fld 1 .string, opt 2 (.msg 31)]
  -- InstrumentationScope
  | 12 => [fld 1 .string, fld 2 .string, rep 3 (.msg 11), fld 4 .uint32]
  -- Metric
  | 13 => [fld 1 .string, fld 2 .string, fld 3 .string, alt 5 (.msg 16), alt 7 (.msg 17), alt 9 (.msg 18), alt 10 (.msg 19), alt 11 (.msg 20),
      rep 12 (.msg 11)]
  -- LogRecord
  | 14 => [fld 1 .fixed64, fld 2 .enum, fld 3 .string, opt 5 (.msg 31), rep 6 (.msg 11), fld 7 .uint32, fld 8 .fixed32, fld 9 .bytes,
      fld 10 .bytes, fld 11 .fixed64]
  -- Span
  | 15 => [fld 1 .bytes, fld 2 .bytes, fld 3 .string, fld 4 .bytes, fld 5 .string, fld 6 .enum, fld 7 .fixed64, fld 8 .fixed64, rep 9 (.msg 11),
      fld 10 .uint32, rep 11 (.msg 21), fld 12 .uint32, rep 13 (.msg 22), fld 14 .uint32, opt 15 (.msg 23), fld 16 .fixed32]
  -- Gauge, Sum, Histogram, ExponentialHistogram, Summary
  | 16 => [rep 1 (.msg 24)]
  | 17 => [rep 1 (.msg 24), fld 2 .enum, fld 3 .bool]
  | 18 => [rep 1 (.msg 25), fld 2 .enum]
  | 19 => [rep 1 (.msg 26), fld 2 .enum]
  | 20 => [rep 1 (.msg 27)]
  -- Event, Link, Status
  | 21 => [fld 1 .fixed64, fld 2 .string, rep 3 (.msg 11), fld 4 .uint32]
  | 22 => [fld 1 .bytes, fld 2 .bytes, fld 3 .string, rep 4 (.msg 11), fld 5 .uint32, fld 6 .fixed32]
  | 23 => [fld 2 .string, fld 3 .enum]
  -- NumberDataPoint
  | 24 => [fld 2 .fixed64, fld 3 .fixed64, alt 4 .fixed64, alt 6 .fixed64, rep 5 (.msg 28), rep 7 (.msg 11), fld 8 .uint32]
  -- HistogramDataPoint
  | 25 => [fld 2 .fixed64, fld 3 .fixed64, fld 4 .fixed64, opt 5 .fixed64, packed 6 .fixed64, packed 7 .fixed64, rep 8 (.msg 28), rep 9 (.msg 11),
      fld 10 .uint32, opt 11 .fixed64, opt 12 .fixed64]
  -- ExponentialHistogramDataPoint
  | 26 => [rep 1 (.msg 11), fld 2 .fixed64, fld 3 .fixed64, fld 4 .fixed64, opt 5 .fixed64, fld 6 .sint32, fld 7 .fixed64, opt 8 (.msg 29),
      opt 9 (.msg 29), fld 10 .uint32, rep 11 (.msg 28), opt 12 .fixed64, opt 13 .fixed64, fld 14 .fixed64]
  -- SummaryDataPoint
  | 27 => [fld 2 .fixed64, fld 3 .fixed64, fld 4 .fixed64, fld 5 .fixed64, rep 6 (.msg 30), rep 7 (.msg 11), fld 8 .uint32]
  -- Exemplar
  | 28 => [fld 2 .fixed64, alt 3 .fixed64, alt 6 .fixed64, fld 4 .bytes, fld 5 .bytes, rep 7 (.msg 11)]
  -- Buckets, ValueAtQuantile
  | 29 => [fld 1 .sint32, packed 2 .uint64]
  | 30 => [fld 1 .fixed64, fld 2 .fixed64]
  -- AnyValue
  | 31 => [alt 1 .string, alt 2 .bool, alt 3 .int64, alt 4 .fixed64, alt 5 (.msg 32), alt 6 (.msg 33), alt 7 .bytes]
  -- ArrayValue, KeyValueList
  | 32 => [rep 1 (.msg 31)]
  | 33 => [rep 1 (.msg 11)]
  | _ => []

/-- `commonv1.KeyValue`, `commonv1.AnyValue`: internal/data/sort.go:116, internal/arrow3/node.go:204. -/
def keyValue : Nat := 11
def anyValue : Nat := 31

/-- The key of a `KeyValue`, for internal/arrow3/node.go:205. -/
def ofKey (k : Bytes) : List (Nat × Val) := if k = [] then [] else [(1, .bytes k)]

/-- A nil pointer, for internal/arrow3/node.go:205. -/
def isNil : Rd.Any → Bool
  | .nil => true
  | _ => false

mutual
/-- An attribute value as a message: internal/arrow3/node.go:204-205. `Any.nil` is a nil pointer: it is written as an empty message. -/
def ofAny : Rd.Any → Val
  | .nil => .msg [] []
  | .unset => .msg [] []
  | .str s => .msg [(1, .bytes s)] []
  | .bool b => .msg [(2, .num (if b then 1 else 0))] []
  | .int i => .msg [(3, .num (i % 2 ^ 64).toNat)] []
  | .double n => .msg [(4, .num n)] []
  | .array l => .msg [(5, .msg (ofList l) [])] []
  | .kvs l => .msg [(6, .msg (ofPairs l) [])] []
  | .bytes b => .msg [(7, .bytes b)] []
/-- `ArrayValue`, for internal/arrow3/node.go:205. -/
def ofList : List Rd.Any → List (Nat × Val)
  | [] => []
  | x :: l => (1, ofAny x) :: ofList l
/-- `KeyValueList`, for internal/arrow3/node.go:205. The value of a `KeyValue` may be missing. -/
def ofPairs : List (Bytes × Rd.Any) → List (Nat × Val)
  | [] => []
  | (k, x) :: l => (1, .msg (ofKey k ++ if isNil x then [] else [(2, ofAny x)]) []) :: ofPairs l
end

end Verif.Pb
