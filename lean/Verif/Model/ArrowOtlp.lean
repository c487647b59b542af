import Verif.Spec.Arrow
/-!
# The message types that are stored

gen/go/rq/v1/scan.pb.go:385-395 `Data`, and the types of OTLP it is made of (go.opentelemetry.io/proto/otlp; their fields are
listed in internal/arrow3/testdata/otel_{metrics,logs,traces}_data_schema.txt).
-/
namespace Verif.A3

/-- ASCII. -/
def ascii (s : String) : Bytes := s.toList.map fun c => UInt8.ofNat c.toNat

def one (name : String) (k : Kind) : FieldD := { name := ascii name, kind := k }
def many (name : String) (k : Kind) : FieldD := { name := ascii name, kind := k, repeated := true }
def maybe (name : String) (k : Kind) : FieldD := { name := ascii name, kind := k, oneof := true }

/-- Fields of the message types, by number. -/
def otlp : Nat → List FieldD
  -- rq.v1.Data
  | 0 => [maybe "metrics" (.msg 1), maybe "logs" (.msg 2), maybe "traces" (.msg 3)]
  -- MetricsData, LogsData, TracesData
  | 1 => [many "resource_metrics" (.msg 4)]
  | 2 => [many "resource_logs" (.msg 5)]
  | 3 => [many "resource_spans" (.msg 6)]
  | 4 => [one "resource" (.msg 7), many "scope_metrics" (.msg 8), one "schema_url" .text]
  | 5 => [one "resource" (.msg 7), many "scope_logs" (.msg 9), one "schema_url" .text]
  | 6 => [one "resource" (.msg 7), many "scope_spans" (.msg 10), one "schema_url" .text]
  -- Resource
  | 7 => [many "attributes" (.msg 11), one "dropped_attributes_count" .num]
  | 8 => [one "scope" (.msg 12), many "metrics" (.msg 13), one "schema_url" .text]
  | 9 => [one "scope" (.msg 12), many "log_records" (.msg 14), one "schema_url" .text]
  | 10 => [one "scope" (.msg 12), many "spans" (.msg 15), one "schema_url" .text]
  -- KeyValue
  | 11 => [one "key" .text, one "value" .any]
  -- InstrumentationScope
  | 12 => [one "name" .text, one "version" .text, many "attributes" (.msg 11), one "dropped_attributes_count" .num]
  -- Metric
  | 13 => [one "name" .text, one "description" .text, one "unit" .text, maybe "gauge" (.msg 16), maybe "sum" (.msg 17),
      maybe "histogram" (.msg 18), maybe "exponential_histogram" (.msg 19), maybe "summary" (.msg 20), many "metadata" (.msg 11)]
  -- LogRecord
  | 14 => [one "time_unix_nano" .num, one "observed_time_unix_nano" .num, one "severity_number" .num, one "severity_text" .text,
      one "body" .any, many "attributes" (.msg 11), one "dropped_attributes_count" .num, one "flags" .num, one "trace_id" .bytes,
      one "span_id" .bytes]
  -- Span
  | 15 => [one "trace_id" .bytes, one "span_id" .bytes, one "trace_state" .text, one "parent_span_id" .bytes, one "flags" .num,
      one "name" .text, one "kind" .num, one "start_time_unix_nano" .num, one "end_time_unix_nano" .num, many "attributes" (.msg 11),
      one "dropped_attributes_count" .num, many "events" (.msg 21), one "dropped_events_count" .num, many "links" (.msg 22),
      one "dropped_links_count" .num, one "status" (.msg 23)]
  | 16 => [many "data_points" (.msg 24)]
  | 17 => [many "data_points" (.msg 24), one "aggregation_temporality" .num, one "is_monotonic" .num]
  | 18 => [many "data_points" (.msg 25), one "aggregation_temporality" .num]
  | 19 => [many "data_points" (.msg 26), one "aggregation_temporality" .num]
  | 20 => [many "data_points" (.msg 27)]
  -- Event, Link, Status
  | 21 => [one "time_unix_nano" .num, one "name" .text, many "attributes" (.msg 11), one "dropped_attributes_count" .num]
  | 22 => [one "trace_id" .bytes, one "span_id" .bytes, one "trace_state" .text, many "attributes" (.msg 11),
      one "dropped_attributes_count" .num, one "flags" .num]
  | 23 => [one "message" .text, one "code" .num]
  -- NumberDataPoint
  | 24 => [many "attributes" (.msg 11), one "start_time_unix_nano" .num, one "time_unix_nano" .num, maybe "as_double" .num,
      maybe "as_int" .num, many "exemplars" (.msg 28), one "flags" .num]
  -- HistogramDataPoint
  | 25 => [many "attributes" (.msg 11), one "start_time_unix_nano" .num, one "time_unix_nano" .num, one "count" .num, maybe "sum" .num,
      many "bucket_counts" .num, many "explicit_bounds" .num, many "exemplars" (.msg 28), one "flags" .num, maybe "min" .num,
      maybe "max" .num]
  -- ExponentialHistogramDataPoint
  | 26 => [many "attributes" (.msg 11), one "start_time_unix_nano" .num, one "time_unix_nano" .num, one "count" .num, maybe "sum" .num,
      one "scale" .num, one "zero_count" .num, one "positive" (.msg 29), one "negative" (.msg 29), one "flags" .num,
      many "exemplars" (.msg 28), maybe "min" .num, maybe "max" .num, one "zero_threshold" .num]
  -- SummaryDataPoint
  | 27 => [many "attributes" (.msg 11), one "start_time_unix_nano" .num, one "time_unix_nano" .num, one "count" .num, one "sum" .num,
      many "quantile_values" (.msg 30), one "flags" .num]
  -- Exemplar
  | 28 => [many "filtered_attributes" (.msg 11), one "time_unix_nano" .num, maybe "as_double" .num, maybe "as_int" .num,
      one "span_id" .bytes, one "trace_id" .bytes]
  -- Buckets, ValueAtQuantile
  | 29 => [one "offset" .num, many "bucket_counts" .num]
  | 30 => [one "quantile" .num, one "value" .num]
  | _ => []

/-- A message type that holds itself. -/
def looped : Nat → List FieldD
  | 0 => [one "value" .num, one "next" (.msg 0)]
  | _ => []

end Verif.A3
