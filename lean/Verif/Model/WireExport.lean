import Verif.Model.WireScan
import Verif.Model.Otlp
/-!
# Data that is exported over the network

The three `Export` calls of internal/service/service.go:137-192 get a request of OTLP from gRPC and save its resources as `v1.Data`. The other models have
such data as the types of Model/Otlp.lean; here it is read out of the message.
-/
namespace Verif.Ex
open Pb (Val otlp marshal unmarshal encFields Schema)
open Rq (vals getNum getTxt entries numVal txtVal bits32 int32)

/-! ## What arrives -/

/-- The fields of a message, and what is unknown in it. For internal/service/service.go:137. -/
def fieldsOf : Val → List (Nat × Val)
  | .msg fs _ => fs
  | _ => []
def unknownOf : Val → Bytes
  | .msg _ u => u
  | _ => []

/-- internal/service/service.go:137-192 `Export` of metrics (`k` is 1), logs (2), spans (3): the data that is saved, as a message. Each request has the
one field of `MetricsData`, `LogsData`, `TracesData`; of the request only the list is used. `none`: gRPC refuses the bytes, as they are too many or not a request. -/
def exported (k : Nat) (b : Bytes) : Option Val :=
  if Rq.recvLimit < b.length then none else (unmarshal otlp k b).map fun v => .msg [(k, .msg (fieldsOf v) [])] []

/-! ## What the code sees of it -/

/-- The fields that are only carried along, as they are written. For internal/service/service.go:137. -/
def restOf (t : Nat) (seen : List Nat) (v : Val) : Bytes := encFields otlp t ((fieldsOf v).filter fun e => !seen.contains e.1) ++ unknownOf v

/-- Bytes, or nil. For internal/transform/trace.go:23-43, logs.go:26-39. -/
def optTxt (n : Nat) (v : Val) : Option Bytes :=
  match vals n v with
  | .bytes s :: _ => some s
  | _ => none

/-- `commonv1.AnyValue`, internal/transform/transform.go:155-175. -/
def toValue (v : Val) : AnyValue :=
  match vals 1 v with
  | .bytes s :: _ => .str s
  | _ => .other ((marshal otlp 31 v).getD [])

/-- `commonv1.KeyValue`, internal/transform/transform.go:155-175. -/
def toKv (v : Val) : KeyValue := ⟨getTxt 1 v, (vals 2 v).head?.map toValue⟩

/-- `resourcev1.Resource`, internal/transform/transform.go:115-117. -/
def toResource (v : Val) : Resource := ⟨(vals 1 v).map toKv⟩

/-- `commonv1.InstrumentationScope`, internal/transform/transform.go:132-150. -/
def toInstr (v : Val) : InstrScope := ⟨getTxt 1 v, getTxt 2 v, (vals 3 v).map toKv⟩

/-- The message type of a data point, and the number of its attributes, by the number of its kind of data in `Metric`: 5, 7, 9, 10, 11.
internal/transform/metrics.go:20-42. -/
def pointType : MKind → Nat × Nat
  | .gauge => (24, 7)
  | .sum => (24, 7)
  | .histogram => (25, 9)
  | .exponentialHistogram => (26, 1)
  | .summary => (27, 7)

/-- The message type of the data of a metric, and its number in `Metric`, internal/transform/metrics.go:20-42. -/
def dataType : MKind → Nat × Nat
  | .gauge => (16, 5)
  | .sum => (17, 7)
  | .histogram => (18, 9)
  | .exponentialHistogram => (19, 10)
  | .summary => (20, 11)

/-- For internal/transform/metrics.go:20-42. -/
def kinds : List MKind := [.gauge, .sum, .histogram, .exponentialHistogram, .summary]

/-- A data point, internal/transform/metrics.go:47-55. -/
def toPoint (k : MKind) (v : Val) : DataPoint := ⟨getNum 3 v, (vals (pointType k).2 v).map toKv, restOf (pointType k).1 [3, (pointType k).2] v⟩

/-- The data of a metric, internal/transform/metrics.go:20-42. `Gauge` and `Summary` have no temporality, only `Sum` can be monotonic. -/
def toMData (k : MKind) (v : Val) : MData :=
  ⟨k, if k = .gauge ∨ k = .summary then 0 else int32 (getNum 2 v), if k = .sum then getNum 3 v ≠ 0 else false, (vals 1 v).map (toPoint k)⟩

/-- `metricsv1.Metric`, internal/transform/metrics.go:14-42. -/
def toMetric (v : Val) : Metric :=
  ⟨getTxt 1 v, restOf 13 [1, 5, 7, 9, 10, 11] v, (kinds.flatMap fun k => (vals (dataType k).2 v).map (toMData k)).head?⟩

/-- `logsv1.LogRecord`, internal/transform/logs.go:16-40. -/
def toLog (v : Val) : LogRecord := ⟨getNum 1 v, getTxt 3 v, (vals 6 v).map toKv, optTxt 10 v, optTxt 9 v, restOf 14 [1, 3, 6, 9, 10] v⟩

/-- `tracev1.Span`, internal/transform/trace.go:15-44. -/
def toSpan (v : Val) : Span :=
  ⟨getTxt 5 v, optTxt 1 v, optTxt 2 v, optTxt 4 v, getNum 7 v, getNum 8 v, (vals 9 v).map toKv, restOf 15 [1, 2, 4, 5, 7, 8, 9] v⟩

/-- `ScopeMetrics`, `ScopeLogs`, `ScopeSpans`, internal/transform/transform.go:120-150. -/
def toScopeG {α : Type} (item : Val → α) (v : Val) : ScopeG α := ⟨getTxt 3 v, (vals 1 v).head?.map toInstr, (vals 2 v).map item⟩

/-- `ResourceMetrics`, `ResourceLogs`, `ResourceSpans`, internal/transform/transform.go:103-118. Simplification: what the code does not read of a resource and of a scope (the
number of dropped attributes, unknown fields) is left out. -/
def toResourceG {α : Type} (item : Val → α) (v : Val) : ResourceG α := ⟨getTxt 3 v, (vals 1 v).head?.map toResource, (vals 2 v).map (toScopeG item)⟩

/-- proto/rq/v1 `Data`, internal/transform/transform.go:62-81. -/
def toData (v : Val) : Data :=
  match vals 1 v, vals 2 v, vals 3 v with
  | m :: _, _, _ => .metrics ((vals 1 m).map (toResourceG toMetric))
  | [], m :: _, _ => .logs ((vals 1 m).map (toResourceG toLog))
  | [], [], m :: _ => .traces ((vals 1 m).map (toResourceG toSpan))
  | [], [], [] => .none

/-- internal/service/service.go:137-192: what is handed to `Save`. -/
def received (k : Nat) (b : Bytes) : Option Data := (exported k b).map toData

/-! ## What a client writes -/

/-- A message with the values `mine` of some fields, and the other fields of `rest`. For internal/service/service.go:137. -/
def asm (S : Schema) (t : Nat) (mine : Nat → Option (List Val)) (rest : Val) : Val :=
  .msg (entries ((S t).map fun f => (f, (mine f.num).getD (vals f.num rest)))) (unknownOf rest)

/-- Fields by number, for internal/service/service.go:137. -/
def these (l : List (Nat × List Val)) (n : Nat) : Option (List Val) := (l.find? fun e => e.1 = n).map (·.2)

/-- The message that is written as these bytes. For internal/service/service.go:137. -/
def restVal (t : Nat) (rest : Bytes) : Val := (unmarshal otlp t rest).getD (.msg [] [])

/-- A message with `rest`, and one without. For internal/service/service.go:137. -/
def build (t : Nat) (l : List (Nat × List Val)) (rest : Bytes := []) : Val := asm otlp t (these l) (restVal t rest)

/-- For internal/service/service.go:137. -/
def ofValue : AnyValue → Val
  | .str s => .msg [(1, .bytes s)] []
  | .other raw => restVal 31 raw
def optVal (o : Option Bytes) : List Val := (o.map Val.bytes).toList
def ofKv (kv : KeyValue) : Val := build 11 [(1, txtVal kv.key), (2, (kv.value.map ofValue).toList)]
def ofResource (r : Resource) : Val := build 7 [(1, r.attrs.map ofKv)]
def ofInstr (s : InstrScope) : Val := build 12 [(1, txtVal s.name), (2, txtVal s.version), (3, s.attrs.map ofKv)]
def ofPoint (k : MKind) (p : DataPoint) : Val := build (pointType k).1 [(3, numVal p.ts), ((pointType k).2, p.attrs.map ofKv)] p.rest
def ofMData (d : MData) : Val :=
  build (dataType d.kind).1 [(1, d.points.map (ofPoint d.kind)), (2, numVal (bits32 d.temporality)), (3, numVal (if d.monotonic then 1 else 0))]
def ofMetric (m : Metric) : Val :=
  build 13 ((1, txtVal m.name) :: kinds.map fun k => ((dataType k).2, ((m.data.filter fun d => d.kind = k).map ofMData).toList)) m.rest
def ofLog (l : LogRecord) : Val :=
  build 14 [(1, numVal l.ts), (3, txtVal l.severity), (6, l.attrs.map ofKv), (9, optVal l.traceId), (10, optVal l.spanId)] l.rest
def ofSpan (s : Span) : Val :=
  build 15 [(1, optVal s.traceId), (2, optVal s.spanId), (4, optVal s.parentSpanId), (5, txtVal s.name), (7, numVal s.start), (8, numVal s.stop),
    (9, s.attrs.map ofKv)] s.rest
/-- `t`: the message type of the scope; of the resource it is `t - 4`. For internal/service/service.go:137. -/
def ofScopeG {α : Type} (t : Nat) (item : α → Val) (s : ScopeG α) : Val :=
  build t [(1, (s.scope.map ofInstr).toList), (2, s.items.map item), (3, txtVal s.schema)]
def ofResourceG {α : Type} (t : Nat) (item : α → Val) (r : ResourceG α) : Val :=
  build (t - 4) [(1, (r.resource.map ofResource).toList), (2, r.scopes.map (ofScopeG t item)), (3, txtVal r.schema)]

/-- The request, and which one it is: internal/service/service.go:137, 157, 179. -/
def ofData : Data → Option (Nat × Val)
  | .metrics rs => some (1, build 1 [(1, rs.map (ofResourceG 8 ofMetric))])
  | .logs rs => some (2, build 2 [(1, rs.map (ofResourceG 9 ofLog))])
  | .traces rs => some (3, build 3 [(1, rs.map (ofResourceG 10 ofSpan))])
  | .none => none

end Verif.Ex
