import Verif.Model.Bitmap
import Verif.Model.Bytes
/-!
# internal/self: the database's own telemetry

Spans and metrics of the OpenTelemetry SDK are turned into OTLP requests and exported to the database itself.
-/
namespace Verif.Sf

/-! ## internal/self/trace/tracetransform/span.go: grouping spans

Attribute sets are opaque (`κ`, compared as `attribute.Distinct` does; their conversion is `value` below), as is what `span`
(span.go:85-115) makes of a span (`β`). -/

/-- `sdk/instrumentation.Scope`. -/
structure Scope where
  name : Bytes := []
  version : Bytes := []
  schema : Bytes := []
deriving DecidableEq, Repr

/-- `tracesdk.ReadOnlySpan`: its resource (which may be nil) with schema URL, its scope, and the converted span. -/
structure SpanIn (κ β : Type) where
  resource : Option (κ × Bytes)
  scope : Scope
  body : β

/-- `tracepb.ScopeSpans`. -/
structure ScopeSpans (β : Type) where
  scope : Option (Bytes × Bytes)
  spans : List β
  schema : Bytes
deriving DecidableEq, Repr

/-- `tracepb.ResourceSpans`; `scopes` are pointers. -/
structure ResPtr (κ : Type) where
  resource : Option κ
  scopes : List Nat
  schema : Bytes
deriving DecidableEq, Repr

/-- `tracepb.ResourceSpans`. -/
structure ResourceSpans (κ β : Type) where
  resource : Option κ
  scopes : List (ScopeSpans β)
  schema : Bytes
deriving DecidableEq, Repr

/-- instrumentation.go:11-19 `InstrumentationScope`. -/
def instrumentationScope (s : Scope) : Option (Bytes × Bytes) := if s = {} then none else some (s.name, s.version)

/-- The two maps of span.go:22-28, and the `ScopeSpans` they point to. -/
structure Groups (κ β : Type) where
  heap : List (ScopeSpans β) := []
  ssm : AMap (κ × Scope) Nat := []
  rsm : AMap κ (ResPtr κ) := []

variable {κ β : Type} [DecidableEq κ] (emptySet : κ)

/-- `sd.Resource().Equivalent()`: of a nil resource, that of the empty set. -/
def rkey (x : SpanIn κ β) : κ := match x.resource with
  | none => emptySet
  | some r => r.1

/-- span.go:50: `append(scopeSpan.Spans, span(sd))`. -/
def ScopeSpans.push (s : ScopeSpans β) (b : β) : ScopeSpans β := { s with spans := s.spans ++ [b] }

/-- span.go:72: `append(rs.ScopeSpans, scopeSpan)`. -/
def ResPtr.extend (r : ResPtr κ) (p : Nat) : ResPtr κ := { r with scopes := r.scopes ++ [p] }

/-- span.go:41-51: the `ScopeSpans` of the span, made if there is none, with the span appended; whether it was known. -/
def addScope (x : SpanIn κ β) (g : Groups κ β) : Groups κ β × Nat × Bool :=
  match g.ssm.get (rkey emptySet x, x.scope) with
  | some p => ({ g with heap := g.heap.modify p (·.push x.body) }, p, true)
  | none =>
    ({ g with heap := g.heap ++ [ScopeSpans.mk (instrumentationScope x.scope) [x.body] x.scope.schema],
              ssm := g.ssm.set (rkey emptySet x, x.scope) g.heap.length }, g.heap.length, false)

/-- span.go:53-73: its `ResourceSpans`, made if there is none, or else extended by a new `ScopeSpans`. -/
def addRes (x : SpanIn κ β) (r : Groups κ β × Nat × Bool) : Groups κ β :=
  match r.1.rsm.get (rkey emptySet x) with
  | none => { r.1 with rsm := r.1.rsm.set (rkey emptySet x) (ResPtr.mk (x.resource.map (·.1)) [r.2.1] ((x.resource.map (·.2)).getD [])) }
  | some rs =>
    if r.2.2 then r.1 else { r.1 with rsm := r.1.rsm.set (rkey emptySet x) (rs.extend r.2.1) }

/-- span.go:31-74: one span. -/
def addSpan (g : Groups κ β) (x : SpanIn κ β) : Groups κ β := addRes emptySet x (addScope emptySet x g)

/-- span.go:17-82 `Spans`: nil spans are skipped; `order` is the iteration order of the map of resources. -/
def spans (order : AMap κ (ResPtr κ) → AMap κ (ResPtr κ)) (sdl : List (Option (SpanIn κ β))) : List (ResourceSpans κ β) :=
  let g := (sdl.filterMap id).foldl (addSpan emptySet) {}
  (order g.rsm).map fun e => { resource := e.2.resource, scopes := e.2.scopes.filterMap (g.heap[·]?), schema := e.2.schema }

/-! ## Attribute values -/

/-- `attribute.Value`; `invalid`: any other type. Doubles by their bits. -/
inductive Value where
  | bool (b : Bool)
  | bools (l : List Bool)
  | int (i : Int)
  | ints (l : List Int)
  | double (d : Nat)
  | doubles (l : List Nat)
  | str (s : Bytes)
  | strs (l : List Bytes)
  | invalid
deriving DecidableEq, Repr

/-- `commonpb.AnyValue`, as far as it is produced. -/
inductive Any where
  | bool (b : Bool)
  | int (i : Int)
  | double (d : Nat)
  | str (s : Bytes)
  | array (l : List Any)
deriving Repr

/-- `INVALID` -/
def invalidText : Bytes := [73, 78, 86, 65, 76, 73, 68]

/-- internal/self/metrics/transform/attribute.go:47-96 `Value` and tracetransform/attribute.go:50 ff. `Value` (the same). -/
def value : Value → Any
  | .bool b => .bool b
  | .bools l => .array (l.map .bool)
  | .int i => .int i
  | .ints l => .array (l.map .int)
  | .double d => .double d
  | .doubles l => .array (l.map .double)
  | .str s => .str s
  | .strs l => .array (l.map .str)
  | .invalid => .str invalidText

/-! ## internal/self/metrics/transform: metrics and errors -/

/-- error.go and `fmt.Errorf("%w")`: a sentinel, an error that wraps one, `errMetric`, `*multiErr`. -/
inductive Err where
  | unknownAggregation
  | unknownTemporality
  | wrap (e : Err)
  | metric (name : Bytes) (e : Err)
  | multi (errs : List Err)
deriving Repr

/-- `metricdata.Temporality`, a byte. -/
abbrev Temporality := Nat

/-- metricdata.go:262-272 `Temporality`: cumulative is 1, delta is 2; the OTLP values are 2 and 1. -/
def temporality (t : Temporality) : Except Err Nat :=
  if t = 2 then .ok 1 else if t = 1 then .ok 2 else .error (.wrap .unknownTemporality)

/-- `metricdata.Aggregation`; points are opaque (`α`). `unknown`: any other type, or nil. -/
inductive Agg (α : Type) where
  | gauge (pts : List α)
  | sum (t : Temporality) (mono : Bool) (pts : List α)
  | hist (t : Temporality) (pts : List α)
  | expHist (t : Temporality) (pts : List α)
  | summary (pts : List α)
  | unknown

/-- `metricdata.Metrics`. -/
structure MetricIn (α : Type) where
  name : Bytes := []
  description : Bytes := []
  unit : Bytes := []
  data : Agg α

/-- `mpb.Metric.Data`. -/
inductive OData (α : Type) where
  | gauge (pts : List α)
  | sum (t : Nat) (mono : Bool) (pts : List α)
  | hist (t : Nat) (pts : List α)
  | expHist (t : Nat) (pts : List α)
  | summary (pts : List α)

/-- `mpb.Metric`. -/
structure MetricOut (α : Type) where
  name : Bytes
  description : Bytes
  unit : Bytes
  data : OData α

variable {α γ : Type} (conv : α → γ)

/-- metricdata.go:84-105 with `Gauge` (110-116), `Sum` (120-132), `Histogram` (161-173), `ExponentialHistogram` (205-217), `Summary` (314-320). -/
def outData : Agg α → Except Err (OData γ)
  | .gauge pts => .ok (.gauge (pts.map conv))
  | .sum t mono pts => (temporality t).map fun t => .sum t mono (pts.map conv)
  | .hist t pts => (temporality t).map fun t => .hist t (pts.map conv)
  | .expHist t pts => (temporality t).map fun t => .expHist t (pts.map conv)
  | .summary pts => .ok (.summary (pts.map conv))
  | .unknown => .error (.wrap .unknownAggregation)

/-- metricdata.go:77-107 `metric`. -/
def metric (m : MetricIn α) : Except Err (MetricOut γ) :=
  (outData conv m.data).map fun d => { name := m.name, description := m.description, unit := m.unit, data := d }

/-- error.go:57-68 `append`: another `*multiErr` is flattened, one layer. -/
def appendErr (errs : List Err) : Err → List Err
  | .multi es => errs ++ es
  | e => errs ++ [e]

/-- error.go:49-54 `errOrNil`. -/
def errOrNil (errs : List Err) : Option Err := if errs = [] then none else some (.multi errs)

/-- metricdata.go:62-75 `Metrics`. -/
def metrics : List (MetricIn α) → List (MetricOut γ) → List Err → List (MetricOut γ) × Option Err
  | [], out, errs => (out, errOrNil errs)
  | m :: ms, out, errs =>
    match metric conv m with
    | .error e => metrics ms out (appendErr errs (.metric m.name e))
    | .ok o => metrics ms (out ++ [o]) errs

/-- `metricdata.ScopeMetrics`, `mpb.ScopeMetrics`. -/
structure ScopeM (μ : Type) where
  scope : Scope
  metrics : List μ

/-- metricdata.go:38-57 `ScopeMetrics`. -/
def scopeMetrics : List (ScopeM (MetricIn α)) → List (ScopeM (MetricOut γ)) → List Err → List (ScopeM (MetricOut γ)) × Option Err
  | [], out, errs => (out, errOrNil errs)
  | s :: ss, out, errs =>
    let r := metrics conv s.metrics [] []
    let errs := match r.2 with
      | none => errs
      | some e => appendErr errs e
    scopeMetrics ss (out ++ [{ scope := s.scope, metrics := r.1 }]) errs

/-- internal/self/metrics.go:20-32 `Export`: what is sent (`none`: nothing) and the error of the transformation. -/
def export' (sms : List (ScopeM (MetricIn α))) : Option (List (ScopeM (MetricOut γ))) × Option Err :=
  let r := scopeMetrics conv sms [] []
  match r.2 with
  | some e => (none, some e)
  | none => (some r.1, none)

/-- Equality of sentinels. -/
def same : Err → Err → Bool
  | .unknownAggregation, .unknownAggregation => true
  | .unknownTemporality, .unknownTemporality => true
  | _, _ => false

mutual
/-- `errors.Is(err, target)` for a sentinel `target`: compares, asks `Is` (error.go:36-38, 97-103), then unwraps (error.go:27-29,
80-95). `fuel`: more than the number of errors inside. -/
def isErr : Nat → Err → Err → Bool
  | 0, _, _ => false
  | n + 1, e, t => same e t || (asksIs n e t || unwraps n e t)
/-- The method `Is`, if there is one. -/
def asksIs : Nat → Err → Err → Bool
  | 0, _, _ => false
  | n + 1, .metric _ e, t => isErr n e t
  | n + 1, .multi (e :: _), t => isErr n e t
  | _ + 1, _, _ => false
/-- The method `Unwrap`, if there is one. -/
def unwraps : Nat → Err → Err → Bool
  | 0, _, _ => false
  | n + 1, .wrap e, t => isErr n e t
  | n + 1, .metric _ e, t => isErr n e t
  | n + 1, .multi [e], t => isErr n e t
  | n + 1, .multi (_ :: e :: es), t => isErr n (.multi (e :: es)) t
  | _ + 1, _, _ => false
end

end Verif.Sf
