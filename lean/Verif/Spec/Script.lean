import Verif.Spec.Visit
import Verif.Spec.Collapse
import Verif.Spec.EndToEnd
/-!
# What a script is told about a record

A line is a log record, span or data point together with what its resource and scope say. A missing resource or scope says the same
as an empty one.
-/
namespace Verif.Vs

structure Line where
  resourceSchema : Bytes
  resourceAttrs : List KeyValue
  scopeSchema : Bytes
  scopeName : Bytes
  scopeVersion : Bytes
  scopeAttrs : List KeyValue
  record : Rec

def Entry.line (e : Entry) : Line :=
  ⟨e.resourceSchema, resAttrs e.resource, e.scopeSchema, scName e.scope, scVersion e.scope, scAttrs e.scope, e.record⟩

/-- The lines of a payload, in order. -/
def lines (d : Data) : List Line := (entries d).map Entry.line

/-- Without the schema URL of the scope. -/
def Line.bare (l : Line) : Line := { l with scopeSchema := [] }

/-- A line is wanted: the resource, the scope and the record are. -/
def Line.Ok (W : Wanted) (start stop : Nat) (l : Line) : Prop :=
  OneOf W.resourceSchema l.resourceSchema ∧ AllOf W.resourceAttrs l.resourceAttrs ∧
  OneOf W.scopeSchema l.scopeSchema ∧ OneOf W.scopeName l.scopeName ∧ OneOf W.scopeVersion l.scopeVersion ∧ AllOf W.scopeAttrs l.scopeAttrs ∧
  RecOk W start stop l.record

open St (Filter Scan)

/-- Filters that ask for something a record of the signal is filed under and that trimming looks at where it is: the schema URL of
the resource or scope, the name or version of the scope, the severity of log records, the name of spans and metrics, the trace id
of spans (in lower case), string attributes of resources and scopes; none of them empty. -/
inductive Straight (scope : Int) : Filter → Prop
  | group {p v} : p ∈ [Pfx.resourceSchema, Pfx.scopeSchema, Pfx.scopeName, Pfx.scopeVersion] → v ≠ [] → Straight scope (.base p v)
  | level {v} : scope = Res.logs → v ≠ [] → Straight scope (.base Pfx.logsLevel v)
  | name {v} : scope = Res.metrics ∨ scope = Res.traces → v ≠ [] → Straight scope (.base Pfx.name v)
  | trace {h} : scope = Res.traces → h ≠ [] → Straight scope (.base Pfx.traceId (hexEncode h))
  | attr {p k v} : p ∈ [Pfx.resourceAttributes, Pfx.scopeAttributes] → v ≠ [] → Straight scope (.attr p k v)

/-- A scan with such filters only, for different things: at most one value is asked for each of them. -/
structure StraightScan (sc : Scan) : Prop where
  any : sc.filters ≠ []
  each : ∀ f ∈ sc.filters, Vs.Straight sc.scope f
  once : ∀ p v w, .base p v ∈ sc.filters → .base p w ∈ sc.filters → v = w

end Verif.Vs

namespace Verif.Dt
open Vs (resAttrs scName scVersion scAttrs)
variable {α : Type}

/-- Resources and scopes that are merged, because their hashes are the same, say the same. -/
structure Apart (P : Par) (rs : List (ResourceG α)) : Prop where
  resource : ∀ r ∈ rs, ∀ r' ∈ rs, hr P r = hr P r' → r.schema = r'.schema ∧ resAttrs r.resource = resAttrs r'.resource
  scope : ∀ r ∈ rs, ∀ r' ∈ rs, ∀ s ∈ r.scopes, ∀ s' ∈ r'.scopes, hs P r s = hs P r' s' → hr P r = hr P r' ∧
    s.schema = s'.schema ∧ scName s.scope = scName s'.scope ∧ scVersion s.scope = scVersion s'.scope ∧ scAttrs s.scope = scAttrs s'.scope

/-- Metrics that are merged are in the same scope and have the same name. -/
def NamesApart (P : Par) (rs : List (ResourceG Metric)) : Prop :=
  ∀ r ∈ rs, ∀ r' ∈ rs, ∀ s ∈ r.scopes, ∀ s' ∈ r'.scopes, ∀ m ∈ s.items, ∀ m' ∈ s'.items,
    hashMetric P (hs P r s) m.name = hashMetric P (hs P r' s') m'.name → hs P r s = hs P r' s' ∧ m.name = m'.name

def logsOf : Data → List (ResourceG LogRecord)
  | .logs rs => rs
  | _ => []
def tracesOf : Data → List (ResourceG Span)
  | .traces rs => rs
  | _ => []
def metricsOf : Data → List (ResourceG Metric)
  | .metrics rs => rs
  | _ => []

/-- Merging the payloads confuses no two resources, scopes or metrics. -/
structure Unconfused (P : Par) (ds : List Data) : Prop where
  logs : Apart P (ds.flatMap logsOf)
  traces : Apart P (ds.flatMap tracesOf)
  metrics : Apart P (ds.flatMap metricsOf)
  names : NamesApart P (ds.flatMap metricsOf)

end Verif.Dt

namespace Verif

open Classical in
/-- The payloads of the scanned signal that are filed under the scanned views. -/
noncomputable def filedOf (ds : List Data) (E : St.Env) (sc : St.Scan) : List Data :=
  ds.filter fun d => decide (d.signal = some sc.scope ∧ ∃ v ∈ E.views sc, d.InView v)

end Verif
