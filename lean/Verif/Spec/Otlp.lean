import Verif.Model.Otlp
import Verif.Model.Labels
/-!
# Specification: the labels and times a payload carries
-/
namespace Verif

/-- The signal of a payload. -/
def Data.signal : Data → Option Int
  | .metrics _ => some Res.metrics
  | .traces _ => some Res.traces
  | .logs _ => some Res.logs
  | .none => Option.none

/-- `l` is the label of a non-empty string attribute of `kvs`. -/
def AttrLabel (r pfx : Int) (kvs : List KeyValue) (l : Label) : Prop :=
  ∃ kv ∈ kvs, ∃ s, s ≠ [] ∧ kv.value = some (.str s) ∧ l = { resource := r, pfx := pfx, key := kv.key, value := s }

/-- `l` is the label of a non-empty text. -/
def TextLabel (r pfx : Int) (s : Bytes) (l : Label) : Prop := s ≠ [] ∧ l = { resource := r, pfx := pfx, key := s }

/-- `l` is the label of a present id, in hexadecimal. -/
def IdLabel (r pfx : Int) (id : Option Bytes) (l : Label) : Prop :=
  ∃ b, id = some b ∧ l = { resource := r, pfx := pfx, key := hexEncode b }

/-- Labels of resources and scopes. -/
def GroupLabel {α : Type} (r : Int) (item : α → Label → Prop) (rs : List (ResourceG α)) (l : Label) : Prop :=
  ∃ rm ∈ rs,
    TextLabel r Pfx.resourceSchema rm.schema l ∨
    (∃ res, rm.resource = some res ∧ AttrLabel r Pfx.resourceAttributes res.attrs l) ∨
    ∃ sm ∈ rm.scopes,
      TextLabel r Pfx.scopeSchema sm.schema l ∨
      (∃ sc, sm.scope = some sc ∧
        (TextLabel r Pfx.scopeName sc.name l ∨ TextLabel r Pfx.scopeVersion sc.version l ∨
          AttrLabel r Pfx.scopeAttributes sc.attrs l)) ∨
      ∃ x ∈ sm.items, item x l

/-- A metric: its name (even if empty) and the attributes of its data points. -/
def MetricLabel (m : Metric) (l : Label) : Prop :=
  l = { resource := Res.metrics, pfx := Pfx.name, key := m.name } ∨
  ∃ d, m.data = some d ∧ ∃ p ∈ d.points, AttrLabel Res.metrics Pfx.attributes p.attrs l

/-- A log record: severity, attributes, span id, trace id. -/
def LogLabel (x : LogRecord) (l : Label) : Prop :=
  TextLabel Res.logs Pfx.logsLevel x.severity l ∨ AttrLabel Res.logs Pfx.attributes x.attrs l ∨
  IdLabel Res.logs Pfx.spanId x.spanId l ∨ IdLabel Res.logs Pfx.traceId x.traceId l

/-- A span: name, trace id, span id, parent span id. -/
def SpanLabel (x : Span) (l : Label) : Prop :=
  TextLabel Res.traces Pfx.name x.name l ∨ IdLabel Res.traces Pfx.traceId x.traceId l ∨
  IdLabel Res.traces Pfx.spanId x.spanId l ∨ IdLabel Res.traces Pfx.parentSpanId x.parentSpanId l

/-- `l` is one of the labels the payload carries. -/
def Carries : Data → Label → Prop
  | .metrics rs, l => GroupLabel Res.metrics MetricLabel rs l
  | .logs rs, l => GroupLabel Res.logs LogLabel rs l
  | .traces rs, l => GroupLabel Res.traces SpanLabel rs l
  | .none, _ => False

/-- The payload has a record that starts at `a` and ends at `b` (equal for data points and log records). -/
def HasTime : Data → Nat → Nat → Prop
  | .metrics rs, a, b => a = b ∧ ∃ rm ∈ rs, ∃ sm ∈ rm.scopes, ∃ m ∈ sm.items, ∃ d, m.data = some d ∧ ∃ p ∈ d.points, p.ts = a
  | .logs rs, a, b => a = b ∧ ∃ rm ∈ rs, ∃ sm ∈ rm.scopes, ∃ x ∈ sm.items, x.ts = a
  | .traces rs, a, b => ∃ rm ∈ rs, ∃ sm ∈ rm.scopes, ∃ x ∈ sm.items, x.start = a ∧ x.stop = b
  | .none, _, _ => False

end Verif
