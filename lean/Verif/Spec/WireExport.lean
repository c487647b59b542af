import Verif.Model.WireExport
import Verif.Spec.Wire
/-!
# Data that a client can export
-/
namespace Verif.Ex
open Pb (Val otlp marshal Fits Utf8)

/-- Bytes that fit in the address space. -/
def Short (b : Bytes) : Prop := b.length < 2 ^ 64

variable (short : Bytes → Prop)

/-- The bytes of a message with none of the fields `seen`; messages are nested at most `d` deep. `short`: how long these bytes may be. -/
def RestOk (d t : Nat) (seen : List Nat) (rest : Bytes) : Prop :=
  ∃ fs u, Fits otlp d (.msg t) (.msg fs u) ∧ marshal otlp t (.msg fs u) = some rest ∧ short rest ∧ ∀ e ∈ fs, e.1 ∉ seen

/-- A value: text is UTF-8, another value is a message without text. -/
def ValueOk (d : Nat) : AnyValue → Prop
  | .str s => Utf8 s
  | .other raw => RestOk short (d + 1) 31 [1] raw

def AttrOk (d : Nat) (kv : KeyValue) : Prop := Utf8 kv.key ∧ ∀ v, kv.value = some v → ValueOk short d v

/-- A byte slice that is not nil is not empty: the wire does not tell them apart. -/
def IdOk (o : Option Bytes) : Prop := o ≠ some []

def ScopeOk (d : Nat) (s : InstrScope) : Prop := Utf8 s.name ∧ Utf8 s.version ∧ ∀ kv ∈ s.attrs, AttrOk short d kv

/-- What a point has beside time and attributes are fields of its message type. -/
def PointOk (d : Nat) (k : MKind) (p : DataPoint) : Prop :=
  p.ts < 2 ^ 64 ∧ (∀ kv ∈ p.attrs, AttrOk short d kv) ∧ RestOk short (d + 3) (pointType k).1 [3, (pointType k).2] p.rest

/-- Gauges and summaries have no temporality, only sums can be monotonic. -/
structure MDataOk (d : Nat) (m : MData) : Prop where
  temporality : -2 ^ 31 ≤ m.temporality ∧ m.temporality < 2 ^ 31
  plain : m.kind = .gauge ∨ m.kind = .summary → m.temporality = 0
  monotonic : m.monotonic = true → m.kind = .sum
  points : ∀ p ∈ m.points, PointOk short d m.kind p

def MetricOk (d : Nat) (m : Metric) : Prop := Utf8 m.name ∧ RestOk short (d + 5) 13 [1, 5, 7, 9, 10, 11] m.rest ∧ ∀ x, m.data = some x → MDataOk short d x

structure LogOk (d : Nat) (l : LogRecord) : Prop where
  ts : l.ts < 2 ^ 64
  severity : Utf8 l.severity
  attrs : ∀ kv ∈ l.attrs, AttrOk short d kv
  traceId : IdOk l.traceId
  spanId : IdOk l.spanId
  rest : RestOk short (d + 3) 14 [1, 3, 6, 9, 10] l.rest

structure SpanOk (d : Nat) (s : Span) : Prop where
  name : Utf8 s.name
  traceId : IdOk s.traceId
  spanId : IdOk s.spanId
  parentSpanId : IdOk s.parentSpanId
  start : s.start < 2 ^ 64
  stop : s.stop < 2 ^ 64
  attrs : ∀ kv ∈ s.attrs, AttrOk short d kv
  rest : RestOk short (d + 3) 15 [1, 2, 4, 5, 7, 8, 9] s.rest

def ScopesOk {α : Type} (d : Nat) (item : α → Prop) (s : ScopeG α) : Prop := Utf8 s.schema ∧ (∀ x, s.scope = some x → ScopeOk short d x) ∧ ∀ i ∈ s.items, item i

def ResourceOk {α : Type} (d : Nat) (item : α → Prop) (r : ResourceG α) : Prop :=
  Utf8 r.schema ∧ (∀ x, r.resource = some x → ∀ kv ∈ x.attrs, AttrOk short (d + 1) kv) ∧ ∀ s ∈ r.scopes, ScopesOk short d item s

/-- Strings are UTF-8, times have 64 bits, what is carried along is what messages carry, and the request is nested at most 10000 messages deep. -/
def DataOk : Data → Prop
  | .metrics rs => ∀ r ∈ rs, ResourceOk short 9994 (MetricOk short 9992) r
  | .logs rs => ∀ r ∈ rs, ResourceOk short 9994 (LogOk short 9994) r
  | .traces rs => ∀ r ∈ rs, ResourceOk short 9994 (SpanOk short 9994) r
  | .none => True

end Verif.Ex
