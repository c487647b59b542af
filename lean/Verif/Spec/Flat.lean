import Verif.Model.Flat
import Verif.Spec.Dict
import Mathlib.Data.List.Forall2
/-!
# Specification: what the rows of flattened metrics must be
-/
namespace Verif.Fl

/-- A data point with all that surrounds it. `H`: the points of histograms and summaries. -/
structure Fact where
  resource : List KeyValue
  scope : List KeyValue
  metric : Metric
  point : NPoint ⊕ HPoint

/-- The data points of a metric. -/
def Points.all : Points → List (NPoint ⊕ HPoint)
  | .gauge l => l.map .inl
  | .sum _ _ l => l.map .inl
  | .hist _ l => l.map .inr
  | .expHist _ l => l.map .inr
  | .summary l => l.map .inr

/-- The data points of a payload, in order. -/
def facts (data : List (ResourceG Metric)) : List Fact :=
  data.flatMap fun r => r.scopes.flatMap fun s => s.items.flatMap fun x =>
    ((x.data.map Points.all).getD []).map fun p =>
      { resource := (r.resource.map (·.attrs)).getD [], scope := (s.scope.map (·.attrs)).getD [], metric := x, point := p }

/-- The attributes of a data point. -/
def pointAttrs : NPoint ⊕ HPoint → List KeyValue
  | .inl p => p.attrs
  | .inr p => p.attrs

/-- The point's own attributes. -/
def Fact.own (f : Fact) : List KeyValue := pointAttrs f.point

/-- All its attributes. -/
def Fact.attrs (f : Fact) : List KeyValue := f.resource ++ f.scope ++ f.own

def Fact.exemplars (f : Fact) : List Bytes := match f.point with | .inl p => p.exemplars | .inr p => p.exemplars

def Fact.kind (f : Fact) : Option Kind := f.metric.data.map fun
  | .gauge _ => .gauge
  | .sum .. => .sum
  | .hist .. => .histogram
  | .expHist .. => .exponentialHistogram
  | .summary _ => .summary

def Fact.temporality (f : Fact) : Int := match f.metric.data with
  | some (.sum t _ _) => t
  | some (.hist t _) => t
  | some (.expHist t _) => t
  | _ => 0

def Fact.monotonic (f : Fact) : Bool := match f.metric.data with
  | some (.sum _ m _) => m
  | _ => false

/-- The value of a number point as a double, if it has one. -/
def Fact.number (float : Int → Nat) (f : Fact) : Option Nat := match f.point with
  | .inl p => p.value.map fun | .double b => b | .int v => float v
  | .inr _ => none

/-- The contents of a histogram or summary point, if it is one of this kind. -/
def Fact.body (f : Fact) (k : Kind) : Option Bytes := match f.point with
  | .inr p => if f.kind = some k then some p.body else none
  | .inl _ => none

/-- The row says of the point all there is to say, except its value. (Summaries have no exemplars.) -/
structure Row.Describes (r : Row) (f : Fact) : Prop where
  name : r.name = f.metric.name
  description : r.description = f.metric.description
  unit : r.unit = f.metric.unit
  kind : some r.kind = f.kind
  attributes : r.attributes = f.attrs
  start : r.start = (match f.point with | .inl p => p.start | .inr p => p.start)
  time : r.time = (match f.point with | .inl p => p.time | .inr p => p.time)
  exemplars : r.exemplars = if f.kind = some .summary then [] else f.exemplars
  histogram : r.histogram = f.body .histogram
  expHistogram : r.expHistogram = f.body .exponentialHistogram
  summary : r.summary = f.body .summary
  temporality : r.temporality = f.temporality
  monotonic : r.monotonic = f.monotonic

/-- What a label of an attribute looks like; only string values have one. -/
def KeyValue.label (kv : KeyValue) : Option Bytes := match kv.value with
  | some (.str s) => some (kv.key ++ [61] ++ s)
  | _ => none

/-- `__name__=` and the name. -/
def nameLabel (name : Bytes) : Bytes := [95, 95, 110, 97, 109, 101, 95, 95, 61] ++ name

/-- A number point has a value; other points always have one. -/
def Fact.HasValue (f : Fact) : Prop := match f.point with | .inl p => p.value ≠ none | .inr _ => True

/-- The labels a row is filed under: its name and its own string attributes. -/
def Fact.Label (f : Fact) (l : Bytes) : Prop := l = nameLabel f.metric.name ∨ ∃ kv ∈ f.own, KeyValue.label kv = some l

/-- The bitmap of a row: the columns of its labels, ascending. -/
def Fact.Columns {σ : Type} (D : Dict σ) (st : σ) (f : Fact) (b : Bm) : Prop :=
  b.Pairwise (· < ·) ∧ ∀ c, c ∈ b ↔ ∃ l, f.Label l ∧ D.look st l = some c

end Verif.Fl
