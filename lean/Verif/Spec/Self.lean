import Verif.Spec.Decimal
import Mathlib.Data.List.Forall2
import Verif.Model.Self
/-! # What grouping spans, converting attribute values and converting metrics mean -/
namespace Verif.Sf

variable {κ β : Type} [DecidableEq κ] (emptySet : κ)

/-- The attributes an exported resource stands for. -/
def ResourceSpans.key (g : ResourceSpans κ β) : κ := g.resource.getD emptySet

/-- The scope an exported group of spans stands for. -/
def ScopeSpans.key (s : ScopeSpans β) : Scope :=
  { name := (s.scope.getD ([], [])).1, version := (s.scope.getD ([], [])).2, schema := s.schema }

/-- The attributes of the resource a span belongs to. -/
def SpanIn.res (x : SpanIn κ β) : κ := (x.resource.map (·.1)).getD emptySet

/-- The spans `live` are grouped in `out` by the attributes of the resource and by scope: one group for each, holding exactly its
spans, in order. Resource and schema URL of a group are those of its first span. -/
structure Grouped (live : List (SpanIn κ β)) (out : List (ResourceSpans κ β)) : Prop where
  resources : (out.map (·.key emptySet)).Nodup
  scopes : ∀ g ∈ out, (g.scopes.map (·.key)).Nodup
  holds : ∀ g ∈ out, ∀ s ∈ g.scopes, s.spans ≠ [] ∧
    s.spans = (live.filter fun x => decide (x.res emptySet = g.key emptySet ∧ x.scope = s.key)).map (·.body)
  all : ∀ x ∈ live, ∃ g ∈ out, g.key emptySet = x.res emptySet ∧ ∃ s ∈ g.scopes, s.key = x.scope
  nonempty : ∀ g ∈ out, g.scopes ≠ []
  first : ∀ g ∈ out, ∃ x, (live.find? fun x => decide (x.res emptySet = g.key emptySet)) = some x ∧ g.resource = x.resource.map (·.1) ∧
    g.schema = (x.resource.map (·.2)).getD []

/-- Values that an exported attribute does not tell apart: an unsupported value is exported as the text `INVALID`, and of a list
without elements the type of its elements is lost. -/
inductive Confused : Value → Value → Prop
  | text : Confused .invalid (.str (ascii "INVALID"))
  | text' : Confused (.str (ascii "INVALID")) .invalid
  | empty {v w : Value} (hv : v = .bools [] ∨ v = .ints [] ∨ v = .doubles [] ∨ v = .strs [])
      (hw : w = .bools [] ∨ w = .ints [] ∨ w = .doubles [] ∨ w = .strs []) : Confused v w

variable {α γ : Type} (conv : α → γ)

/-- What is wrong with a metric, if anything: its kind is not supported, or its temporality is neither cumulative (1) nor delta (2). -/
def Agg.reason : Agg α → Option Err
  | .unknown => some .unknownAggregation
  | .sum t _ _ | .hist t _ | .expHist t _ => if t = 1 ∨ t = 2 then none else some .unknownTemporality
  | .gauge _ | .summary _ => none

/-- The same temporality in the SDK (cumulative 1, delta 2) and in OTLP (delta 1, cumulative 2). -/
def SameTemporality (t t' : Nat) : Prop := (t = 1 ∧ t' = 2) ∨ (t = 2 ∧ t' = 1)

/-- An aggregation and its exported form. -/
inductive SameData : Agg α → OData γ → Prop
  | gauge (pts : List α) : SameData (.gauge pts) (.gauge (pts.map conv))
  | summary (pts : List α) : SameData (.summary pts) (.summary (pts.map conv))
  | sum {t t' : Nat} (mono : Bool) (pts : List α) (h : SameTemporality t t') : SameData (.sum t mono pts) (.sum t' mono (pts.map conv))
  | hist {t t' : Nat} (pts : List α) (h : SameTemporality t t') : SameData (.hist t pts) (.hist t' (pts.map conv))
  | expHist {t t' : Nat} (pts : List α) (h : SameTemporality t t') : SameData (.expHist t pts) (.expHist t' (pts.map conv))

/-- A metric and its exported form. -/
structure Exported (m : MetricIn α) (o : MetricOut γ) : Prop where
  name : o.name = m.name
  description : o.description = m.description
  unit : o.unit = m.unit
  data : SameData conv m.data o.data

/-- Nothing is wrong with the metric. -/
def MetricIn.valid (m : MetricIn α) : Bool := m.data.reason.isNone

/-- The error names the metric and wraps what is wrong with it. -/
def Reports (m : MetricIn α) (e : Err) : Prop := ∃ r, m.data.reason = some r ∧ e = .metric m.name (.wrap r)

/-- The error lists exactly one report for each of the metrics, in order; no error if there are none. -/
def Reported (bad : List (MetricIn α)) (e : Option Err) : Prop :=
  (bad = [] ∧ e = none) ∨ ∃ es, bad ≠ [] ∧ e = some (.multi es) ∧ List.Forall₂ Reports bad es

/-- `errors.Is(e, t)`: the search ends, and finds `t`. -/
def Is (e t : Err) : Prop := ∃ n, ∀ m, n ≤ m → isErr m e t = true

/-- `errors.Is(e, t)`: the search ends, and does not find `t`. -/
def IsNot (e t : Err) : Prop := ∃ n, ∀ m, n ≤ m → isErr m e t = false

end Verif.Sf
