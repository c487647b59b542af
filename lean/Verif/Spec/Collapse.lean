import Verif.Model.Collapse
/-!
# What merging payloads should do

Groups are identified by the hashes of their resource, scope and metric name. `records` lists every log record or span of
a payload with the hashes of its resource and scope, `points` every data point with the hashes of its resource, scope and
metric, and its kind.
-/
namespace Verif.Dt
variable {α : Type}

/-- Hash of a resource of a payload. -/
def hr (P : Par) (r : ResourceG α) : Nat := hashResource P r.schema r.resource

/-- Hash of a scope of a resource of a payload. -/
def hs (P : Par) (r : ResourceG α) (s : ScopeG α) : Nat := hashScope P (hr P r) s.schema s.scope

/-- Records with their groups. -/
def records (P : Par) (rs : List (ResourceG α)) : List (Nat × Nat × α) :=
  rs.flatMap fun r => r.scopes.flatMap fun s => s.items.map fun x => (hr P r, hs P r s, x)

/-- The points of a metric and their kind. -/
def Metric.points (m : Metric) : List (MKind × DataPoint) :=
  match m.data with
  | none => []
  | some d => d.points.map fun p => (d.kind, p)

/-- Points with their groups. -/
def points (P : Par) (rs : List (ResourceG Metric)) : List (Nat × Nat × Nat × MKind × DataPoint) :=
  rs.flatMap fun r => r.scopes.flatMap fun s => s.items.flatMap fun m =>
    (Metric.points m).map fun p => (hr P r, hs P r s, hashMetric P (hs P r s) m.name, p)

/-- Different resources do not have a scope with the same hash. -/
def ScopesApart (P : Par) (rs : List (ResourceG α)) : Prop :=
  ∀ r ∈ rs, ∀ r' ∈ rs, ∀ s ∈ r.scopes, ∀ s' ∈ r'.scopes, hs P r s = hs P r' s' → hr P r = hr P r'

/-- Different scopes do not have a metric with the same hash. -/
def MetricsApart (P : Par) (rs : List (ResourceG Metric)) : Prop :=
  ∀ r ∈ rs, ∀ r' ∈ rs, ∀ s ∈ r.scopes, ∀ s' ∈ r'.scopes, ∀ m ∈ s.items, ∀ m' ∈ s'.items,
    hashMetric P (hs P r s) m.name = hashMetric P (hs P r' s') m'.name → hs P r s = hs P r' s'

/-- The kind of a metric. -/
def Metric.kind (m : Metric) : Option MKind := m.data.map (·.kind)

/-- Metrics that are merged have the same kind. -/
def SameKinds (P : Par) (rs : List (ResourceG Metric)) : Prop :=
  ∀ r ∈ rs, ∀ r' ∈ rs, ∀ s ∈ r.scopes, ∀ s' ∈ r'.scopes, ∀ m ∈ s.items, ∀ m' ∈ s'.items,
    hashMetric P (hs P r s) m.name = hashMetric P (hs P r' s') m'.name → Metric.kind m = Metric.kind m'

/-- `r` has a scope with hash `sh` and is itself in group `rh`. -/
def HasScope (P : Par) (rs : List (ResourceG α)) (rh sh : Nat) : Prop := ∃ r ∈ rs, ∃ s ∈ r.scopes, hr P r = rh ∧ hs P r s = sh

/-- Merged by group: the resources are those of the input, each once, in the order in which they first occur; every resource
has the scopes it has in the input; and no resource has a scope twice, unless a single input resource already had. -/
structure Grouped (P : Par) (ins out : List (ResourceG α)) : Prop where
  order : out.map (hr P) = (ins.map (hr P)).eraseDups
  once : (out.map (hr P)).Nodup
  scopes : ∀ rh sh, HasScope P out rh sh ↔ HasScope P ins rh sh
  scopesOnce : (∀ r ∈ ins, (r.scopes.map (hs P r)).Nodup) → ∀ r ∈ out, (r.scopes.map (hs P r)).Nodup

/-- All records, without their groups. -/
def plainRecords (rs : List (ResourceG α)) : List α := rs.flatMap fun r => r.scopes.flatMap fun s => s.items

/-- All points with their kinds, without their groups. -/
def plainPoints (rs : List (ResourceG Metric)) : List (MKind × DataPoint) :=
  rs.flatMap fun r => r.scopes.flatMap fun s => s.items.flatMap Metric.points

end Verif.Dt
