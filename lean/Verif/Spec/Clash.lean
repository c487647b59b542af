import Verif.Spec.Collapse
/-!
# When merging metrics crashes

Metrics arrive one after the other. Those of a resource or scope that was not seen before are taken over as they are; the others are
merged into the metric that owns their hash.
-/
namespace Verif.Dt

/-- A metric that arrives: whether it is taken over with its whole scope, its hash, and the kind of its data. -/
structure Arrival where
  whole : Bool
  key : Nat
  kind : Option MKind

/-- The metrics of one scope. -/
def arrivalsS (P : Par) (whole : Bool) (sh : Nat) (ms : List Metric) : List Arrival :=
  ms.map fun m => ⟨whole, hashMetric P sh m.name, Metric.kind m⟩

/-- The metrics of one resource; `known`: hashes of the scopes seen so far. -/
def arrivalsR (P : Par) (new : Bool) (r : ResourceG Metric) : List Nat → List (ScopeG Metric) → List Arrival
  | _, [] => []
  | known, s :: rest =>
    arrivalsS P (new || !known.contains (hs P r s)) (hs P r s) s.items ++ arrivalsR P new r (hs P r s :: known) rest

/-- All metrics; `resources`, `scopes`: the hashes seen so far. -/
def arrivals (P : Par) : List Nat → List Nat → List (ResourceG Metric) → List Arrival
  | _, _, [] => []
  | resources, scopes, r :: rest =>
    arrivalsR P (!resources.contains (hr P r)) r scopes r.scopes ++
      arrivals P (hr P r :: resources) (r.scopes.map (hs P r) ++ scopes) rest

/-- The kind of the metric that owns a hash after some arrivals: of the last one with this hash that was taken over with its scope,
or of the first one if there is none. -/
def owner (as : List Arrival) (key : Nat) : Option (Option MKind) :=
  match (as.reverse.find? fun a => a.whole && a.key == key) with
  | some a => some a.kind
  | none => (as.find? fun a => a.key == key).map (·.kind)

/-- A metric with data is merged into a metric that has no data of the same kind. -/
def Clash (as : List Arrival) : Prop :=
  ∃ pre a post, as = pre ++ a :: post ∧ a.whole = false ∧ a.kind ≠ none ∧ ∃ t, owner pre a.key = some t ∧ t ≠ a.kind

end Verif.Dt
