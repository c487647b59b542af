import Verif.Spec.Script
/-!
# When merging can confuse two groups

Merging identifies a group by the xxhash of a text: the texts hashed for the resources, the scopes and the metrics of the
payloads that are merged. A real 64-bit hash collides somewhere, so nothing is asked of texts that are not hashed.
-/
namespace Verif.Dt
open Vs (resAttrs scName scVersion scAttrs)
variable {α : Type}

/-- What a resource says of itself, run together: schema URL and attributes. -/
def resWords (P : Par) (r : ResourceG α) : Bytes := r.schema ++ (resAttrs r.resource).flatMap P.marshal

/-- What a scope says of itself, run together: schema URL, name, version and attributes. -/
def scWords (P : Par) (s : ScopeG α) : Bytes :=
  s.schema ++ scName s.scope ++ scVersion s.scope ++ (scAttrs s.scope).flatMap P.marshal

/-- The texts hashed for resources. -/
def resTexts (P : Par) (rs : List (ResourceG α)) : List Bytes := rs.map (resWords P)

/-- The texts hashed for scopes: eight bytes of the hash of the resource, and what the scope says of itself. -/
def scTexts (P : Par) (rs : List (ResourceG α)) : List Bytes :=
  rs.flatMap fun r => r.scopes.map fun s => u64tob (P.H (resWords P r)) ++ scWords P s

/-- The texts hashed for metrics: eight bytes of the hash of the scope, and the name. -/
def metTexts (P : Par) (rs : List (ResourceG Metric)) : List Bytes :=
  rs.flatMap fun r => r.scopes.flatMap fun s => s.items.map fun m =>
    u64tob (P.H (u64tob (P.H (resWords P r)) ++ scWords P s)) ++ m.name

/-- The hash tells the given texts apart. -/
def NoCollision (P : Par) (T : List Bytes) : Prop := ∀ x ∈ T, ∀ y ∈ T, P.H x = P.H y → x = y

/-- Nothing is lost by running the fields together: resources that read the same are the same, and scopes that read the same
are the same. -/
structure SpelledApart (P : Par) (rs : List (ResourceG α)) : Prop where
  resource : ∀ r ∈ rs, ∀ r' ∈ rs, resWords P r = resWords P r' → r.schema = r'.schema ∧ resAttrs r.resource = resAttrs r'.resource
  scope : ∀ r ∈ rs, ∀ r' ∈ rs, ∀ s ∈ r.scopes, ∀ s' ∈ r'.scopes, scWords P s = scWords P s' →
    s.schema = s'.schema ∧ scName s.scope = scName s'.scope ∧ scVersion s.scope = scVersion s'.scope ∧ scAttrs s.scope = scAttrs s'.scope

/-- The hash tells all the groups of the payloads apart, as far as the hashed texts do, and the texts tell them apart. -/
structure Distinct (P : Par) (ds : List Data) : Prop where
  logs : NoCollision P (resTexts P (ds.flatMap logsOf)) ∧ NoCollision P (scTexts P (ds.flatMap logsOf)) ∧ SpelledApart P (ds.flatMap logsOf)
  traces : NoCollision P (resTexts P (ds.flatMap tracesOf)) ∧ NoCollision P (scTexts P (ds.flatMap tracesOf)) ∧ SpelledApart P (ds.flatMap tracesOf)
  metrics : NoCollision P (resTexts P (ds.flatMap metricsOf)) ∧ NoCollision P (scTexts P (ds.flatMap metricsOf)) ∧
    NoCollision P (metTexts P (ds.flatMap metricsOf)) ∧ SpelledApart P (ds.flatMap metricsOf)

end Verif.Dt
