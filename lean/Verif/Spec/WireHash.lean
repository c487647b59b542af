import Verif.Model.WireHash
import Verif.Spec.Confusion
/-!
# Attributes as the wire has them
-/
namespace Verif.Pb
open Vs (resAttrs scName scVersion scAttrs)
variable {α : Type}

/-- An attribute that could have come from the wire: its parts are not longer than lengths can say, and what is not a string
is not written like one. -/
structure KvOk (kv : KeyValue) : Prop where
  key : kv.key.length < 2 ^ 64
  value : ∀ v, kv.value = some v → (valueBytes v).length < 2 ^ 64
  other : ∀ raw, kv.value = some (.other raw) → ∀ s : Bytes, s.length < 2 ^ 64 → raw ≠ valueBytes (.str s)

/-- The attributes are as above and none has the empty key. -/
def AttrsOk (l : List KeyValue) : Prop := ∀ kv ∈ l, KvOk kv ∧ kv.key ≠ []

/-- No line feed. -/
def OneLine (b : Bytes) : Prop := (10 : UInt8) ∉ b

/-- A resource with a schema URL without line feeds and attributes with keys. -/
structure ResOk (r : ResourceG α) : Prop where
  schema : OneLine r.schema
  attrs : AttrsOk (resAttrs r.resource)

/-- The same of a scope. -/
structure ScopeOk (s : ScopeG α) : Prop where
  schema : OneLine s.schema
  name : OneLine (scName s.scope)
  version : OneLine (scVersion s.scope)
  attrs : AttrsOk (scAttrs s.scope)

end Verif.Pb
