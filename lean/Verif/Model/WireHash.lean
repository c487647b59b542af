import Verif.Model.WireOtlp
import Verif.Model.Collapse
import Verif.Model.XxHash
/-!
# The text that is hashed for an attribute

Merging (Model/Collapse.lean) has the encoding of an attribute as a parameter. This is the encoding.
-/
namespace Verif.Pb

/-- The value of an attribute, internal/data/sort.go:116: a string is field 1 of `AnyValue`, of another value the encoding is given. -/
def valueBytes : AnyValue → Bytes
  | .str s => tag 1 2 ++ delimited s
  | .other raw => raw

/-- internal/data/sort.go:114-119 `attr`: `MarshalAppend` of a `KeyValue`. An empty key is not written. Strings that are not UTF-8, for which the
error is not looked at, are not modelled: none is received (C93). -/
def kvBytes (kv : KeyValue) : Bytes :=
  (if kv.key = [] then [] else tag 1 2 ++ delimited kv.key) ++
  match kv.value with
  | none => []
  | some v => tag 2 2 ++ delimited (valueBytes v)

/-- internal/data/sort.go:26-27: xxHash64 of the encodings. -/
def wirePar : Dt.Par := ⟨Xx.sum64, kvBytes⟩

end Verif.Pb
