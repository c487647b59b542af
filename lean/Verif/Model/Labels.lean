import Verif.Model.Bytes
/-!
# Labels and sample keys
-/
namespace Verif

/- proto/rq/v1 `RESOURCE` numbers. -/
namespace Res
def unknown : Int := 0
def metrics : Int := 1
def traces : Int := 2
def logs : Int := 3
end Res

/- proto/rq/v1 `PREFIX` numbers (those that the code uses). -/
namespace Pfx
def unknown : Int := 0
def resourceAttributes : Int := 1
def scopeSchema : Int := 2
def scopeName : Int := 3
def scopeVersion : Int := 4
def scopeAttributes : Int := 5
def name : Int := 6
def attributes : Int := 7
def traceId : Int := 8
def spanId : Int := 9
def parentSpanId : Int := 10
def logsLevel : Int := 11
def resourceSchema : Int := 13
end Pfx

/-- internal/labels/labels.go:10-16 `Label` (the scratch buffer `buf` is not part of the value: `Encode` truncates it
first, labels.go:43). Enum fields are the int32 of open proto3 enums. -/
structure Label where
  resource : Int := 0
  pfx : Int := 0
  key : Bytes := []
  value : Bytes := []
deriving DecidableEq, Repr

/-- `=` -/
def eqSign : UInt8 := 61
/-- `:` -/
def colon : UInt8 := 58

/-- internal/labels/labels.go:42-48 `Label.Encode`: `"%d:%d:%s"`, then `"=%s"` when the value is not empty. -/
def Label.encode (l : Label) : Bytes :=
  let buf := decInt l.resource ++ colon :: (decInt l.pfx ++ colon :: l.key)
  if l.value ≠ [] then buf ++ eqSign :: l.value else buf

/-- internal/labels/labels.go:54-61 `Label.Reset`. -/
def Label.reset (_ : Label) : Label := {}

/-- internal/keys/keys.go:10-14 `Sample` key. -/
structure SampleKey where
  resource : Int := 0
  id : Nat := 0
deriving DecidableEq, Repr

/-- internal/keys/keys.go:47-50 `Sample.Encode`: `"%d:%d"`. -/
def SampleKey.encode (k : SampleKey) : Bytes := decInt k.resource ++ colon :: dec k.id

/-- internal/keys/keys.go:56-59 `Sample.Prefix`: `"%d:"`. -/
def SampleKey.scanPrefix (k : SampleKey) : Bytes := decInt k.resource ++ [colon]

end Verif
