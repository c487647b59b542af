import Verif.Spec.Json
import Verif.Model.Render
/-!
# Attributes without a value in a message

Numbers of fields: opentelemetry-proto v1.2.0. Of a field that is no list a message has one value, of the choices of a value one.
-/
namespace Verif.Rd
open Pb (Val)

/-- The values of a field of a message. -/
def field (k : Nat) : Val → List Val
  | .msg fs _ => Jn.valuesOf fs k
  | _ => []

/-- What an `AnyValue` is: the number of the choice, and what is chosen. -/
def choice : Val → Option (Nat × Val)
  | .msg fs _ => fs.find? fun e => 1 ≤ e.1 ∧ e.1 ≤ 7
  | _ => none

/-- `Hole true kv`: the `KeyValue` has no value, or one that has a hole. `Hole false a`: inside the `AnyValue` there is an array or a list with a hole. -/
inductive Hole : Bool → Val → Prop
  | missing {kv : Val} : field 2 kv = [] → Hole true kv
  | value {kv a : Val} : (field 2 kv).head? = some a → Hole false a → Hole true kv
  | array {a l e : Val} : choice a = some (5, l) → e ∈ field 1 l → Hole false e → Hole false a
  | list {a l kv : Val} : choice a = some (6, l) → kv ∈ field 1 l → Hole true kv → Hole false a

/-- The `KeyValue`s in metrics that are printed: those of points of gauges and sums, and if asked for those of resources and scopes. -/
inductive Printed (o : Opts) (v : Val) : Val → Prop
  | resource {r res kv : Val} : o.resource = true → r ∈ field 1 v → (field 1 r).head? = some res → kv ∈ field 1 res → Printed o v kv
  | scope {r s i kv : Val} : o.scope = true → r ∈ field 1 v → s ∈ field 2 r → (field 1 s).head? = some i → kv ∈ field 3 i → Printed o v kv
  | gauge {r s m g p kv : Val} : r ∈ field 1 v → s ∈ field 2 r → m ∈ field 2 s → (field 5 m).head? = some g → p ∈ field 1 g → kv ∈ field 7 p → Printed o v kv
  | sum {r s m g p kv : Val} : r ∈ field 1 v → s ∈ field 2 r → m ∈ field 2 s → field 5 m = [] → (field 7 m).head? = some g → p ∈ field 1 g → kv ∈ field 7 p → Printed o v kv

end Verif.Rd
