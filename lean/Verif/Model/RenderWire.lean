import Verif.Model.Render
import Verif.Model.WireExport
import Verif.Model.WireRender
/-!
# Metrics of a script as text

packages/rq/src/core_metrics.ts `render` calls internal/js/rq.go:131-134 with the message that came over the network.
-/
namespace Verif.Rd
open Pb (Val)
open Rq (vals getTxt getNum)

/-- For internal/render/attribute.go:22. -/
def bytesIn : Val → Bytes
  | .bytes b => b
  | _ => []
/-- For internal/render/attribute.go:24. -/
def numIn : Val → Nat
  | .num n => n
  | _ => 0

mutual
/-- A message of type `AnyValue` as internal/render/attribute.go:20-60 sees it. -/
def any : Val → Any
  | .msg fs _ => anyOf fs
  | _ => .unset
/-- The one field that is set. For internal/render/attribute.go:21. -/
def anyOf : List (Nat × Val) → Any
  | [] => .unset
  | (n, v) :: r =>
    if n = 1 then .str (bytesIn v)
    else if n = 2 then .bool (numIn v ≠ 0)
    else if n = 3 then .int (Tm.toInt64 (numIn v))
    else if n = 4 then .double (numIn v)
    else if n = 5 then .array (arrayOf v)
    else if n = 6 then .kvs (listOf v)
    else if n = 7 then .bytes (bytesIn v)
    else anyOf r
/-- `ArrayValue.Values`, for internal/render/attribute.go:31. -/
def arrayOf : Val → List Any
  | .msg fs _ => elemsOf fs
  | _ => []
/-- For internal/render/attribute.go:31. -/
def elemsOf : List (Nat × Val) → List Any
  | [] => []
  | (n, v) :: r => if n = 1 then any v :: elemsOf r else elemsOf r
/-- `KvlistValue.Values`, for internal/render/attribute.go:41. -/
def listOf : Val → List (Bytes × Any)
  | .msg fs _ => pairsOf fs
  | _ => []
/-- For internal/render/attribute.go:41. -/
def pairsOf : List (Nat × Val) → List (Bytes × Any)
  | [] => []
  | (n, v) :: r => if n = 1 then (keyOf v, valueOf v) :: pairsOf r else pairsOf r
/-- `KeyValue.Key`, for internal/render/attribute.go:47. -/
def keyOf : Val → Bytes
  | .msg fs _ => getTxt 1 (.msg fs [])
  | _ => []
/-- `KeyValue.Value`, nil if it is not there, for internal/render/attribute.go:49. -/
def valueOf : Val → Any
  | .msg fs _ => firstOf fs
  | _ => .nil
/-- For internal/render/attribute.go:49. -/
def firstOf : List (Nat × Val) → Any
  | [] => .nil
  | (n, v) :: r => if n = 2 then any v else firstOf r
end

/-- Messages of type `KeyValue`. For internal/render/attribute.go:11. -/
def attrsOf (l : List Val) : List (Bytes × Any) := l.map fun kv => (keyOf kv, valueOf kv)

/-- `num`: the value of a point as a double. For internal/render/metrics.go:113-118, 127-134. -/
def pointOf (num : Val → Nat) (p : Val) : Point := { time := getNum 3 p, num := num p, attrs := attrsOf (vals 7 p) }

/-- For internal/render/metrics.go:80-106. -/
def metricOf (num : Val → Nat) (m : Val) : Metric :=
  { name := getTxt 1 m, description := getTxt 2 m, unit := getTxt 3 m
    data := match vals 5 m, vals 7 m with
      | g :: _, _ => .gauge ((vals 1 g).map (pointOf num))
      | [], s :: _ => .sum ((vals 1 s).map (pointOf num))
      | [], [] => .other [] }

/-- For internal/render/metrics.go:56-76. -/
def scopeOf (num : Val → Nat) (s : Val) : Scope :=
  let i := (vals 1 s).headD (.msg [] [])
  { name := getTxt 1 i, schema := getTxt 3 s, version := getTxt 2 i, attrs := attrsOf (vals 3 i), metrics := (vals 2 s).map (metricOf num) }

/-- For internal/render/metrics.go:35-54. -/
def resourceOf (num : Val → Nat) (r : Val) : Resource :=
  { schema := getTxt 3 r, attrs := attrsOf (vals 1 ((vals 1 r).headD (.msg [] []))), scopes := (vals 2 r).map (scopeOf num) }

/-- For internal/render/metrics.go:26. -/
def metricsOf (num : Val → Nat) (v : Val) : List Resource := (vals 1 v).map (resourceOf num)

end Verif.Rd
namespace Verif.Pk

/-- internal/js/rq.go:131-134 `RenderMetricsData`; `none`: the process ends. metrics.go:26: of a nil message, too. -/
def renderText (O : Rd.Out) (o : Rd.Opts) (num : Pb.Val → Nat) : Value → Option Bytes
  | .metrics rs => (Ex.ofData (.metrics rs)).bind fun p => Rd.metricsData O o (Rd.metricsOf num p.2)
  | _ => none

end Verif.Pk
