import Verif.Model.Json
import Verif.Model.Package
import Verif.Model.WireExport
/-!
# Metrics of a script as JSON

packages/rq/src/core_metrics.ts `renderJSON` calls internal/js/rq.go:122-129.
-/
namespace Verif.Pk

/-- internal/js/rq.go:122-129 `RenderMetricsDataJSON`: what is written to the output of the engine, in one piece, or `none`: an exception, and nothing is written. `null` is a nil
message, which is written as an empty one; logs and traces are not metrics, and goja throws. Simplification: errors of the output are left out. -/
def renderJSON (pretty extra : Bool) (shortest : Nat → Int → Fp.Dec) : Value → Option Bytes
  | .metrics rs => (Ex.ofData (.metrics rs)).bind fun p => Jn.json pretty extra shortest p.2
  | .null => Jn.json pretty extra shortest (.msg [] [])
  | .logs _ => none
  | .traces _ => none

end Verif.Pk
