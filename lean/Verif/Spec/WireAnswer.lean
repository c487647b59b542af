import Verif.Model.WireAnswer
import Verif.Spec.WireExport
import Verif.Spec.WireScan
/-!
# Data that can be sent as an answer
-/
namespace Verif.Ex

/-- As `DataOk`, with `d` messages below a scope's records; `DataOk` has 9994. -/
def DataAt (short : Bytes → Prop) (d : Nat) : Data → Prop
  | .metrics rs => ∀ r ∈ rs, ResourceOk short d (MetricOk short (d - 2)) r
  | .logs rs => ∀ r ∈ rs, ResourceOk short d (LogOk short d) r
  | .traces rs => ∀ r ∈ rs, ResourceOk short d (SpanOk short d) r
  | .none => True

/-- Data that was exported with a request that is nested less than 10000 messages deep. -/
def Answerable (d : Data) : Prop := DataAt Short 9993 d

/-- What the server saves for a call of kind `k` (metrics, logs, traces) with some bytes, which are a request that is nested less than 10000 messages deep. -/
def Sent (d : Data) : Prop :=
  ∃ k b v, (k = 1 ∨ k = 2 ∨ k = 3) ∧ received k b = some d ∧ Pb.unmarshal Pb.otlp k b = some v ∧ Pb.Fits Pb.otlp 9999 (.msg k) v

/-- A scan that a script can ask for: a scope and a limit in range, filters with text, times that `TimesOk` allows, no offset of `-2^63` nanoseconds. -/
structure ScanOk (a : St.Scan) : Prop where
  scope : -2 ^ 31 ≤ a.scope ∧ a.scope < 2 ^ 31
  filters : ∀ f ∈ a.filters, Rq.FilterOk f
  limit : a.limit < 2 ^ 64
  times : Rq.TimesOk a.time
  offset : a.time.offset ≠ some (-2 ^ 63)

end Verif.Ex
