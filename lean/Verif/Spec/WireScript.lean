import Verif.Spec.WireAnswer
import Verif.Spec.Package
import Verif.Model.Parse
/-!
# Scripts whose scans can be sent
-/
namespace Verif.Pk

/-- What JavaScript hands over: strings as UTF-8, dates of 64-bit milliseconds. No offset of `-2^63` nanoseconds (292 years into the future). -/
def MethodOk : Method → Prop
  | .offset d => Un.parseDuration d ≠ some (-2 ^ 63)
  | .now ms => -2 ^ 63 ≤ ms ∧ ms < 2 ^ 63
  | .resourceSchema v | .scopeSchema v | .scopeName v | .scopeVersion v | .name v | .traceId v | .spanId v | .parentSpanId v | .logLevel v => Pb.Utf8 v
  | .resourceAttr k v | .scopeAttr k v | .attr k v => Pb.Utf8 k ∧ Pb.Utf8 v
  | _ => True

/-- The bytes of the request for a scan, or those of its answer, are more than gRPC takes, 4 MiB. -/
def TooLong (answer : St.Result) (a : St.Scan) : Prop :=
  (∃ b, Pb.marshal Rq.rq 0 (Rq.ofReq (Rq.reqOf a)) = some b ∧ 2 ^ 22 < b.length) ∨
    ∃ o w, answer = .data o ∧ Pb.marshal Pb.otlp 0 (Ex.answerVal o) = some w ∧ 2 ^ 22 < w.length

end Verif.Pk
