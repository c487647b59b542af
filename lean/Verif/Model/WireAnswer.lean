import Verif.Model.WireExport
import Verif.Model.Js
/-!
# The answer of a scan over the network

`rq query` runs scripts at the client: their scans are requests to the server (internal/commands/query/query.go:68-72), and their answers come back as messages.
Model/Js.lean has this as `rpc`, without the bytes. Here are the bytes.
-/
namespace Verif.Ex
open Pb (Val otlp marshal unmarshal)

/-- internal/service/api.go:12-14: what is sent as the answer; a nil message is written as an empty one. Simplification: as in `toData`, what the program does not read of a resource
and of a scope is left out. -/
def answerVal : Option Data → Val
  | none => .msg [] []
  | some d => match ofData d with
    | none => .msg [] []
    | some p => .msg [p] []

/-- internal/commands/query/query.go:71: what the client reads; `none`: gRPC refuses the bytes, as they are too many or not a message. -/
def got (w : Bytes) : Option Data := if Rq.recvLimit < w.length then none else (unmarshal otlp 0 w).map toData

/-- What comes back for an answer of the store, internal/service/api.go:12-14, internal/commands/query/query.go:71. If the server panics, or cannot write the message, the call
fails. -/
def back : St.Result → St.Result
  | .data d => match marshal otlp 0 (answerVal d) with
    | none => .err
    | some w => match got w with
      | none => .err
      | some d => .data (some d)
  | .panic => .err
  | r => r

/-- internal/commands/query/query.go:68-72: a scan of a script that `rq query` runs, with the bytes that are sent. -/
def netScan {σ : Type} (D : Dict σ) (s : St.Store σ) (E : St.Env) (clock : Rq.GoTime) (a : St.Scan) : St.Result :=
  match marshal Rq.rq 0 (Rq.ofReq (Rq.reqOf a)) with
  | none => .err
  | some b => match Rq.scanSamples D s E clock b with
    | none => .err
    | some r => back r

end Verif.Ex
