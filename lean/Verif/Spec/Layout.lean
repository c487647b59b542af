import Verif.Spec.Shared
import Verif.Spec.Decimal
import Verif.Spec.Views
/-!
# What is kept in the database, under which keys

The texts of keys are written as string literals.
-/
namespace Verif

/-- `b` is the number `n` in eight bytes, the most significant first. -/
def Be64 (n : Nat) (b : Bytes) : Prop := b.length = 8 ∧ b.foldl (fun a c => 256 * a + c.toNat) 0 = n

namespace Shr

/-- The four entries of a view. -/
inductive ViewEntry (v : Bytes) (q : Quad) : Bytes → Bytes → Prop
  | rows : ViewEntry v q v q.rows
  | metrics : ViewEntry v q (ascii "sets_metrics_" ++ v) q.metrics
  | traces : ViewEntry v q (ascii "sets_traces_" ++ v) q.traces
  | logs : ViewEntry v q (ascii "sets_logs_" ++ v) q.logs

/-- An entry of the database: a counter, an entry of the dictionary `dict`, or one of the stored views. -/
inductive Entry (views : Bytes → Option Quad) (dict : Bytes → Nat → Prop) : Bytes → Bytes → Prop
  /-- the next id of samples -/
  | samples {n : Nat} {b : Bytes} : Be64 n b → Entry views dict [0, 0, 0, 0, 0, 0, 0, 0, 4, 0, 0, 0] b
  /-- the next id of labels, as leased when the process starts -/
  | start {n : Nat} {b : Bytes} : Be64 n b → Entry views dict (ascii "5seq") b
  /-- the next id of labels, as leased later -/
  | later {n : Nat} {b : Bytes} : Be64 n b → Entry views dict (ascii "5ids") b
  /-- from label to id -/
  | label {k : Bytes} {n : Nat} {b : Bytes} : dict k n → Be64 n b → Entry views dict (ascii "5idss" ++ k) b
  /-- from id to label -/
  | id {k : Bytes} {n : Nat} {b : Bytes} : dict k n → Be64 n b → Entry views dict (ascii "5ids" ++ b) k
  | view {v : Bytes} {q : Quad} {x y : Bytes} : views v = some q → ViewEntry v q x y → Entry views dict x y

end Shr
end Verif
