import Verif.Spec.PoolScan
import Verif.Spec.PoolFlush
import Verif.Spec.PoolTranslate
import Verif.Model.PoolTrim
/-! # What the goroutines of a process do with recycled objects -/
namespace Verif.Pl
open St (Scan Env Result Flush Outcome)

/-- A scan, a flush (`resource`: what the flush before left in the label of the context), the trimming of a scan's result for a script. -/
inductive Job where
  | scan (E : Env) (sc : Scan)
  | flush (resource : Int) (fl : Flush)
  | trim (H : Vs.Hashes) (clock : Int) (a : Scan) (r : Result)

inductive Out where
  | result (r : Result)
  | flushed (o : Outcome) (resource : Int)

def Job.prog : Job → P Out
  | .scan E sc => do let r ← Pl.scan E sc; pure (.result r)
  | .flush r fl => do let o ← Pl.flush r fl; pure (.flushed o.1 o.2)
  | .trim H clock a r => do let r ← Pl.jsScan H clock a r; pure (.result r)

/-- Go ranges over a map in some order: each entry once. -/
def Job.Ok : Job → Prop
  | .scan E _ => ∀ m, (E.colOrder m).Perm m
  | _ => True

/-- What is asked of the dictionary whose prefixes are these. -/
inductive TJob where
  | key (keys ids key : Bytes)
  | id (ids : Bytes) (id : Nat)
  | bulk (ids : Bytes) (l : List Nat)

def TJob.prog : TJob → T TOut
  | .key keys ids k => translateKey keys ids k
  | .id ids i => translateID ids i
  | .bulk ids l => translateBulk ids l

end Verif.Pl
