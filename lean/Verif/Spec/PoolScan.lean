import Verif.Spec.Pool
import Verif.Model.PoolScan
/-! # What the databases answer to a scan -/
namespace Verif.Pl
open St (Env Store)

/-- The answers of a store, as in Model/Store.lean, Model/Shards.lean and Model/Frame.lean. -/
def dbAnswer {σ : Type} (D : Dict σ) (s : Store σ) (E : Env) : Ask → Ans
  | .find key => if E.findFault key then .failed else match D.look s.ctx.st key with
    | none => .missing
    | some n => .id n
  | .shard k => if E.rowsFault then .failed else if k ∈ s.idx.opened then .found else .missing
  | .rows k v cols => .bits (Sh.matchRows (s.idx.disk.bits k v) cols)
  | .view v => if E.frameFault v then .failed else match s.frame v with
    | none => .missing
    | some _ => .found
  | .ids kind v => match s.frame v with
    | none => .missing
    | some r => .bits (r.set kind)
  | .table v => match s.frame v with
    | none => .missing
    | some r => .table r.rows
  | _ => .failed

end Verif.Pl
