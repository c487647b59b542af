import Verif.Spec.Pool
import Verif.Model.PoolFlush
/-! # What the databases answer to a flush -/
namespace Verif.Pl

/-- What the databases hold, and how many more transactions of the data frame and the index commit. -/
structure Dbs (σ : Type) where
  dict : σ
  frame : Df.Frame
  idx : Sh.Store
  commits : Nat

/-- The answers, and what the databases hold afterwards, as in Model/Transform.lean, Model/Frame.lean and Model/Store.lean. -/
def flushAnswer {σ : Type} (D : Dict σ) (w : Dbs σ) : Ask → Ans × Dbs σ
  | .translate k => match D.tr w.dict k with
    | none => (.failed, w)
    | some (d, n) => (.id n, { w with dict := d })
  | .view v => (match w.frame v with | none => .missing | some _ => .found, w)
  | .table v => (match w.frame v with | none => .missing | some r => .table r.rows, w)
  | .ids kind v => (match w.frame v with | none => .missing | some r => .bits (r.set kind), w)
  | .write v r =>
    if w.commits = 0 then (.failed, w)
    else (.found, { w with frame := fun x => if x = v then some r else w.frame x, commits := w.commits - 1 })
  | .index k ws =>
    if w.commits = 0 then (.failed, { w with idx := w.idx.update k ws false })
    else (.found, { w with idx := w.idx.update k ws true, commits := w.commits - 1 })
  | _ => (.failed, w)

/-- Any answer is possible; the databases are `some w` only if all answers were theirs. -/
def track {σ : Type} (D : Dict σ) : Option (Dbs σ) → Ask → Ans → Option (Dbs σ) → Prop :=
  fun s q a s' => s' = none ∨ ∃ w, s = some w ∧ a = (flushAnswer D w q).1 ∧ s' = some (flushAnswer D w q).2

/-- A store whose databases hold this; its batch is empty and the label of its context has this resource. -/
structure Holds {σ : Type} (w : Dbs σ) (S : St.Store σ) (resource : Int) : Prop where
  dict : S.ctx.st = w.dict
  resource : S.ctx.resource = resource
  batch : S.ctx.batch = Bt.Batch.new
  frame : S.frame = w.frame
  idx : S.idx = w.idx

end Verif.Pl
