import Verif.Spec.Pool
import Verif.Model.PoolTranslate
/-! # What badger answers to the dictionary -/
namespace Verif.Pl

/-- The answers of the dictionary's database, as in Model/Translate.lean, with no failures. -/
def badgerAnswer (w : Tr.World) : TAsk → TAns × Tr.World
  | .get k => (match w.db k with | none => .missing | some v => .value v, w)
  | .next => match w.tr.seq.nextId w.db with
    | none => (.failed, w)
    | some (n, db, seq) => (.id n, { w with db := db, tr := { w.tr with seq := seq } })
  | .set k x ik key => (.done, { w with db := (w.db.set k x).set ik key })

end Verif.Pl
