import Verif.Model.Arena
/-! # What users of an arena rely on -/
namespace Verif.Ar

/-- The arena an operation is about. -/
def Op.arena : Op → Option Nat
  | .fresh => none
  | .new i | .newWriter i | .write i _ _ | .bytes i | .marshal i _ _ _ | .compress i _ _ _ _ _ _ | .release i => some i

/-- A course of operations. -/
def run (zip : Bytes → Bytes) (w : W) : List Op → Option W
  | [] => some w
  | o :: os => (step zip w o).bind fun r => run zip r.1 os

/-- What the slice that an operation returns is to hold; for `Bytes`, `cur` is what was written since the last writer. -/
def Op.content (zip : Bytes → Bytes) (cur : Bytes) : Op → Bytes
  | .bytes _ => cur
  | .marshal _ p _ _ => p
  | .compress _ p _ _ _ _ _ => zip p
  | _ => []

/-- What was written to arena `i` since it was got from the pool, or since the last writer, message or compressed message. -/
def written (zip : Bytes → Bytes) (i : Nat) (cur : Bytes) : Op → Bytes
  | .new j => if j = i then [] else cur
  | .newWriter j => if j = i then [] else cur
  | .write j p _ => if j = i then cur ++ p else cur
  | .marshal j p ok _ => if j = i then (if ok then p else []) else cur
  | .compress j p okM okC _ _ _ => if j = i then (if okM && okC then zip p else []) else cur
  | .release j => if j = i then [] else cur
  | .bytes _ | .fresh => cur

end Verif.Ar
