import Verif.Model.Shared
import Mathlib.Data.List.Basic
/-!
# Parts of a program do not disturb each other
-/
namespace Verif.Shr
variable {ι : Type} [DecidableEq ι]

/-- The operations, or outputs, of one part. -/
def ofPart {X : ι → Type} (i : ι) (l : List ((i : ι) × X i)) : List (X i) :=
  l.filterMap fun x => if h : x.1 = i then some (h ▸ x.2) else none

/-- The keys that belong to a part of the program: those that start with `5`, the key of the sequence, those that start with `s`. -/
def Mine (c : Tr.Config) : Part → Bytes → Prop
  | .dict, k => ∃ s, k = c.pfx ++ s
  | .seq, k => k = Sq.seqKey
  | .frame, k => ∃ s, k = 115 :: s

/-- The data frame as a map from views. -/
def frameMap (m : Bytes → Option Quad) : FrameOp → (Bytes → Option Quad) × Got
  | .append v new => (fun w => if w = v then some (new (m v)) else m w, match m v with | none => .absent | some q => .some q)
  | .read v => (m, match m v with | none => .absent | some q => .some q)

/-- A history of the data frame as a map. -/
def frameMaps (m : Bytes → Option Quad) : List FrameOp → (Bytes → Option Quad) × List Got
  | [] => (m, [])
  | op :: ops => ((frameMaps (frameMap m op).1 ops).1, (frameMap m op).2 :: (frameMaps (frameMap m op).1 ops).2)

/-- The operations and the answers of each part, in order. -/
abbrev dictOps {c : Tr.Config} {bw : Nat} (ops : List ((p : Part) × (program c bw p).Op)) : List Tr.Op := ofPart (X := fun p => (program c bw p).Op) .dict ops
abbrev seqOps {c : Tr.Config} {bw : Nat} (ops : List ((p : Part) × (program c bw p).Op)) : List SeqOp := ofPart (X := fun p => (program c bw p).Op) .seq ops
abbrev frameOps {c : Tr.Config} {bw : Nat} (ops : List ((p : Part) × (program c bw p).Op)) : List FrameOp := ofPart (X := fun p => (program c bw p).Op) .frame ops
abbrev dictOuts {c : Tr.Config} {bw : Nat} (os : List ((p : Part) × (program c bw p).Out)) : List Tr.Out := ofPart (X := fun p => (program c bw p).Out) .dict os
abbrev seqOuts {c : Tr.Config} {bw : Nat} (os : List ((p : Part) × (program c bw p).Out)) : List (Option Nat) := ofPart (X := fun p => (program c bw p).Out) .seq os
abbrev frameOuts {c : Tr.Config} {bw : Nat} (os : List ((p : Part) × (program c bw p).Out)) : List Got := ofPart (X := fun p => (program c bw p).Out) .frame os

/-- The dictionary with a database of its own: opened, then the operations. -/
def dictAlone (c : Tr.Config) (db : KV) (ops : List Tr.Op) : Option (List Tr.Out) :=
  match Tr.init c db with
  | none => none
  | some w => (Tr.run c w ops).map (·.2)

/-- The sequence with a database of its own. -/
def seqAlone (bw : Nat) (db : KV) (ops : List SeqOp) : Option (List Nat) := Sq.history bw db (ops.map SeqOp.op)

end Verif.Shr
