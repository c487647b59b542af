import Verif.Model.Arrow
/-!
# What storing messages as columns must do
-/
namespace Verif.A3
variable {Any : Type}

/-- The message with the fields whose name is not wanted cleared. -/
def only (C : Coder Any) (keep : Bytes → Bool) : (n : Node) → Val Any n → Val Any n
  | .leaf _, v => v
  | .msg _, v => v
  | .nil, v => v
  | .cons name c e r, v => (if keep name then v.1 else (zero C (.cons name c e .nil)).1, only C keep r v.2)

/-- A field that is met while the columns of message type `t` are made, and its depth. -/
inductive Reach (T : Nat → List FieldD) (t : Nat) : Nat → FieldD → Prop
  | top {f} : f ∈ T t → Reach T t 0 f
  | step {d g t' f} : Reach T t d g → g.kind = .msg t' → f ∈ T t' → Reach T t (d + 1) f

/-- How often a field occurs, by its declaration: a list, a value that may be missing (a message, an `AnyValue`, a member of a oneof
or an `optional` field), or a plain scalar, which always has a value. -/
def FieldD.Occurs (f : FieldD) : Card → Prop
  | .repeated => f.repeated = true
  | .explicit => f.repeated = false ∧ (f.oneof = true ∨ f.kind = .any ∨ ∃ t, f.kind = .msg t)
  | .implicit => f.repeated = false ∧ f.oneof = false ∧ f.kind ≠ .any ∧ ∀ t, f.kind ≠ .msg t

mutual
/-- The columns are those of these fields: all of them, in order, by name. -/
inductive Fits (T : Nat → List FieldD) : List FieldD → Node → Prop
  | nil : Fits T [] .nil
  | cons {f fs c e r} : f.map = false → f.Occurs c → Holds T f.kind e → Fits T fs r → Fits T (f :: fs) (.cons f.name c e r)
/-- A column, or a struct of columns, for values of this kind. -/
inductive Holds (T : Nat → List FieldD) : Kind → Node → Prop
  | num : Holds T .num (.leaf .num)
  | text : Holds T .text (.leaf .text)
  | bytes : Holds T .bytes (.leaf .bytes)
  | any : Holds T .any (.leaf .any)
  | msg {t fs} : Fits T (T t) fs → Holds T (.msg t) (.msg fs)
end

/-- All fields of the message are messages with columns, and names have no dot. -/
def TopMessages : Node → Prop
  | .nil => True
  | .cons name _ (.msg fs) r => 46 ∉ name ∧ paths [] fs ≠ [] ∧ TopMessages r
  | _ => False

/-- Serializing `AnyValue` loses nothing. -/
def Coder.Faithful (C : Coder Any) : Prop := ∀ x, C.unmarshal (C.marshal x) = x

end Verif.A3
