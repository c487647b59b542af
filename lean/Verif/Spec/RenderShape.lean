import Verif.Spec.Render
/-! # What of a value can be seen in its text -/
namespace Verif.Rd

/-- A value as it is seen: a word, a quoted string, an array, or a list of pairs. -/
inductive Shape where
  | word (t : Bytes)
  | str (s : Bytes)
  | array (l : List Shape)
  | kvs (l : List (Bytes × Shape))

/-- An array of one empty word looks like an empty array. -/
def bare : List Shape → List Shape
  | [.word []] => []
  | l => l

mutual
/-- Numbers, booleans, bytes and unset values are seen as words; of a nil value nothing is said. -/
def shape (F : Fmt) : Any → Shape
  | .nil => .word []
  | .unset => .word []
  | .str s => .str s
  | .bool b => .word (boolText b)
  | .int i => .word (decInt i)
  | .double d => .word (F.double d)
  | .bytes b => .word (hex b)
  | .array l => .array (bare (shapes F l))
  | .kvs l => .kvs (shapePairs F l)
def shapes (F : Fmt) : List Any → List Shape
  | [] => []
  | a :: l => shape F a :: shapes F l
def shapePairs (F : Fmt) : List (Bytes × Any) → List (Bytes × Shape)
  | [] => []
  | (k, a) :: l => (k, shape F a) :: shapePairs F l
end

mutual
/-- No nil values, and no spaces in keys. -/
def Spaceless : Any → Prop
  | .nil => False
  | .array l => SpacelessAll l
  | .kvs l => SpacelessPairs l
  | .unset | .str _ | .bool _ | .int _ | .double _ | .bytes _ => True
def SpacelessAll : List Any → Prop
  | [] => True
  | a :: l => Spaceless a ∧ SpacelessAll l
def SpacelessPairs : List (Bytes × Any) → Prop
  | [] => True
  | (k, a) :: l => (∀ c ∈ k, c ≠ 32) ∧ Spaceless a ∧ SpacelessPairs l
end

/-- Doubles are printed as a word: no space, comma, bracket, brace or quote. -/
def Fmt.Words (F : Fmt) : Prop := ∀ d, ∀ c ∈ F.double d, c ≠ 32 ∧ c ≠ 44 ∧ c ≠ 93 ∧ c ≠ 34 ∧ c ≠ 91 ∧ c ≠ 123

/-- The attributes that `MetricsData` prints. -/
def printed (o : Opts) (md : List Resource) (l : List (Bytes × Any)) : Prop :=
  ∃ rm ∈ md, (o.resource = true ∧ l = rm.attrs) ∨ ∃ sc ∈ rm.scopes, (o.scope = true ∧ l = sc.attrs) ∨
    ∃ m ∈ sc.metrics, ∃ pts, (m.data = .gauge pts ∨ m.data = .sum pts) ∧ ∃ p ∈ pts, l = p.attrs

end Verif.Rd
