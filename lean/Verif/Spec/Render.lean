import Verif.Model.Render
import Verif.Spec.Calendar
/-! # Attributes whose text tells them apart -/
namespace Verif.Rd

/-- What is asked of `%q`: a quoted string begins with a quote, and its end can be told from the string itself. -/
structure Fmt.Quotes (F : Fmt) : Prop where
  begins : ∀ s, ∃ t, F.quote s = 34 :: t
  ends : ∀ s t r r', F.quote s ++ r = F.quote t ++ r' → s = t ∧ r = r'

mutual
/-- Values made of strings, booleans, integers, arrays and lists of pairs, whose keys have no space. -/
def Plain : Any → Prop
  | .str _ | .bool _ | .int _ => True
  | .array l => PlainAll l
  | .kvs l => PlainPairs l
  | .nil | .unset | .double _ | .bytes _ => False
/-- All of them are plain. -/
def PlainAll : List Any → Prop
  | [] => True
  | a :: l => Plain a ∧ PlainAll l
/-- All of them are plain, and so are the keys. -/
def PlainPairs : List (Bytes × Any) → Prop
  | [] => True
  | (k, a) :: l => (∀ c ∈ k, c ≠ 32) ∧ Plain a ∧ PlainPairs l
end

mutual
/-- No nil value anywhere inside. -/
def NoNil : Any → Prop
  | .nil => False
  | .array l => NoNilAll l
  | .kvs l => NoNilPairs l
  | _ => True
/-- No nil value anywhere inside. -/
def NoNilAll : List Any → Prop
  | [] => True
  | a :: l => NoNil a ∧ NoNilAll l
/-- No nil value anywhere inside. -/
def NoNilPairs : List (Bytes × Any) → Prop
  | [] => True
  | (_, a) :: l => NoNil a ∧ NoNilPairs l
end

/-- `text` is `YYYY-MM-DD hh:mm:ss` of the second (UTC) in which the time `ns`, read as a signed number, lies. -/
def TimeText (ns : Nat) (text : Bytes) : Prop := ∃ (t : Cal.Date) (h m s : Nat), t.Valid ∧ h < 24 ∧ m < 60 ∧ s < 60 ∧
  ((((t.dayNo : Int) - Cal.epochDay) * 24 + h) * 60 + m) * 60 + s = Tm.toInt64 ns / 1000000000 ∧
  text = Tm.pad4 t.y ++ [45] ++ Tm.pad2 t.m ++ [45] ++ Tm.pad2 t.d ++ [32] ++ Tm.pad2 h ++ [58] ++ Tm.pad2 m ++ [58] ++ Tm.pad2 s

/-- The unit in which the numbers of a metric are printed: its own; `ns` if it has none and its description speaks of `nanoseconds`. -/
def UnitText (m : Metric) (u : Bytes) : Prop :=
  (m.unit ≠ [] → u = m.unit) ∧
  (m.unit = [] → ((∃ a b, m.description = a ++ [110, 97, 110, 111, 115, 101, 99, 111, 110, 100, 115] ++ b) → u = [110, 115]) ∧
    ((¬ ∃ a b, m.description = a ++ [110, 97, 110, 111, 115, 101, 99, 111, 110, 100, 115] ++ b) → u = []))

end Verif.Rd
