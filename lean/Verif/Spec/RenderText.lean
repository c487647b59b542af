import Verif.Spec.Render
import Verif.Spec.Decimal
/-!
# The printed page

What `rq` prints for metrics, as a grammar. Quoted strings, doubles, numbers with their units and the alignment of tables are
parameters (`Out`).
-/
namespace Verif.Rd

/-- Texts with a separator between them. -/
def between (sep : Bytes) (ts : List Bytes) : Bytes := (ts.intersperse sep).flatten

/-- Two hexadecimal digits for a byte. -/
def HexByte (c : UInt8) (s : Bytes) : Prop := ∃ h l, (ascii "0123456789abcdef")[c.toNat / 16]? = some h ∧
  (ascii "0123456789abcdef")[c.toNat % 16]? = some l ∧ s = [h, l]

/-- `s` is the text of the value. -/
inductive ValueText (F : Fmt) : Any → Bytes → Prop
  | unset : ValueText F .unset []
  | str (s : Bytes) : ValueText F (.str s) (F.quote s)
  | yes : ValueText F (.bool true) (ascii "true")
  | no : ValueText F (.bool false) (ascii "false")
  | int {i : Int} {s : Bytes} : IntText i s → ValueText F (.int i) s
  | double (d : Nat) : ValueText F (.double d) (F.double d)
  | bytes {b : Bytes} {ts : List Bytes} : ts.length = b.length → (∀ (i : Nat) (c : UInt8) (t : Bytes), b[i]? = some c → ts[i]? = some t → HexByte c t) →
      ValueText F (.bytes b) ts.flatten
  | array {l : List Any} {ts : List Bytes} : ts.length = l.length → (∀ (i : Nat) (a : Any) (t : Bytes), l[i]? = some a → ts[i]? = some t → ValueText F a t) →
      ValueText F (.array l) (ascii "[" ++ between (ascii ", ") ts ++ ascii "]")
  | none : ValueText F (.kvs []) (ascii "{}")
  | pairs {l : List (Bytes × Any)} {ts : List Bytes} : l ≠ [] → ts.length = l.length →
      (∀ (i : Nat) (k : Bytes) (a : Any) (t : Bytes), l[i]? = some (k, a) → ts[i]? = some t → ValueText F a t) →
      ValueText F (.kvs l) (ascii "{ " ++ between (ascii ", ") ((l.zip ts).map fun x => x.1.1 ++ ascii " = " ++ x.2) ++ ascii " }")

/-- Attributes. -/
def AttrText (F : Fmt) (l : List (Bytes × Any)) (s : Bytes) : Prop := ValueText F (.kvs l) s

/-- `xs` are printed as `ts`, one after the other. -/
def Each {α : Type} (P : α → Bytes → Prop) (xs : List α) (ts : List Bytes) : Prop :=
  ts.length = xs.length ∧ ∀ (i : Nat) (x : α) (t : Bytes), xs[i]? = some x → ts[i]? = some t → P x t

/-- The table of the points of a gauge or a sum: one line each. -/
def TableText (O : Out) (u : Bytes) (pts : List Point) (s : Bytes) : Prop := ∃ ats : List Bytes, Each (fun p t => AttrText O.toFmt p.attrs t) pts ats ∧
  s = O.table (ascii "TIMESTAMP \tVALUE \tATTRIBUTES \t\n" ++
    (pts.zip ats).flatMap fun x => dateTime x.1.time ++ ascii " \t" ++ O.unit x.1.num u ++ ascii " \t" ++ x.2 ++ ascii " \t\n")

/-- A metric. -/
def MetricText (O : Out) (o : Opts) (m : Metric) (s : Bytes) : Prop := ∃ u body, UnitText m u ∧
  (match m.data with
    | .gauge pts => TableText O u pts body
    | .sum pts => TableText O u pts body
    | .other _ => body = []) ∧
  s = m.name ++ ascii "\n" ++ (if o.metrics then O.table (ascii "description \t" ++ m.description ++ ascii "\t\nunit \t" ++ u ++ ascii "\t\n") else []) ++ body

/-- A scope. -/
def ScopeText (O : Out) (o : Opts) (sc : Scope) (s : Bytes) : Prop := ∃ head ts, Each (MetricText O o) sc.metrics ts ∧
  (o.scope = false ∧ head = [] ∨ o.scope = true ∧ ∃ a, AttrText O.toFmt sc.attrs a ∧
    head = O.right (ascii "scope.name \t" ++ sc.name ++ ascii "\nscope.schema \t" ++ sc.schema ++ ascii "\nscope.version \t" ++ sc.version ++
      ascii "\nscope.attributes \t" ++ a ++ ascii "\n")) ∧
  s = ascii "--> " ++ sc.name ++ ascii "\n" ++ head ++ between (ascii "\n") ts

/-- A resource. -/
def ResourceText (O : Out) (o : Opts) (rm : Resource) (s : Bytes) : Prop := ∃ head ts, Each (ScopeText O o) rm.scopes ts ∧
  (o.resource = false ∧ head = [] ∨ o.resource = true ∧ ∃ a, AttrText O.toFmt rm.attrs a ∧
    head = O.right (ascii "resource.schema \t" ++ rm.schema ++ ascii "\nresource.attributes \t" ++ a ++ ascii "\n")) ∧
  s = ascii "=== " ++ rm.schema ++ ascii "\n" ++ head ++ between (ascii "\n") ts

/-- The page. -/
def PageText (O : Out) (o : Opts) (md : List Resource) (s : Bytes) : Prop := ∃ ts, Each (ResourceText O o) md ts ∧ s = between (ascii "\n") ts

end Verif.Rd
