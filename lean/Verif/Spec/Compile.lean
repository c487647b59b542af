import Verif.Model.Compile
/-! # What a compilation sees, and what it leaves -/
namespace Verif.Cp

/-- The directory of a compilation: the script as `index.ts`, and every bundled package under the last part of its name, with `.js`. Nothing else. -/
def Packed (pk : List (Bytes × Bytes)) (script : Bytes) (f : Files) : Prop :=
  ∀ n c, f n = some c ↔ (n = indexTs ∧ c = script) ∨ ∃ name, (name, c) ∈ pk ∧ n = base name ++ dotJs

/-- The aliases of a compilation: the name of every bundled package stands for its file. -/
def Aliased (pk : List (Bytes × Bytes)) (a : Files) : Prop :=
  ∀ n t, a n = some t ↔ ∃ c, (n, c) ∈ pk ∧ t = here ++ (base n ++ dotJs)

/-- What a call comes to by what `esbuild` says: its first error if there is one, otherwise its first output; a panic if there is neither. -/
def Says (b : Built) : Outcome → Prop
  | .error e => b.errors.head? = some e
  | .ok o => b.errors = [] ∧ b.outputs.head? = some o
  | .panic => b.errors = [] ∧ b.outputs = []
  | .io => False

/-- The packages of a version have different names, with different last parts. -/
def Distinct (pk : List (Bytes × Bytes)) : Prop := (pk.map fun x => base x.1).Nodup

/-- The versions and scripts of the calls that were made. -/
def calls : List Label → List (Nat × Bytes)
  | [] => []
  | .spawn v x _ :: ls => (v, x) :: calls ls
  | _ :: ls => calls ls

/-- Call `i` has made directory `d` and has not removed it since. -/
def Holds (ls : List Label) (i d : Nat) : Prop := ∃ a b, ls = a ++ .mkdir i d :: b ∧ Label.remove i ∉ b

end Verif.Cp
