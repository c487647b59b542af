import Verif.Model.QueryCache
/-! # Which program a query runs -/
namespace Verif.Qc

/-- A part of `out`, in which bytes may be missing: the end, or some bytes that are zero. -/
def Garbled (f out : Bytes) : Prop := f.length ≤ out.length ∧ ∀ (i : Nat) (c : UInt8), f[i]? = some c → c = 0 ∨ out[i]? = some c

/-- Does some process write the file of this key? -/
def St.writing (hash : Bytes → Nat) (s : St) (k : Nat) : Prop := ∃ p ∈ s.procs, hash p.script = k ∧ ∃ out off, p.phase = .writing out off

/-- Nobody reads a file that is being written, and no process ends while it writes. -/
def Calm (hash : Bytes → Nat) (s : St) : Label → Prop
  | .read i => ∀ p, s.procs[i]? = some p → ¬ s.writing hash (hash p.script)
  | .crash i => ∀ p, s.procs[i]? = some p → ∀ out off, p.phase ≠ .writing out off
  | _ => True

/-- States of executions, from an empty cache, of one version of the program, with scripts from `K`. -/
inductive Reach (comp : Nat → Bytes → Option Bytes) (hash : Bytes → Nat) (v : Nat) (K : List Bytes) : St → Prop
  | init : Reach comp hash v K {}
  | step {s s' : St} (l : Label) : Reach comp hash v K s → (∀ w x, l = .spawn w x → w = v ∧ x ∈ K) → step comp hash s l = some s' → Reach comp hash v K s'

/-- The same, with calm steps only. -/
inductive CalmReach (comp : Nat → Bytes → Option Bytes) (hash : Bytes → Nat) (v : Nat) (K : List Bytes) : St → Prop
  | init : CalmReach comp hash v K {}
  | step {s s' : St} (l : Label) : CalmReach comp hash v K s → (∀ w x, l = .spawn w x → w = v ∧ x ∈ K) → Calm hash s l → step comp hash s l = some s' →
      CalmReach comp hash v K s'

end Verif.Qc
