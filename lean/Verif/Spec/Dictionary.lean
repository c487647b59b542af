import Verif.Model.Dictionary
import Verif.Lemmas.Life
/-!
# The dictionary of the code as a `Dict`

`K` is a list of all the keys that will ever be translated. It only appears in `Good`, which describes the states the dictionary can
be in (`good_start`, `good_reopen`, `good_tr` in Props/RealDict.lean).
-/
namespace Verif.Cache
open Tr

/-- How many of the keys are in the dictionary. -/
def present (w : World) (K : List Bytes) : Nat := K.countP fun k => (findKey w k).isSome

/-- The states of the dictionary of a process that translates keys of `K` only. The last two fields say that ids do not run out, and
that the lease of this process suffices for what is left of `K` if the capacity of the slice given to `New` lets its names overwrite
each other (C06). -/
structure GoodState (hash : Bytes → Nat) (c : Config) (K : List Bytes) (s : CState) : Prop where
  life : LifeInv (names c.pfx c.spare) c.lease s.w
  pending : s.w.pending = []
  cache : ∀ k ∈ K, ∀ n, s.cache (hash k) = some n → findKey s.w k = some n
  small : s.w.tr.seq.leased + (K.length - present s.w K + 2) * c.lease < 2 ^ 56
  room : c.spare < 3 ∨ (K.length ≤ c.lease ∧ s.w.tr.seq.next + (K.length - present s.w K) ≤ s.w.tr.seq.leased)

/-- The dictionary of the code. -/
def realDict (hash : Bytes → Nat) (c : Config) (K : List Bytes) : Dict CState where
  tr := cachedTr hash
  look := fun s k => findKey s.w k
  keyOf := fun s n => idKey s.w n
  Good := GoodState hash c K

open Classical in
/-- The same, but a translation of a key outside of `K` ends the process. -/
noncomputable def onlyDict (hash : Bytes → Nat) (c : Config) (K : List Bytes) : Dict CState :=
  { realDict hash c K with tr := fun s k => if k ∈ K then cachedTr hash s k else none }

end Verif.Cache
