import Verif.Model.Transform
/-!
# Specification: what a dictionary from labels to columns must do

Met by the translator of the code (`Props/RealDict.lean`, from C05–C07) and by a simple list.
-/
namespace Verif
open Tf

/-- A dictionary: translation (may add an entry), lookup without adding, reverse lookup, and its healthy states. -/
structure Dict (σ : Type) where
  tr : Translator σ
  look : σ → Bytes → Option Nat
  keyOf : σ → Nat → Option Bytes
  Good : σ → Prop

/-- Ids are answered, never change, and only the translated key is added. -/
structure Dict.Lawful {σ : Type} (D : Dict σ) : Prop where
  good : ∀ {st k st' n}, D.Good st → D.tr st k = some (st', n) → D.Good st'
  hit : ∀ {st k st' n}, D.Good st → D.tr st k = some (st', n) → D.look st' k = some n
  keep : ∀ {st k st' n a m}, D.Good st → D.tr st k = some (st', n) → D.look st a = some m → D.look st' a = some m
  only : ∀ {st k st' n a m}, D.Good st → D.tr st k = some (st', n) → D.look st' a = some m → a = k ∨ D.look st a = some m

/-- Different keys have different ids, and ids can be turned back. -/
structure Dict.Injective {σ : Type} (D : Dict σ) : Prop where
  inj : ∀ {st a b n}, D.Good st → D.look st a = some n → D.look st b = some n → a = b
  back : ∀ {st a n}, D.Good st → D.look st a = some n → D.keyOf st n = some a
  small : ∀ {st a n}, D.Good st → D.look st a = some n → n < 2 ^ 64

/-- A dictionary that keeps its keys in a list. -/
def listDict : Dict (List Bytes) where
  tr := fun st k =>
    if k ∈ st then some (st, st.idxOf k)
    else if st.length < 2 ^ 64 then some (st ++ [k], st.length) else none
  look := fun st k => if k ∈ st then some (st.idxOf k) else none
  keyOf := fun st n => st[n]?
  Good := fun st => st.length ≤ 2 ^ 64

end Verif
