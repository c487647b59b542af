import Verif.Model.Concurrent
import Verif.Spec.Store
/-!
# The course of time
-/
namespace Verif.St
variable {σ : Type}

/-- Every entry of dictionary `a` is in `b`. -/
def Grows (D : Dict σ) (a b : σ) : Prop := ∀ x n, D.look a x = some n → D.look b x = some n

/-- The dictionary in the middle of a translation has the entries of before, and no others than those of after. -/
def Moment.Possible (D : Dict σ) (s : Store σ) (fls : List Flush) (m : Moment σ) : Prop :=
  match fls[m.j]?, m.tick with
  | some fl, .translating st =>
    D.Good st ∧ Grows D (flushed D s (fls.take m.j)).ctx.st st ∧ Grows D st (saveSamples D (flushed D s (fls.take m.j)) fl).1.ctx.st
  | _, _ => True

/-- Earlier or at the same time. -/
def Moment.Le (D : Dict σ) (a b : Moment σ) : Prop :=
  a.j < b.j ∨ a.j = b.j ∧
    match a.tick, b.tick with
    | .translating st, .translating st' => Grows D st st'
    | .translating _, .committed _ => True
    | .committed _, .translating _ => False
    | .committed c, .committed c' => c ≤ c'

/-- The transactions of a scan, in order, while the flushes `fls` are made on `s`. -/
structure Course (D : Dict σ) (s : Store σ) (fls : List Flush) (t : Nat → Moment σ) : Prop where
  possible : ∀ i, (t i).Possible D s fls
  forward : ∀ i j, i ≤ j → (t i).Le D (t j)

end Verif.St
