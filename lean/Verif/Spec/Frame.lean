import Verif.Model.Frame
import Verif.Spec.Views
import Verif.Spec.Otlp
/-!
# What a view's data frame should hold
-/
namespace Verif.Df
open Tm

/-- The order of a call is an iteration order of the map of views of its samples, and timestamps are `uint64`. -/
def Call.Valid (c : Call) : Prop :=
  (∀ s ∈ c.samples, s.minTs < 2 ^ 64) ∧ ∃ m, groupViews c.samples [] = some m ∧ c.order.Perm m

/-- The samples of a call that belong to view `v`. -/
noncomputable def Call.inView (c : Call) (v : Bytes) : List Sample :=
  open Classical in c.samples.filter (fun s => decide (IsView (toInt64 s.minTs) v))

/-- The call committed view `v`. -/
def Call.Committed (c : Call) (v : Bytes) : Prop := v ∈ (c.order.take c.commits).map (·.1)

instance (c : Call) (v : Bytes) : Decidable (c.Committed v) := by unfold Call.Committed; infer_instance

/-- The batches of samples committed to view `v`, in order. -/
noncomputable def batches (cs : List Call) (v : Bytes) : List (List Sample) :=
  (cs.filter (fun c => decide (c.Committed v))).map (·.inView v)

/-- Ids increase along all batches. -/
def Increasing (bs : List (List Sample)) : Prop := bs.flatten.Pairwise (fun a b => a.id < b.id)

/-- 0 if the view starts with sample 0 (or is empty), else 1. -/
def shift : List (List Sample) → Nat
  | (s :: _) :: _ => if s.id = 0 then 0 else 1
  | _ => 0

end Verif.Df
