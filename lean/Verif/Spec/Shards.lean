import Verif.Model.Shards
/-!
# What a lookup in the shards should return
-/
namespace Verif.Sh
open Bt (shardWidth)

/-- Bit (row, column) is written by this operation into the view. -/
def Op.Writes : Op → (view : Bytes) → (bit shard : Nat) → Prop
  | .update k ws true, v, p, k' => k = k' ∧ ∃ b, (v, b) ∈ ws ∧ p ∈ b
  | _, _, _, _ => False

/-- Some operation of the history committed that row `u` has column `c` in view `v`. -/
def Stored (ops : List Op) (v : Bytes) (u c : Nat) : Prop :=
  ∃ op ∈ ops, op.Writes v (u * shardWidth + c % shardWidth) (c / shardWidth)

/-- In one of the views row `u` has all the requested columns that live in shard `k`. -/
def HasAllIn (ops : List Op) (views : List Bytes) (cols : List Nat) (k u : Nat) : Prop :=
  ∃ v ∈ views, ∀ c ∈ cols, c / shardWidth = k → Stored ops v u c

/-- The intended result of a lookup: the intersection over the shards of the columns. -/
def Wanted (ops : List Op) (views : List Bytes) (cols : List Nat) (u : Nat) : Prop :=
  ∀ c ∈ cols, HasAllIn ops views cols (c / shardWidth) u

/-- The operation opens the database of shard `k`. -/
def Op.Touches : Op → Nat → Prop
  | .update k _ _, k' => k = k'
  | .view k, k' => k = k'
  | .restart, _ => False

/-- Shard `k` was used since the last restart. -/
def Open (ops : List Op) (k : Nat) : Prop :=
  ∃ pre op suf, ops = pre ++ op :: suf ∧ op.Touches k ∧ Op.restart ∉ suf

end Verif.Sh
