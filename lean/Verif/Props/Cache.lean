import Verif.Model.Cache
import Verif.Lemmas.Cache
/-!
# C10: the translation cache is transparent
-/
namespace Verif
open Tr Cache

/-- **C10.** Whatever the cache admits or drops and whenever the process restarts, every answer is the one given without a
cache - provided the hash does not identify two different keys of the history. -/
theorem C10_cache_transparent (hash : Bytes → Nat) (c : Config) (ops : List COp)
    (hpos : 0 < c.lease) (hb : (2 * ops.length + 1) * c.lease < 2 ^ 56)
    (hinj : ∀ k ∈ keysOf ops, ∀ k' ∈ keysOf ops, hash k = hash k' → k = k') :
    ∃ outs, chistory hash c ops = some outs ∧ chistory hash c (uncached ops) = some outs := by
  have hf : Fresh c.pfx KV.empty := fun _ => rfl
  obtain ⟨hst, -⟩ := init_stab c hf (init_eq c hf)
  have hb' : c.lease + 2 * ops.length * c.lease < 2 ^ 56 := by
    rw [Nat.add_mul, Nat.one_mul] at hb; omega
  simp only [chistory, init_eq c hf]
  obtain ⟨outs, h1, h2, -⟩ := sim hpos (keysOf ops) hinj ops (fun _ h => h) rfl (fun _ => rfl) rfl hb' hst
    (s := ⟨_, fun _ => none⟩) (t := ⟨_, fun _ => none⟩) (by intro k n _ h; cases h)
  exact ⟨outs, h1, h2⟩

/-- **C10.** The hash hypothesis is needed: when two keys have the same hash the second one is given the first one's id. -/
theorem C10_collision_wrong_id :
    ∃ (hash : Bytes → Nat) (k k' : Bytes), k ≠ k' ∧
      chistory hash deployed [.translate k true, .translate k' true] = some [.id k 0, .id k' 0] :=
  ⟨fun _ => 7, [97], [98], by decide, by rfl⟩

/-- Non-vacuity: a history with a hit, an eviction and a restart, and a hash that is injective on its keys. -/
def Cache.exampleOps : List COp :=
  [.translate [97] true, .translate [97] false, .evict (fun _ => true), .translate [97, 98] true, .restart,
   .translate [97] true, .find [97, 98], .find [99]]
example : ∀ k ∈ keysOf Cache.exampleOps, ∀ k' ∈ keysOf Cache.exampleOps, k.length = k'.length → k = k' := by decide
example : chistory List.length deployed Cache.exampleOps =
    some [.id [97] 0, .id [97] 0, .nothing, .id [97, 98] 1, .nothing, .id [97] 0, .found [97, 98] (some 1), .found [99] none] := by
  rfl

end Verif
