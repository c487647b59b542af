import Verif.Model.Cache
import Verif.Spec.Dict
/-!
# The dictionary the store uses

internal/store/store.go:58-69 `Storage.Translate`, in front of internal/translate, as a `Dict`.
-/
namespace Verif.Cache
open Tr

/-- Database and translator, cache, and what the cache will do at the coming translations: whether it admits the new entry, and which
entries it drops before. -/
structure CState where
  w : World
  cache : Nat → Option Nat
  oracle : Nat → Bool × (Nat → Bool)

/-- internal/store/store.go:58-69 `Storage.Translate`. `none`: the process exits. Only one goroutine calls it (internal/service
service.go:82-101), and the others only read the dictionary. -/
def cachedTr (hash : Bytes → Nat) (s : CState) (key : Bytes) : Option (CState × Nat) :=
  let cache := fun h => if (s.oracle 0).2 h then none else s.cache h
  let oracle := fun i => s.oracle (i + 1)
  match cache (hash key) with
  | some v => some ({ w := s.w, cache := cache, oracle := oracle }, v)
  | none =>
    match translateKey s.w key with
    | none => none
    | some (w', n) =>
      some ({ w := w', cache := fun h => if (s.oracle 0).1 ∧ h = hash key then some n else cache h, oracle := oracle }, n)

/-- translate.go:34-50 `TranslateID`. -/
def idKey (w : World) (n : Nat) : Option Bytes := w.db (w.tr.ids ++ u64tob n)

/-- translate.go:19-28 `New` and store.go:35-56 `NewStore` on the database left by another process. -/
def reopen (c : Config) (db : KV) (oracle : Nat → Bool × (Nat → Bool)) : Option CState :=
  match init c db with
  | none => none
  | some w => some { w := w, cache := fun _ => none, oracle := oracle }

end Verif.Cache
