import Verif.Model.Translate
/-!
# internal/store/store.go:58-69 `Storage.Translate` and internal/f2/translate.go:42-53 `cacheTr.Tr`

Both put a ristretto cache, keyed by the xxhash of the label, in front of `TranslateKey`. The hash is a parameter.
Ristretto may refuse to store an entry and may drop entries at any time.
-/
namespace Verif.Cache
open Tr

structure CWorld where
  w : World
  cache : Nat → Option Nat

inductive COp where
  /-- `Translate(key)`; `keep`: does the cache admit the new entry -/
  | translate (key : Bytes) (keep : Bool)
  /-- the cache drops the entries selected by `drop` -/
  | evict (drop : Nat → Bool)
  /-- `Find(key)`, by a scan -/
  | find (key : Bytes)
  /-- process exit or crash, new process with an empty cache -/
  | restart

inductive COut where
  | id (key : Bytes) (n : Nat)
  | found (key : Bytes) (r : Option Nat)
  | nothing
deriving DecidableEq, Repr

def cstep (hash : Bytes → Nat) (c : Config) (s : CWorld) : COp → Option (CWorld × COut)
  | .translate key keep =>
    match s.cache (hash key) with
    | some v => some (s, .id key v)
    | none =>
      match translateKey s.w key with
      | none => none
      | some (w', n) =>
        some ({ w := w', cache := fun h => if keep ∧ h = hash key then some n else s.cache h }, .id key n)
  | .evict drop => some ({ s with cache := fun h => if drop h then none else s.cache h }, .nothing)
  | .find key => some (s, .found key (findKey s.w key))
  | .restart =>
    match step c s.w .reopen with
    | none => none
    | some (w', _) => some ({ w := w', cache := fun _ => none }, .nothing)

def crun (hash : Bytes → Nat) (c : Config) : CWorld → List COp → Option (List COut)
  | _, [] => some []
  | s, op :: ops =>
    match cstep hash c s op with
    | none => none
    | some (s', o) => (crun hash c s' ops).map (o :: ·)

/-- The outputs of a history that starts with an empty database and an empty cache. -/
def chistory (hash : Bytes → Nat) (c : Config) (ops : List COp) : Option (List COut) :=
  match init c KV.empty with
  | none => none
  | some w => crun hash c { w := w, cache := fun _ => none } ops

/-- The same operations with a cache that never stores anything. -/
def uncached (ops : List COp) : List COp :=
  ops.map fun | .translate k _ => .translate k false | op => op

/-- Keys translated by a history. -/
def keysOf (ops : List COp) : List Bytes := ops.filterMap fun | .translate k _ => some k | _ => none

end Verif.Cache
