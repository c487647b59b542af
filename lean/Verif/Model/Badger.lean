import Verif.Model.Bytes
/-!
# Key/value store and sequence (external library badger v4, modelled from its documented behaviour)

A badger database is the map of committed entries. `db.Update(f)` runs `f` on a snapshot and commits all its writes
atomically, or fails with `ErrConflict` when a key it read was written meanwhile; `db.View(f)` only reads.
-/
namespace Verif

/-- Committed content of a badger database. -/
abbrev KV := Bytes → Option Bytes

/-- The empty database. -/
def KV.empty : KV := fun _ => none

/-- `txn.Set` of one entry, committed. -/
def KV.set (db : KV) (k v : Bytes) : KV := fun k' => if k' = k then some v else db k'

/-- badger `Sequence`: `key` is the slice given to `GetSequence`, which badger keeps (it does not copy it). -/
structure Sequence where
  key : Bytes
  next : Nat
  leased : Nat
  bandwidth : Nat
deriving Repr

/-- badger `Sequence.updateLease`: reads the stored lease (0 when the key is absent), stores `next + bandwidth` and
takes it as the new lease. A stored value of fewer than 8 bytes makes `binary.BigEndian.Uint64` panic: `none`. -/
def Sequence.updateLease (db : KV) (s : Sequence) : Option (KV × Sequence) :=
  match db s.key with
  | none =>
    let lease := 0 + s.bandwidth
    some (db.set s.key (u64tob lease), { s with next := 0, leased := lease })
  | some v =>
    match btou64 v with
    | none => none
    | some num =>
      let lease := num + s.bandwidth
      some (db.set s.key (u64tob lease), { s with next := num, leased := lease })

/-- badger `DB.GetSequence`: a new sequence starts with `updateLease`. -/
def getSequence (db : KV) (key : Bytes) (bandwidth : Nat) : Option (KV × Sequence) :=
  Sequence.updateLease db { key := key, next := 0, leased := 0, bandwidth := bandwidth }

/-- badger `Sequence.Next`. Returns the id, the database and the sequence. -/
def Sequence.nextId (db : KV) (s : Sequence) : Option (Nat × KV × Sequence) :=
  if s.next ≥ s.leased then
    match s.updateLease db with
    | none => none
    | some (db', s') => some (s'.next, db', { s' with next := s'.next + 1 })
  else
    some (s.next, db, { s with next := s.next + 1 })

/-- Result of `Sequence.Release`. -/
inductive ReleaseResult where
  | ok | keyNotFound
deriving DecidableEq, Repr

/-- badger `Sequence.Release`: when the stored lease is still ours, store `next` instead; fails when the key is absent. -/
def Sequence.release (db : KV) (s : Sequence) : Option (ReleaseResult × KV × Sequence) :=
  match db s.key with
  | none => some (.keyNotFound, db, s)
  | some v =>
    match btou64 v with
    | none => none
    | some num =>
      if num ≠ s.leased then some (.ok, db, { s with leased := s.next })
      else some (.ok, db.set s.key (u64tob s.next), { s with leased := s.next })

end Verif
