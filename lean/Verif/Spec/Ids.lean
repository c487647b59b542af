import Verif.Model.Translate
/-!
# The dictionary as a book of ids

What the dictionary does, without a database: a table from keys to ids, a table from ids to keys, the ids at hand (`next` up to
`leased`) and the counters new ids are taken from. There are two counters if the slice given to `New` has room for three more bytes:
the one read when the dictionary is opened, and another one used from then on.
-/
namespace Verif.Ids
open Tr (Pending Op Out)

structure Book where
  /-- the counter read when the dictionary is opened -/
  atOpen : Option Nat := none
  /-- the counter used afterwards, if it is another one -/
  other : Option Nat := none
  /-- the next id -/
  next : Nat := 0
  /-- the end of the ids at hand -/
  leased : Nat := 0
  idOf : Bytes → Option Nat := fun _ => none
  keyOf : Nat → Option Bytes := fun _ => none
  pending : List Pending := []

/-- The two counters are different. -/
def Split (spare : Nat) : Prop := 3 ≤ spare
instance (spare : Nat) : Decidable (Split spare) := inferInstanceAs (Decidable (3 ≤ spare))

def Book.counter (spare : Nat) (b : Book) : Option Nat := if Split spare then b.other else b.atOpen
def Book.setCounter (spare : Nat) (b : Book) (n : Nat) : Book := if Split spare then { b with other := some n } else { b with atOpen := some n }

/-- Take ids from the counter. -/
def Book.refill (spare lease : Nat) (b : Book) : Book :=
  { b.setCounter spare ((b.counter spare).getD 0 + lease) with
    next := (b.counter spare).getD 0, leased := (b.counter spare).getD 0 + lease }

/-- The dictionary is opened: ids are taken from the first counter. -/
def Book.opened (lease : Nat) (b : Book) : Book :=
  { b with atOpen := some (b.atOpen.getD 0 + lease), next := b.atOpen.getD 0, leased := b.atOpen.getD 0 + lease, pending := [] }

/-- A new key is given the next id. -/
def Book.draw (spare lease : Nat) (b : Book) : Book := if b.leased ≤ b.next then b.refill spare lease else b

/-- The answer of `TranslateID`. With room for four more bytes there is one if the first byte of the id is `s` and the others are a
key: its id, as bytes. -/
def Book.lookup (spare : Nat) (b : Book) (n : Nat) : Option Bytes :=
  match b.keyOf n with
  | some k => some k
  | none =>
    if 4 ≤ spare ∧ (u64tob n).head? = some 115 then (b.idOf (u64tob n).tail).map u64tob else none

def Book.bulk (spare : Nat) (b : Book) : List Nat → List Bytes × Bool
  | [] => ([], true)
  | n :: rest =>
    match b.lookup spare n with
    | none => ([], false)
    | some k => (k :: (b.bulk spare rest).1, (b.bulk spare rest).2)

def step (spare lease : Nat) (b : Book) : Op → Book × Out
  | .begin t k =>
    match b.idOf k with
    | some n => (b, .translated k n)
    | none =>
      let b' := b.draw spare lease
      ({ b' with next := b'.next + 1, pending := b.pending ++ [⟨t, k, b'.next⟩] }, .started)
  | .commit t spurious =>
    match b.pending.find? (fun p => p.tid = t) with
    | none => (b, .failed)
    | some p =>
      let b' := { b with pending := b.pending.filter (fun q => q.tid ≠ t) }
      if spurious ∨ (b.idOf p.key).isSome then (b', .failed)
      else ({ b' with idOf := fun k => if k = p.key then some p.id else b.idOf k,
                      keyOf := fun n => if n = p.id then some p.key else b.keyOf n }, .translated p.key p.id)
  | .find k =>
    match b.idOf k with
    | some n => (b, .found k n)
    | none => (b, .findMissing k)
  | .lookup n =>
    match b.lookup spare n with
    | some k => (b, .keyOf n k)
    | none => (b, .idMissing n)
  | .bulk ns => (b, .bulk ns (b.bulk spare ns).1 (b.bulk spare ns).2)
  | .close =>
    match b.counter spare with
    | none => (b, .closed .keyNotFound)
    | some n => ({ (if n = b.leased then b.setCounter spare b.next else b) with leased := b.next }, .closed .ok)
  | .reopen => (b.opened lease, .opened)

def run (spare lease : Nat) : Book → List Op → Book × List Out
  | b, [] => (b, [])
  | b, op :: ops => ((run spare lease (step spare lease b op).1 ops).1, (step spare lease b op).2 :: (run spare lease (step spare lease b op).1 ops).2)

/-- All histories start with opening an empty dictionary. -/
def history (spare lease : Nat) (ops : List Op) : Book × List Out := run spare lease (({} : Book).opened lease) ops

/-- Ids are 64 bits. -/
def Fits : Op → Prop
  | .lookup n => n < 2 ^ 64
  | .bulk ns => ∀ n ∈ ns, n < 2 ^ 64
  | _ => True

end Verif.Ids
