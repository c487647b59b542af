import Verif.Model.Badger
import Verif.Model.GoSlice
/-!
# internal/translate/translate.go: dictionary between label keys and column ids

The database calls of concurrent goroutines are interleaved as explicit steps: `TranslateKey` is a `begin` step (snapshot
read and, if the key is new, allocation of an id) and a `commit` step, which may fail.
-/
namespace Verif.Tr

/-- `"seq"`, `"keys"`, `"ids"` (translate.go:20,25,26). -/
def sSeq : Bytes := [115, 101, 113]
def sKeys : Bytes := [107, 101, 121, 115]
def sIds : Bytes := [105, 100, 115]

/-- What `New` is called with: content and unused capacity of the slice argument, and the lease size of its sequence. -/
structure Config where
  pfx : Bytes
  spare : Nat
  lease : Nat

/-- translate.go:20 `4<<10`. -/
def leaseSize : Nat := 4096

/-- cmd/rq/main.go:89: the argument is `[]byte(strconv.FormatUint(uint64(v1.RESOURCE_TRANSLATE_ID), 10))`, i.e. `"5"`
converted to a byte slice: Go allocates such a slice in the 8-byte size class, so 7 bytes of capacity are unused. -/
def deployed : Config := { pfx := [53], spare := 7, lease := leaseSize }

/-- translate.go:12-17 `Translate` (the contents of the slices `keys` and `ids`; the sequence keeps its own key). -/
structure Translate where
  seq : Sequence
  keys : Bytes
  ids : Bytes
deriving Repr

/-- translate.go:19-28 `New`. The three appends
start from the same slice, so with enough spare capacity they write into the same array: what the sequence's key and
`keys` contain afterwards is read from the heap after the last append. -/
def new (c : Config) (db : KV) : Option (KV × Translate) :=
  let h0 : Heap := [c.pfx ++ List.replicate c.spare 0]
  let p : Slice := { arr := 0, len := c.pfx.length }
  let (h1, sSlice) := goAppend h0 p sSeq
  match getSequence db (sSlice.read h1) c.lease with
  | none => none
  | some (db', seq) =>
    let (h2, kSlice) := goAppend h1 p sKeys
    let (h3, iSlice) := goAppend h2 p sIds
    some (db', { seq := { seq with key := sSlice.read h3 }, keys := kSlice.read h3, ids := iSlice.read h3 })

/-- A running `TranslateKey` transaction that did not find its key: it will write `keys+key ↦ id` and
`ids+id ↦ key`. -/
structure Pending where
  tid : Nat
  key : Bytes
  id : Nat
deriving Repr

structure World where
  db : KV
  tr : Translate
  pending : List Pending

inductive Op where
  /-- start of `TranslateKey(key)` by goroutine `t` -/
  | begin (t : Nat) (key : Bytes)
  /-- end of the transaction of goroutine `t`; `spurious`: badger reports a conflict although none happened (its conflict
  detection compares hashes), or the write fails -/
  | commit (t : Nat) (spurious : Bool)
  | find (key : Bytes)
  | lookup (id : Nat)
  | bulk (ids : List Nat)
  | close
  /-- the process ends (crash, or exit after `close`) and the database is opened again -/
  | reopen
deriving Repr

inductive Out where
  /-- `TranslateKey(key)` returned `id` -/
  | translated (key : Bytes) (id : Nat)
  | started
  | failed
  /-- `Find(key)` returned `id` -/
  | found (key : Bytes) (id : Nat)
  /-- `Find(key)` returned `ErrKeyNotFound` -/
  | findMissing (key : Bytes)
  /-- `TranslateID(id)` returned `key` -/
  | keyOf (id : Nat) (key : Bytes)
  | idMissing (id : Nat)
  /-- `TranslateBulkID(ids)` called back with `keys`, in order, and returned nil (`ok`) or an error -/
  | bulk (ids : List Nat) (keys : List Bytes) (ok : Bool)
  | closed (r : ReleaseResult)
  | opened
deriving Repr

/-- translate.go:52-74 `TranslateBulkID`: stops at the first missing id. -/
def bulkKeys (db : KV) (idsPfx : Bytes) : List Nat → List Bytes × Bool
  | [] => ([], true)
  | id :: rest =>
    match db (idsPfx ++ u64tob id) with
    | none => ([], false)
    | some k => let (ks, ok) := bulkKeys db idsPfx rest; (k :: ks, ok)

/-- One step. `none` is a Go panic (short value read as integer). `c` describes the call of `New` on reopen. -/
def step (c : Config) (w : World) : Op → Option (World × Out)
  -- translate.go:76-108 `TranslateKey`, up to the commit of `db.Update`
  | .begin t key =>
    match w.db (w.tr.keys ++ key) with
    | some v =>
      match btou64 v with
      | none => none
      | some n => some (w, .translated key n)
    | none =>
      match w.tr.seq.nextId w.db with
      | none => none
      | some (n, db, seq) =>
        some ({ db := db, tr := { w.tr with seq := seq }, pending := w.pending ++ [⟨t, key, n⟩] }, .started)
  -- translate.go:95-98: both sets are committed atomically, unless the key read as absent was written meanwhile
  | .commit t spurious =>
    match w.pending.find? (fun p => p.tid = t) with
    | none => some (w, .failed)
    | some p =>
      let w' := { w with pending := w.pending.filter (fun q => q.tid ≠ t) }
      if spurious ∨ (w.db (w.tr.keys ++ p.key)).isSome then some (w', .failed)
      else
        let db := (w.db.set (w.tr.keys ++ p.key) (u64tob p.id)).set (w.tr.ids ++ u64tob p.id) p.key
        some ({ w' with db := db }, .translated p.key p.id)
  -- translate.go:122-135 `Find`
  | .find key =>
    match w.db (w.tr.keys ++ key) with
    | none => some (w, .findMissing key)
    | some v =>
      match btou64 v with
      | none => none
      | some n => some (w, .found key n)
  -- translate.go:34-50 `TranslateID`
  | .lookup id =>
    match w.db (w.tr.ids ++ u64tob id) with
    | none => some (w, .idMissing id)
    | some k => some (w, .keyOf id k)
  | .bulk ids => some (w, .bulk ids (bulkKeys w.db w.tr.ids ids).1 (bulkKeys w.db w.tr.ids ids).2)
  -- translate.go:30-32 `Close`
  | .close =>
    match w.tr.seq.release w.db with
    | none => none
    | some (r, db, seq) => some ({ w with db := db, tr := { w.tr with seq := seq } }, .closed r)
  | .reopen =>
    match new c w.db with
    | none => none
    | some (db, tr) => some ({ db := db, tr := tr, pending := [] }, .opened)

/-- Opening the dictionary for the first time on database `db`. -/
def init (c : Config) (db : KV) : Option World :=
  match new c db with
  | none => none
  | some (db', tr) => some { db := db', tr := tr, pending := [] }

/-- A whole history: the outputs of all operations, in order. -/
def run (c : Config) : World → List Op → Option (World × List Out)
  | w, [] => some (w, [])
  | w, op :: ops =>
    match step c w op with
    | none => none
    | some (w1, o) =>
      match run c w1 ops with
      | none => none
      | some (w2, os) => some (w2, o :: os)

/-- History of a database that starts empty. -/
def history (c : Config) (ops : List Op) : Option (World × List Out) :=
  match init c KV.empty with
  | none => none
  | some w => run c w ops

/-- translate.go:76-108 `TranslateKey` run without interference: the transaction begins and commits. -/
def translateKey (w : World) (key : Bytes) : Option (World × Nat) :=
  match w.db (w.tr.keys ++ key) with
  | some v =>
    match btou64 v with
    | none => none
    | some n => some (w, n)
  | none =>
    match w.tr.seq.nextId w.db with
    | none => none
    | some (n, db, seq) =>
      some ({ w with db := (db.set (w.tr.keys ++ key) (u64tob n)).set (w.tr.ids ++ u64tob n) key,
                     tr := { w.tr with seq := seq } }, n)

/-- translate.go:122-135 `Find`: `none` for `ErrKeyNotFound` (and for the panic on a short value, which no reachable
database has, `C05_ids_stable`). -/
def findKey (w : World) (key : Bytes) : Option Nat :=
  match w.db (w.tr.keys ++ key) with
  | none => none
  | some v => btou64 v

end Verif.Tr
