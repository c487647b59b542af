import Verif.Model.Bitmap
import Verif.Model.Time
/-!
# internal/batch/batch.go: the batch that turns samples into index bits

`uint64` values are natural numbers; products and sums that can wrap are reduced modulo 2^64.
-/
namespace Verif.Bt
open Tm

/-- roaring `shardwidth.ShardWidth`: 2^20 columns per shard. -/
def shardWidth : Nat := 1048576

/-- internal/view/view.go:56-58 `Pos`, and the expression of internal/batch/batch.go:92. -/
def pos (row col : Nat) : Nat := (row * shardWidth + col % shardWidth) % 2 ^ 64

/-- internal/view/view.go:61-63 `Key`, internal/x/x.go:25 `HighBits`. -/
def key (p : Nat) : Nat := p / 2 ^ 16

/-- internal/batch/batch.go:103 `Fragments`: shard → view → bitmap. -/
abbrev Frags := AMap Nat (AMap Bytes Bm)

/-- batch.go:129-142 `GetOrCreate` followed by `DirectAdd`. -/
def Frags.directAdd (f : Frags) (shard : Nat) (view : Bytes) (p : Nat) : Frags :=
  let viewMap := (f.get shard).getD []
  let bm := (viewMap.get view).getD []
  f.set shard (viewMap.set view (bm.add p))

/-- The bitmap stored for a shard and view (empty if there is none). -/
def Frags.bits (f : Frags) (shard : Nat) (view : Bytes) : Bm :=
  (((f.get shard).getD []).get view).getD []

/-- One element of the parallel slices `ids`, `labels`, `times` of batch.go:21-26. `q` is the `QuantizedTime`. -/
structure Entry where
  id : Nat
  labels : Option Bm
  q : Bytes
deriving Repr, DecidableEq

/-- batch.go:21-26 `Batch`. Simplification: the three parallel slices are one list. -/
structure Batch where
  entries : List Entry
  frags : Frags
deriving Repr

/-- batch.go:28-32 `New`. -/
def Batch.new : Batch := { entries := [], frags := [] }

/-- batch.go:57-62 `Add`, 51-55 `addTs`: the time is given in nanoseconds. -/
def Batch.add (b : Batch) (id : Nat) (ns : Int) (labels : Option Bm) : Batch :=
  { b with entries := b.entries ++ [{ id := id, labels := labels, q := ymdh ns }] }

/-- batch.go:85-94: all columns of one sample. -/
def addCols (id : Nat) (views : List Bytes) (cols : List Nat) (f : Frags) : Frags :=
  cols.foldl (fun f col => views.foldl (fun f v => f.directAdd (col / shardWidth) v (pos id col)) f) f

/-- batch.go:73-97 `makeFragments`: the fragments (updated in place) and whether it succeeded. -/
def makeFragments : List Entry → Frags → Frags × Bool
  | [], f => (f, true)
  | e :: es, f =>
    match e.labels with
    | none => makeFragments es f
    | some ls =>
      match viewsOf e.q quantumYMDH with
      | none => (f, false)
      | some vs => makeFragments es (addCols e.id vs ls f)

/-- batch.go:34-49 `Reset`. (The bitmaps are not returned to their pool, because `labels` is emptied before the loop that
releases them; this has no effect on results.) -/
def Batch.reset (_ : Batch) : Batch := { entries := [], frags := [] }

/-- batch.go:64-71 `Build`. `none`: error; what `makeFragments` wrote before failing stays in `frags`. -/
def Batch.build (b : Batch) : Batch × Option Frags :=
  let (f, ok) := makeFragments b.entries b.frags
  if ok then (b.reset, some f) else ({ b with frags := f }, none)

/-- Operations on one batch object. `addRaw` enters a quantized time with arbitrary bytes, so that building can fail. -/
inductive BOp where
  | add (id : Nat) (ns : Int) (labels : Option Bm)
  | addRaw (id : Nat) (q : Bytes) (labels : Option Bm)
  | build
deriving Repr

def Batch.step (b : Batch) : BOp → Batch × List (Option Frags)
  | .add id ns ls => (b.add id ns ls, [])
  | .addRaw id q ls => ({ b with entries := b.entries ++ [{ id := id, labels := ls, q := q }] }, [])
  | .build => let (b', r) := b.build; (b', [r])

/-- The batch after a sequence of operations and the results of its builds. -/
def Batch.run : Batch → List BOp → Batch × List (Option Frags)
  | b, [] => (b, [])
  | b, op :: ops =>
    let (b1, r1) := b.step op
    let (b2, r2) := Batch.run b1 ops
    (b2, r1 ++ r2)

end Verif.Bt
