import Verif.Model.Rows
/-!
# internal/shards/shards.go: one rbf database per shard

`disk` is the committed content of all shard databases: shard → view → bitmap. `opened` lists the shards whose database is
in the map `db`. rbf is modelled from its documented behaviour: a transaction is atomic, `AddRoaring` is set union,
`ApplyFilter` with a row filter over column filters calls back with every row that has all the columns, `OffsetRange` reads
a range of bits moved to a new offset, and a missing bitmap reads as empty.
-/
namespace Verif.Sh
open Bt (shardWidth Frags)
open Rw (Heap Row)

/-- shards.go:25-30 `Shards` and the files below `dir`. -/
structure Store where
  disk : Frags
  opened : List Nat
deriving Repr

/-- shards.go:32-41 `New`: no database is opened. -/
def Store.new (disk : Frags) : Store := { disk := disk, opened := [] }

/-- shards.go:201-223 `get`: opens the database of a shard and remembers it. Simplification: opening succeeds and runs alone
(an error leaves the store unchanged). -/
def Store.get (s : Store) (shard : Nat) : Store :=
  if shard ∈ s.opened then s else { s with opened := shard :: s.opened }

/-- `tx.AddRoaring(view, bits)` inside the transaction of one shard. -/
def addRoaring (f : Frags) (shard : Nat) (w : Bytes × Bm) : Frags :=
  let vs := (f.get shard).getD []
  f.set shard (vs.set w.1 (((vs.get w.1).getD []).or w.2))

/-- shards.go:56-72 `Update` with a function that adds bitmaps; `ok = false`: the function or the commit failed (or the
process died before the commit), so the transaction is rolled back. -/
def Store.update (s : Store) (shard : Nat) (ws : List (Bytes × Bm)) (ok : Bool) : Store :=
  let s := s.get shard
  if ok then { s with disk := ws.foldl (fun f w => addRoaring f shard w) s.disk } else s

/-- shards.go:43-54 `View`: opens the shard and reads. -/
def Store.view (s : Store) (shard : Nat) : Store := s.get shard

/-- shards.go:225-233 `Close`, process exit, and `New` on the same directory. -/
def Store.restart (s : Store) : Store := Store.new s.disk

/-- The rows a `BitmapRowFilter` over one `BitmapColumnFilter` per column reports for one bitmap. -/
def matchRows (bm : Bm) (cols : List Nat) : Bm :=
  ((bm.map (· / shardWidth)).foldl Bm.add []).filter
    (fun u => cols.all fun c => decide (u * shardWidth + c % shardWidth ∈ bm))

/-- shards.go:132-147: the rows of one shard that match in at least one view. -/
def shardRows (f : Frags) (shard : Nat) (views : List Bytes) (cols : List Nat) : Bm :=
  views.foldl (fun b v => b.or (matchRows (f.bits shard v) cols)) []

/-- shards.go:99-106: columns grouped by shard. -/
def groupCols (cols : List Nat) : AMap Nat (List Nat) :=
  cols.foldl (fun m c => m.set (c / shardWidth) (((m.get (c / shardWidth)).getD []) ++ [c])) []

/-- shards.go:113-166 `rows`, with the accumulator `r` (`none` is a nil bitmap). The list is the column map in its iteration
order. Simplification: rbf reports no error. -/
def rowsLoop (s : Store) (views : List Bytes) : AMap Nat (List Nat) → Option Bm → Option Bm
  | [], r => r
  | (k, f) :: rest, r =>
    if k ∉ s.opened then r.map (fun _ => [])
    else
      let b := shardRows s.disk k views f
      if b = [] then rowsLoop s views rest r
      else match r with
        | none => rowsLoop s views rest (some b)
        | some r0 => if r0.and b = [] ∧ r0 ≠ [] then some [] else rowsLoop s views rest (some (r0.and b))

/-- shards.go:98-111 `Rows`, given the views of the time range and the iteration order `m` of the column map. -/
def Store.rows (s : Store) (views : List Bytes) (m : AMap Nat (List Nat)) : Option Bm := rowsLoop s views m none

/-- shards.go:184-199 `row`: the bits of one row of one shard, as a row with a single segment. `OffsetRange` reads the bits
`[row·W, (row+1)·W)`. -/
def rowOf (f : Frags) (view : Bytes) (shard id : Nat) (h : Heap) : Heap × Row :=
  Rw.ofShard h shard (((f.bits shard view).filter fun p => decide (p / shardWidth = id)).map (· % shardWidth))

/-- shards.go:77-96, 168-182 `Row` over `AllShards`: `order` is the iteration order of the map of opened databases. -/
def rowLoop (f : Frags) (view : Bytes) (id : Nat) : List Nat → Heap → Row → Heap × Row
  | [], h, r => (h, r)
  | k :: ks, h, r =>
    let o := rowOf f view k id h
    let m := Rw.merge o.1 r o.2
    rowLoop f view id ks m.1 m.2

/-- `Row(view, id).Columns()`. -/
def Store.rowColumns (s : Store) (view : Bytes) (id : Nat) (order : List Nat) : List Nat :=
  let w := rowLoop s.disk view id order [] []
  Rw.columns w.1 w.2

/-- Operations on the shards. -/
inductive Op where
  | update (shard : Nat) (ws : List (Bytes × Bm)) (ok : Bool)
  | view (shard : Nat)
  | restart
deriving Repr

def step (s : Store) : Op → Store
  | .update k ws ok => s.update k ws ok
  | .view k => s.view k
  | .restart => s.restart

/-- Any history, starting with an empty directory. -/
def run (ops : List Op) : Store := ops.foldl step (Store.new [])

end Verif.Sh
