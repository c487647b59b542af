import Verif.Model.Batch
/-!
# internal/rows/row.go: rows of the index, split in one segment per shard

A segment holds a *pointer* to a bitmap, and the code copies segments by value, so the heap of bitmaps is explicit: a
pointer is a position in it. Columns and shards are natural numbers. Bitmap operations of gernest/roaring are set
operations on ascending lists; `Freeze` and `Clone` allocate an independent bitmap with the same content (their
copy-on-write containers are not modelled).
-/
namespace Verif

/-- `roaring.Bitmap.Difference`. -/
def Bm.diff (a b : Bm) : Bm := a.filter (fun x => decide (x ∉ b))

/-- `roaring.Bitmap.Xor`. -/
def Bm.xor (a b : Bm) : Bm := (a.diff b).or (b.diff a)

namespace Rw
open Bt (shardWidth)

/-- row.go:610-622 `RowSegment`. `data` is a pointer into the heap, `n` the cached bit count. -/
structure Seg where
  shard : Nat
  data : Nat
  writable : Bool
  n : Nat
deriving Repr, DecidableEq

/-- All bitmaps allocated so far. -/
abbrev Heap := List Bm

/-- Reading through a pointer. -/
def rd (h : Heap) (p : Nat) : Bm := h.getD p []

/-- row.go:120-138 `Row`: its segments (the string keys, index and field names are not modelled). -/
abbrev Row := List Seg

/-- row.go:786-797 `ensureWritable`. -/
def ensureWritable (h : Heap) (s : Seg) : Heap × Seg :=
  if s.writable then (h, s) else (h ++ [rd h s.data], { s with data := h.length, writable := true })

/-- row.go:736-743 `RowSegment.SetBit`; the Boolean is `changed`. -/
def segSetBit (h : Heap) (s : Seg) (i : Nat) : Heap × Seg × Bool :=
  let w := ensureWritable h s
  if i ∈ rd w.1 w.2.data then (w.1, w.2, false)
  else (w.1.set w.2.data ((rd w.1 w.2.data).add i), { w.2 with n := w.2.n + 1 }, true)

/-- row.go:656-659: the loop of `RowSegment.Merge` over the bits of the other segment. -/
def segSetAll : Heap → Seg → List Nat → Heap × Seg
  | h, s, [] => (h, s)
  | h, s, v :: vs => segSetAll (segSetBit h s v).1 (segSetBit h s v).2.1 vs

/-- row.go:653-660 `RowSegment.Merge`. Simplification: the bits of the other segment are read once, before the loop (if the
two segments share their bitmap the loop changes nothing). -/
def segMerge (h : Heap) (s o : Seg) : Heap × Seg :=
  let w := ensureWritable h s
  segSetAll w.1 w.2 (rd w.1 o.data)

/-- A segment over a newly allocated bitmap; row.go:668-717 build their result like this (`writable` left false). -/
def fresh (h : Heap) (shard : Nat) (b : Bm) (writable : Bool) : Heap × Seg :=
  (h ++ [b], { shard := shard, data := h.length, writable := writable, n := b.length })

/-- row.go:498-500 `Row.SetBit` with row.go:513-535 `createSegmentIfNotExists`. Simplification: `sort.Search` on the sorted
segments is a linear search for the first segment whose shard is not smaller. -/
def setBit (h : Heap) (i : Nat) : Row → Heap × Row × Bool
  | [] =>
    let f := fresh h (i / shardWidth) [] true
    let w := segSetBit f.1 f.2 i
    (w.1, [w.2.1], w.2.2)
  | s :: r =>
    if s.shard < i / shardWidth then
      let w := setBit h i r
      (w.1, s :: w.2.1, w.2.2)
    else if s.shard = i / shardWidth then
      let w := segSetBit h s i
      (w.1, w.2.1 :: r, w.2.2)
    else
      let f := fresh h (i / shardWidth) [] true
      let w := segSetBit f.1 f.2 i
      (w.1, w.2.1 :: s :: r, w.2.2)

/-- row.go:141-147 `NewRow`. -/
def newRow : Heap → Row → List Nat → Heap × Row
  | h, r, [] => (h, r)
  | h, r, c :: cs => newRow (setBit h c r).1 (setBit h c r).2.1 cs

/-- row.go:538-542, 757-759 `InvalidateCount`. -/
def invalidate (h : Heap) (r : Row) : Row := r.map fun s => { s with n := (rd h s.data).length }

/-- row.go:810-842 `mergeSegmentIterator.next`, called until both lists are exhausted. As in the code, a segment that is only
in the second list is returned in the first position when the first list is not empty. -/
def pairs : Nat → Row → Row → List (Option Seg × Option Seg)
  | 0, _, _ => []
  | _ + 1, [], [] => []
  | f + 1, [], s1 :: a1 => (none, some s1) :: pairs f [] a1
  | f + 1, s0 :: a0, [] => (some s0, none) :: pairs f a0 []
  | f + 1, s0 :: a0, s1 :: a1 =>
    if s0.shard < s1.shard then (some s0, none) :: pairs f a0 (s1 :: a1)
    else if s1.shard < s0.shard then (some s1, none) :: pairs f (s0 :: a0) a1
    else (some s0, some s1) :: pairs f a0 a1

/-- The whole iteration: every call consumes a segment. -/
def itr (a0 a1 : Row) : List (Option Seg × Option Seg) := pairs (a0.length + a1.length) a0 a1

/-- row.go:305-318: the loop of `Row.Merge`. -/
def mergeLoop : Heap → List (Option Seg × Option Seg) → Heap × Row
  | h, [] => (h, [])
  | h, (none, some s1) :: t => let w := mergeLoop h t; (w.1, s1 :: w.2)
  | h, (some s0, none) :: t => let w := mergeLoop h t; (w.1, s0 :: w.2)
  | h, (some s0, some s1) :: t =>
    let m := segMerge h s0 s1
    let w := mergeLoop m.1 t
    (w.1, m.2 :: w.2)
  | h, (none, none) :: _ => (h, [])

/-- row.go:301-322 `Row.Merge`. -/
def merge (h : Heap) (r o : Row) : Heap × Row :=
  let w := mergeLoop h (itr r o)
  (w.1, invalidate w.1 w.2)

/-- row.go:345-351: the loop of `Row.Intersect`. -/
def intersectLoop : Heap → List (Option Seg × Option Seg) → Heap × Row
  | h, [] => (h, [])
  | h, (some s0, some s1) :: t =>
    let f := fresh h s0.shard ((rd h s0.data).and (rd h s1.data)) false
    let w := intersectLoop f.1 t
    (w.1, f.2 :: w.2)
  | h, (_, _) :: t => intersectLoop h t

/-- row.go:341-354 `Row.Intersect`. -/
def intersect (h : Heap) (r o : Row) : Heap × Row := intersectLoop h (itr r o)

/-- row.go:371-381: the loop of `Row.Xor`. -/
def xorLoop : Heap → List (Option Seg × Option Seg) → Heap × Row
  | h, [] => (h, [])
  | h, (some s0, none) :: t => let w := xorLoop h t; (w.1, s0 :: w.2)
  | h, (none, some s1) :: t => let w := xorLoop h t; (w.1, s1 :: w.2)
  | h, (some s0, some s1) :: t =>
    let f := fresh h s0.shard ((rd h s0.data).xor (rd h s1.data)) false
    let w := xorLoop f.1 t
    (w.1, f.2 :: w.2)
  | h, (none, none) :: _ => (h, [])

/-- row.go:367-384 `Row.Xor`. -/
def xor (h : Heap) (r o : Row) : Heap × Row := xorLoop h (itr r o)

/-- row.go:401-406: the lowest shard at the head of the remaining segment lists. -/
def lowest : List Row → Nat
  | [] => 0
  | segs :: rest =>
    let first := (segs.head?.map (·.shard)).getD 0
    rest.foldl (fun m s => match s with
      | [] => m
      | x :: _ => if x.shard < m then x.shard else m) first

/-- row.go:409-417: the head segments with the lowest shard ... -/
def toProcess (k : Nat) (l : List Row) : List Seg :=
  l.filterMap fun segs => match segs with
    | [] => none
    | x :: _ => if x.shard = k then some x else none

/-- ... and the remaining non-empty lists. -/
def nextSegs (k : Nat) (l : List Row) : List Row :=
  l.filterMap fun segs => match segs with
    | [] => none
    | x :: t => if x.shard = k then (if t = [] then none else some t) else some (x :: t)

/-- row.go:679-691 `RowSegment.Union`: the content of the result. -/
def unionData (h : Heap) : List Seg → Bm
  | [] => []
  | s :: ss => ss.foldl (fun b o => b.or (rd h o.data)) (rd h s.data)

/-- row.go:422-426: one output segment. -/
def unionSeg (h : Heap) (k : Nat) : List Seg → Heap × Seg
  | [s] => (h, s)
  | ss => fresh h k (unionData h ss) false

/-- row.go:400-427: the loop of `Row.Union`; every round consumes at least one segment. -/
def unionLoop : Nat → Heap → List Row → Heap × Row
  | 0, h, _ => (h, [])
  | _ + 1, h, [] => (h, [])
  | f + 1, h, l =>
    let k := lowest l
    let u := unionSeg h k (toProcess k l)
    let w := unionLoop f u.1 (nextSegs k l)
    (w.1, u.2 :: w.2)

/-- row.go:387-429 `Row.Union`. -/
def union (h : Heap) (r : Row) (others : List Row) : Heap × Row :=
  let l := (r :: others).filter (fun segs => decide (segs ≠ []))
  unionLoop ((l.map List.length).sum) h l

/-- row.go:436-441: the segments of the other rows with a given shard. -/
def sameShard (k : Nat) (others : List Row) : List Seg := others.flatten.filter (fun s => decide (s.shard = k))

/-- row.go:442-450: the loop of `Row.Difference`. -/
def diffLoop : Heap → Row → List Row → Heap × Row
  | h, [], _ => (h, [])
  | h, s :: r, others =>
    let dest := sameShard s.shard others
    if dest = [] then let w := diffLoop h r others; (w.1, s :: w.2)
    else
      let f := fresh h s.shard (dest.foldl (fun b o => b.diff (rd h o.data)) (rd h s.data)) false
      let w := diffLoop f.1 r others
      (w.1, f.2 :: w.2)

/-- row.go:432-452 `Row.Difference`. -/
def difference (h : Heap) (r : Row) (others : List Row) : Heap × Row := diffLoop h r others

/-- row.go:192-221 `Row.Clone`. -/
def clone : Heap → Row → Heap × Row
  | h, [] => (h, [])
  | h, s :: r =>
    let h' := h ++ [rd h s.data]
    let w := clone h' r
    (w.1, { shard := s.shard, data := h.length, writable := true, n := s.n } :: w.2)

/-- row.go:226-244 `NewRowFromBitmap`: one segment per shard that has a bit. -/
def fromBitmap : Heap → Bm → List Nat → Heap × Row
  | h, _, [] => (h, [])
  | h, b, k :: ks =>
    let f := fresh h k (b.filter (fun x => decide (x / shardWidth = k))) true
    let w := fromBitmap f.1 b ks
    (w.1, f.2 :: w.2)

/-- internal/shards/shards.go:184-199 `row`: one segment over what `OffsetRange` read (the offsets moved to the shard). -/
def ofShard (h : Heap) (shard : Nat) (offs : List Nat) : Heap × Row :=
  let f := fresh h shard ((offs.map fun o => shard * shardWidth + o % shardWidth).foldl Bm.add []) true
  (f.1, [f.2])

/-- row.go:570-581 `Columns` (and 762-769). -/
def columns (h : Heap) (r : Row) : List Nat := r.flatMap fun s => rd h s.data

/-- row.go:545-555 `Count` (and 783). -/
def count (r : Row) : Nat := (r.map (·.n)).sum

/-- row.go:357-364 `Any`. -/
def any (h : Heap) (r : Row) : Bool := r.any fun s => decide (rd h s.data ≠ [])

/-- row.go:282-292 `IsEmpty`. -/
def isEmpty (r : Row) : Bool := r.all fun s => decide (s.n = 0)

/-- row.go:597-605 `Includes`. -/
def includes (h : Heap) (r : Row) (c : Nat) : Bool :=
  match r.find? (fun s => decide (s.shard = c / shardWidth)) with
  | none => false
  | some s => decide (c ∈ rd h s.data)

/-- A program's row variables and the heap they point into. -/
structure World where
  heap : Heap
  rows : List Row
deriving Repr

/-- The row in variable `i` (an empty row if there is none). -/
def World.row (w : World) (i : Nat) : Row := w.rows.getD i []

/-- Calls of the package. `merge` overwrites row `i`; `absorb` merges row `j` into `i` and forgets row `j`, the way
internal/shards/shards.go:168-182 uses it; the operations without a target add their result as a new row. -/
inductive Op where
  | new (cols : List Nat)
  | bitmap (bits : List Nat)
  | shard (k : Nat) (offs : List Nat)
  | setBit (i c : Nat)
  | merge (i j : Nat)
  | absorb (i j : Nat)
  | union (i : Nat) (js : List Nat)
  | intersect (i j : Nat)
  | xor (i j : Nat)
  | difference (i : Nat) (js : List Nat)
  | clone (i : Nat)
deriving Repr, DecidableEq

def World.push (w : World) (p : Heap × Row) : World := { heap := p.1, rows := w.rows ++ [p.2] }

def World.put (w : World) (i : Nat) (p : Heap × Row) : World := { heap := p.1, rows := w.rows.set i p.2 }

def step (w : World) : Op → World
  | .new cols => w.push (newRow w.heap [] cols)
  | .bitmap bits =>
    w.push (fromBitmap w.heap (bits.foldl Bm.add []) ((bits.map (· / shardWidth)).foldl Bm.add []))
  | .shard k offs => w.push (ofShard w.heap k offs)
  | .setBit i c => let r := setBit w.heap c (w.row i); w.put i (r.1, r.2.1)
  | .merge i j => w.put i (merge w.heap (w.row i) (w.row j))
  | .absorb i j => { w.put i (merge w.heap (w.row i) (w.row j)) with
      rows := (w.rows.set i (merge w.heap (w.row i) (w.row j)).2).set j [] }
  | .union i js => w.push (union w.heap (w.row i) (js.map w.row))
  | .intersect i j => w.push (intersect w.heap (w.row i) (w.row j))
  | .xor i j => w.push (xor w.heap (w.row i) (w.row j))
  | .difference i js => w.push (difference w.heap (w.row i) (js.map w.row))
  | .clone i => w.push (clone w.heap (w.row i))

/-- A program: any sequence of calls, starting with no rows. -/
def run (ops : List Op) : World := ops.foldl step { heap := [], rows := [] }

end Rw
end Verif
