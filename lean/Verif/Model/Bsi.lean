import Verif.Model.Rows
/-!
# internal/rows/bsi.go: bit-sliced integers

A BSI is a list of rows, one per bit, lowest bit first; the value of a column is read off the rows that contain it.
-/
namespace Verif.Rw
open Bt (shardWidth)

/-- What a call of `PivotDescending` leaves behind: the heap, the two counters its caller passed by pointer, and the calls of
`fn` it made, in order. -/
structure Pivot where
  heap : Heap
  limit : Option Nat
  offset : Option Nat
  calls : List (Nat × List Nat)
deriving Repr, DecidableEq

/-- bsi.go:31-33: `offset != nil && *offset >= filter.Count()`. -/
def skips (off : Option Nat) (r : Row) : Bool :=
  match off with
  | none => false
  | some o => decide (count r ≤ o)

/-- bsi.go:39-52: a leaf. Simplification: `cols[*offset:]` past the end is the empty list (it would panic; the guard above
excludes it when the cached count is right). -/
def leaf (h : Heap) (r : Row) (branch : Nat) (lim off : Option Nat) : Pivot :=
  let cols := columns h r
  let cols := match off with
    | none => cols
    | some o => cols.drop o
  let cols := match lim with
    | none => cols
    | some l => if l < cols.length then cols.take l else cols
  { heap := h, limit := lim.map (· - cols.length), offset := off.map (fun _ => 0), calls := [(branch, cols)] }

/-- bsi.go:18-62 `PivotDescending`, with the rows given highest bit first. `1<<uint(len(bsi)-1)` is a uint64. -/
def pivotHigh (h : Heap) (bits : List Row) (r : Row) (branch : Nat) (lim off : Option Nat) : Pivot :=
  if any h r = false then { heap := h, limit := lim, offset := off, calls := [] }
  else if skips off r = true then { heap := h, limit := lim, offset := off.map (· - count r), calls := [] }
  else if lim = some 0 then { heap := h, limit := lim, offset := off, calls := [] }
  else match bits with
    | [] => leaf h r branch lim off
    | split :: lower =>
      let i := intersect h r split
      let u := pivotHigh i.1 lower i.2 (branch ||| 2 ^ lower.length % 2 ^ 64) lim off
      let d := difference u.heap r [split]
      let l := pivotHigh d.1 lower d.2 branch u.limit u.offset
      { heap := l.heap, limit := l.limit, offset := l.offset, calls := u.calls ++ l.calls }
termination_by structural bits

/-- bsi.go:18-62 `PivotDescending` (the rows lowest bit first). -/
def pivotDescending (h : Heap) (bsi : List Row) (r : Row) (branch : Nat) (lim off : Option Nat) : Pivot :=
  pivotHigh h bsi.reverse r branch lim off

/-! ## AddBSI -/

/-- The higher slices when only one operand has any left. -/
def carry : List Bm → Bm → List Bm
  | [], c => [c]
  | y :: ys, c => y.xor c :: carry ys (y.and c)

/-- `roaring.Add` (a dependency): adds bitmaps as bit slices, lowest first, by ripple carry. -/
def rippleAdd : List Bm → List Bm → Bm → List Bm
  | [], ys, c => carry ys c
  | x :: xs, [], c => carry (x :: xs) c
  | x :: xs, y :: ys, c => (x.xor y).xor c :: rippleAdd xs ys ((x.and y).or ((x.xor y).and c))

/-- bsi.go:97-107: the lowest shard at the head of the remaining segment lists, if any. -/
def nextShard : List Row → Option Nat
  | [] => none
  | [] :: l => nextShard l
  | (s :: _) :: l =>
    match nextShard l with
    | none => some s.shard
    | some k => if s.shard < k then some s.shard else some k

/-- bsi.go:115-128, 129-142: the bitmap of a row in the shard, if it is not empty (`none` stands for `placeholderBitmap`). -/
def headAt (h : Heap) (k : Nat) : Row → Option Nat
  | [] => none
  | s :: _ => if s.shard = k ∧ rd h s.data ≠ [] then some s.data else none

/-- bsi.go:119, 133: the row with that segment consumed. -/
def tailAt (k : Nat) : Row → Row
  | [] => []
  | s :: t => if s.shard = k then t else s :: t

/-- The bitmap of a slice; the placeholder is empty. -/
def slice (h : Heap) : Option Nat → Bm
  | none => []
  | some p => rd h p

/-- The bitmaps of a list of slices. -/
def slices (h : Heap) (l : List (Option Nat)) : List Bm := l.map (slice h)

/-- bsi.go:144-155: the bitmaps of the sum, and the heap with those newly allocated. Simplification: the slices are not
trimmed to the highest non-empty one (empty bitmaps are dropped below). -/
def addShard (h : Heap) (xb yb : List (Option Nat)) : Heap × List Nat :=
  if xb.all (·.isNone) then (h ++ [[]], yb.map (·.getD h.length))
  else if yb.all (·.isNone) then (h ++ [[]], xb.map (·.getD h.length))
  else
    let s := rippleAdd (slices h xb) (slices h yb) []
    (h ++ s, List.range' h.length s.length)

/-- bsi.go:157-171: appends one segment per non-empty bitmap to the rows of the result, adding rows as needed. -/
def emit (h : Heap) (k : Nat) : List Row → List Nat → List Row
  | dst, [] => dst
  | [], p :: ps =>
    if (p :: ps).all (fun q => decide (rd h q = [])) then []
    else (if rd h p = [] then [] else [{ shard := k, data := p, writable := true, n := (rd h p).length }]) :: emit h k [] ps
  | d :: dst, p :: ps =>
    (if rd h p = [] then d else d ++ [{ shard := k, data := p, writable := true, n := (rd h p).length }]) :: emit h k dst ps

/-- bsi.go:94-172: the loop of `AddBSI`; every round consumes at least one segment. -/
def addLoop : Nat → Heap → List Row → List Row → List Row → Heap × List Row
  | 0, h, _, _, dst => (h, dst)
  | f + 1, h, xs, ys, dst =>
    match nextShard (xs ++ ys) with
    | none => (h, dst)
    | some k =>
      let o := addShard h (xs.map (headAt h k)) (ys.map (headAt h k))
      addLoop f o.1 (xs.map (tailAt k)) (ys.map (tailAt k)) (emit o.1 k dst o.2)

/-- bsi.go:83-175 `AddBSI`. -/
def addBSI (h : Heap) (x y : List Row) : Heap × List Row :=
  addLoop (((x ++ y).map List.length).sum) h x y []

/-! ## Builders -/

/-- `roaring.ArrayMaxSize`. -/
def arrayMaxSize : Nat := 4096

/-- A roaring container: its 16-bit values as stored, and the cached number of them. -/
structure Cont where
  bits : List Nat
  n : Nat
deriving Repr, DecidableEq

/-- bsi.go:179-185 `RowBuilder`. `bm` maps container keys to containers; `mask` is the set of bits of the bitmask. -/
structure RowBuilder where
  bm : Option (List (Nat × Cont)) := none
  mask : Option Bm := none
  array : List Nat := []
  key : Nat := 0
  n : Nat := 0
deriving Repr, DecidableEq

/-- `Containers.Get`. -/
def getCont (key : Nat) (m : List (Nat × Cont)) : Option Cont := (m.find? (fun e => decide (e.1 = key))).map (·.2)

/-- `Containers.Put`. -/
def putCont (key : Nat) (c : Cont) (m : List (Nat × Cont)) : List (Nat × Cont) :=
  m.filter (fun e => decide (e.1 ≠ key)) ++ [(key, c)]

/-- `roaring.Union` of two containers. -/
def unionCont (a b : Cont) : Cont := { bits := (Bm.or (a.bits.foldl Bm.add []) b.bits), n := (Bm.or (a.bits.foldl Bm.add []) b.bits).length }

/-- bsi.go:188-208 `flushKey`. `NewContainerBitmapN` takes the count it is given, `NewContainerArrayCopy` the length of the
array. -/
def RowBuilder.flushKey (b : RowBuilder) : RowBuilder :=
  let put (c : Cont) (b : RowBuilder) : RowBuilder :=
    let m := b.bm.getD []
    { b with bm := some (putCont b.key (match getCont b.key m with
      | none => c
      | some old => unionCont c old) m) }
  match b.mask with
  | some m => put { bits := m, n := b.n } { b with mask := none }
  | none => if b.array ≠ [] then put { bits := b.array, n := b.array.length } { b with array := [] } else b

/-- bsi.go:220-239: the part of `Add` after the key was changed. -/
def RowBuilder.addLow (b : RowBuilder) (v : Nat) : RowBuilder :=
  match b.mask with
  | some m => { b with n := if v % 65536 ∈ m then b.n else b.n + 1, mask := some (m.add (v % 65536)) }
  | none =>
    let a := b.array ++ [v % 65536]
    if arrayMaxSize ≤ a.length then { b with n := a.length, array := [], mask := some (a.foldl Bm.add []) }
    else { b with array := a }

/-- bsi.go:212-240 `RowBuilder.Add`. -/
def RowBuilder.add (b : RowBuilder) (v : Nat) : RowBuilder :=
  if b.key ≠ v / 65536 then RowBuilder.addLow { b.flushKey with key := v / 65536 } v else b.addLow v

/-- The values in a map of containers. -/
def contBits (m : List (Nat × Cont)) : List Nat := m.flatMap fun e => e.2.bits.map (e.1 * 65536 + ·)

/-- row.go:226-244 `NewRowFromBitmap`, over containers: the count of a segment is the sum of the counts of its containers
(16 per shard). -/
def fromConts : Heap → List (Nat × Cont) → List Nat → Heap × Row
  | h, _, [] => (h, [])
  | h, m, k :: ks =>
    let w := fromConts (h ++ [((contBits m).foldl Bm.add []).filter (fun x => decide (x / shardWidth = k))]) m ks
    (w.1, { shard := k, data := h.length, writable := true,
            n := ((m.filter (fun e => decide (e.1 / 16 = k))).map (fun e => e.2.n)).sum } :: w.2)

/-- bsi.go:244-255 `RowBuilder.Build`: the builder it leaves behind, and the row. -/
def RowBuilder.build (h : Heap) (b : RowBuilder) : Heap × Row × RowBuilder :=
  let b := b.flushKey
  match b.bm with
  | none => (h, [], b)
  | some m =>
    let r := fromConts h m ((((contBits m).foldl Bm.add []).map (· / shardWidth)).foldl Bm.add [])
    (r.1, r.2, { b with bm := none })

/-- bsi.go:267-270: adds the column to the builder of bit `i`, creating builders as needed. -/
def insertAt (col : Nat) : Nat → List RowBuilder → List RowBuilder
  | 0, [] => [RowBuilder.add {} col]
  | 0, b :: bs => b.add col :: bs
  | i + 1, [] => {} :: insertAt col i []
  | i + 1, b :: bs => b :: insertAt col i bs

/-- bsi.go:263-272 `BsiBuilder.Insert`. Simplification: the loop takes the lowest set bit until none is left; here the set
bits are listed in that order. -/
def insert (bs : List RowBuilder) (col val : Nat) : List RowBuilder :=
  ((List.range 64).filter (fun i => val.testBit i)).foldl (fun bs i => insertAt col i bs) bs

/-- bsi.go:276-284 `BsiBuilder.Build`; the builder is left empty (`builders[:0]`, whose slots are overwritten with zero
builders before they are used again). -/
def buildBsi : Heap → List RowBuilder → Heap × List Row
  | h, [] => (h, [])
  | h, b :: bs =>
    let r := b.build h
    let w := buildBsi r.1 bs
    (w.1, r.2.1 :: w.2)

end Verif.Rw
