import Verif.Model.Rows
/-!
# internal/rows/row.go: reading rows out, shifting, clearing

The parts of the package that are not in Model/Rows.lean. Columns are natural numbers, as there (a column that is shifted past the last
`uint64` is not modelled).
-/
namespace Verif.Rw
open Bt (shardWidth)

/-! ## Values and tables -/

/-- row.go:73-78 `Value`: pointers. Doubles by their bits, timestamps in milliseconds. -/
structure Val where
  str : Option Bytes := none
  int : Option Nat := none
  double : Option Nat := none
  time : Option Nat := none
deriving DecidableEq, Repr

/-- row.go:80-84 `StringValue`. -/
def stringValue (s : Bytes) : Val := { str := some s }

/-- row.go:85-89 `IntValue`. -/
def intValue (v : Nat) : Val := { int := some v }

/-- row.go:91-96 `Value.String`. -/
def Val.toStr (v : Val) : Bytes := v.str.getD []

/-- row.go:98-103 `Value.Int`. -/
def Val.toInt (v : Val) : Nat := v.int.getD 0

/-- row.go:105-110 `Value.Float64`; `none`: the nil pointer is dereferenced. The condition is on the integer. -/
def Val.toDouble (v : Val) : Option Nat := if v.int.isSome then v.double else some 0

/-- row.go:112-117 `Value.Time`: milliseconds since 1970 as a signed number; `none`: the zero time. -/
def Val.toTime (v : Val) : Option Int := v.time.map fun t => if t < 2 ^ 63 then (t : Int) else t - 2 ^ 64

/-- row.go:17-24 `DataType`, as far as it is used. -/
inductive DataType where
  | string
  | int64
deriving DecidableEq, Repr

/-- row.go:66-69 `ColumnInfo`. -/
structure ColumnInfo where
  name : Bytes
  type : DataType
deriving DecidableEq, Repr

/-- row.go:61-64 `RowResult`. -/
structure RowResult where
  headers : Option (List ColumnInfo)
  columns : List Val

/-- `_id` -/
def idName : Bytes := [95, 105, 100]

/-- row.go:166-174, 180-188: the loops of `ToRows`. The headers are only sent with the first result. -/
def sendAll {σ ε : Type} (cb : σ → RowResult → Except ε σ) : σ → Option (List ColumnInfo) → List Val → Except ε σ
  | st, _, [] => .ok st
  | st, ci, v :: vs => match cb st { headers := ci, columns := [v] } with
    | .error e => .error e
    | .ok st => sendAll cb st none vs

/-- row.go:159-190 `ToRows`: of a row with string keys, the keys, otherwise its columns. -/
def toRows {σ ε : Type} (cb : σ → RowResult → Except ε σ) (st : σ) (keys : List Bytes) (cols : List Nat) : Except ε σ :=
  if keys.isEmpty then sendAll cb st (some [⟨idName, .int64⟩]) (cols.map intValue)
  else sendAll cb st (some [⟨idName, .string⟩]) (keys.map stringValue)

/-- row.go:56-59 `Table`. -/
structure Table where
  headers : Option (List ColumnInfo)
  rows : List (List Val)
deriving DecidableEq, Repr

/-- row.go:38-44: the callback of `RowsToTable`. -/
def tableCb (t : Table) (rr : RowResult) : Except Unit Table :=
  .ok { headers := if t.rows.isEmpty then rr.headers else t.headers, rows := t.rows ++ [rr.columns] }

/-- row.go:30-54 `RowsToTable`, 149-157 `ToTable`. -/
def toTable (keys : List Bytes) (cols : List Nat) : Except Unit Table := toRows tableCb ⟨none, []⟩ keys cols

/-- Items of a JSON array. -/
def commas : List Bytes → Bytes
  | [] => []
  | [x] => x
  | x :: y :: l => x ++ 44 :: commas (y :: l)

/-- row.go:558-567 `MarshalJSON` of a row without string keys: `{"columns":[…]}`. -/
def marshalJSON (h : Heap) (r : Row) : Bytes :=
  [123, 34, 99, 111, 108, 117, 109, 110, 115, 34, 58, 91] ++ commas ((columns h r).map dec) ++ [93, 125]

/-- row.go:583-594, 772-780 `ShardColumns`: the low bits of each column. -/
def shardColumns (h : Heap) (r : Row) : List Nat := r.flatMap fun s => (rd h s.data).map (· % shardWidth)

/-! ## Further operations -/

/-- row.go:720-733 `RowSegment.Shift`, for all segments (row.go:484-490). `Shift(1)` of a bitmap adds one to each member. -/
def shiftSegs : Heap → Row → Heap × Row
  | h, [] => (h, [])
  | h, s :: r =>
    let f := fresh h s.shard ((rd h s.data).map (· + 1)) false
    let w := shiftSegs f.1 r
    (w.1, f.2 :: w.2)

/-- row.go:482-492: the loop of `Shift`. That the new segments overwrite the old ones in one array is not modelled: each is read before
it is overwritten. -/
def shiftLoop : Nat → Heap → Row → Heap × Row
  | 0, h, r => (h, r)
  | n + 1, h, r => shiftLoop n (shiftSegs h r).1 (shiftSegs h r).2

/-- row.go:473-495 `Row.Shift`; `none`: the error. -/
def shift (h : Heap) (r : Row) (n : Int) : Option (Heap × Row) := if n < 0 then none else some (shiftLoop n.toNat h r)

/-- row.go:663-665 `RowSegment.IntersectionCount`, of segments that overlap (row.go:331-335). -/
def common (h : Heap) : Option Seg × Option Seg → Nat
  | (some s0, some s1) => ((rd h s0.data).and (rd h s1.data)).length
  | _ => 0

/-- row.go:325-338 `intersectionCount`. -/
def intersectionCount (h : Heap) (r o : Row) : Nat := ((itr r o).map (common h)).sum

/-- row.go:746-754 `RowSegment.ClearBit`; the Boolean is `changed`. -/
def segClearBit (h : Heap) (s : Seg) (i : Nat) : Heap × Seg × Bool :=
  let w := ensureWritable h s
  if i ∈ rd w.1 w.2.data then (w.1.set w.2.data ((rd w.1 w.2.data).filter fun x => decide (x ≠ i)), { w.2 with n := w.2.n - 1 }, true)
  else (w.1, w.2, false)

/-- row.go:504-511 `segment`, then `ClearBit` on it (`Row` has no such method of its own): linear search for `sort.Search`. -/
def clearBit (h : Heap) (i : Nat) : Row → Heap × Row × Bool
  | [] => (h, [], false)
  | s :: r =>
    if s.shard = i / shardWidth then
      let w := segClearBit h s i
      (w.1, w.2.1 :: r, w.2.2)
    else
      let w := clearBit h i r
      (w.1, s :: w.2.1, w.2.2)

/-- row.go:294-298 `Row.Freeze`, 636-638: each segment is copied by `range`, and the copy is made to point to a frozen bitmap. -/
def freeze : Heap → Row → Heap × Row
  | h, [] => (h, [])
  | h, s :: r =>
    let w := freeze (h ++ [rd h s.data]) r
    (w.1, s :: w.2)

/-- row.go:273-279 `Roaring`: the file holds the bits of all segments. -/
def roaring (h : Heap) (r : Row) : Bm := (columns h r).foldl Bm.add []

/-- row.go:248-261 `NewRowFromRoaring`: `RoaringToBitmaps` makes one bitmap per shard that has a bit, which are not writable. -/
def fromRoaring : Heap → Bm → List Nat → Heap × Row
  | h, _, [] => (h, [])
  | h, b, k :: ks =>
    let f := fresh h k (b.filter (fun x => decide (x / shardWidth = k))) false
    let w := fromRoaring f.1 b ks
    (w.1, f.2 :: w.2)

/-- The shards that have a bit, ascending. -/
def shardsOf (b : Bm) : List Nat := (b.map (· / shardWidth)).foldl Bm.add []

end Verif.Rw
