import Verif.Model.Bytes
import Mathlib.Data.List.Basic
/-!
# internal/arrow3: protobuf messages as columns

The schema that `createNode` makes of a message type, the column builders, and reading rows back.

Simplifications. Scalars are integers (enums, booleans, and floats by their bits) or byte strings. Fields are found by
name (node.go:55-59, 294-298); names in a message differ, so here they are found by position. Of a oneof at most one member is set
(protobuf), so setting one never clears another. `AnyValue` is serialized (`Any`, `marshal`, `unmarshal`): strings are valid
UTF-8 (checked when a request is decoded), so `proto.Marshal` does not fail. Writing the record to parquet and reading it back
(parquet.go) is not modelled. The arrow library is modelled from its source: a null of a struct appends a null to every child, a
null of a list appends an offset.
-/
namespace Verif.A3

/-! ## Message types -/

/-- The protobuf kinds; messages by number of their type, `any` is `opentelemetry.proto.common.v1.AnyValue`. -/
inductive Kind where
  | num | text | bytes | any | group
  | msg (t : Nat)
deriving DecidableEq, Repr

/-- A field descriptor. `oneof`: member of a oneof, which includes fields with the keyword `optional`. -/
structure FieldD where
  name : Bytes
  kind : Kind
  repeated : Bool := false
  map : Bool := false
  oneof : Bool := false
deriving DecidableEq, Repr

/-- What a column of a singular value holds. -/
inductive Leaf where
  | num | text | bytes | any
deriving DecidableEq, Repr

/-- How often a field occurs: always with a value (zero when unset), maybe, or as a list. -/
inductive Card where
  | implicit | explicit | repeated
deriving DecidableEq, Repr

/-- node.go:31-40 `node`, and the list of children of a node (`nil`, `cons`). -/
inductive Node where
  | leaf (l : Leaf)
  | msg (fs : Node)
  | nil
  | cons (name : Bytes) (c : Card) (elem : Node) (rest : Node)
deriving DecidableEq, Repr

/-- node.go:168-366 `createNode` with `baseType` (379-568); `fuel` is `maxDepth - depth`; `none`: a panic (too deep, a map, or a
kind that is not supported). Children are made by `kids`. -/
def createNode (kids : Nat → Option Node) (f : FieldD) : Option (Card × Node) :=
  let card := if f.repeated then .repeated else if f.oneof then .explicit else .implicit
  let card' := if f.repeated then Card.repeated else .explicit
  if f.map then none
  else
    match f.kind with
    | .num => some (card, .leaf .num)
    | .text => some (card, .leaf .text)
    | .bytes => some (card, .leaf .bytes)
    | .any => some (card', .leaf .any)
    | .group => none
    | .msg t =>
      match kids t with
      | none => none
      | some fs => some (card', .msg fs)

/-- node.go:102-111, 255-264: all fields in order. -/
def createNodes (kids : Nat → Option Node) : List FieldD → Option Node
  | [] => some .nil
  | f :: fs =>
    match createNode kids f, createNodes kids fs with
    | some (c, e), some r => some (.cons f.name c e r)
    | _, _ => none

/-- The children of message type `t` when `fuel` levels are left. node.go:169-171: a field at depth 10 panics. -/
def kidsAt (T : Nat → List FieldD) : Nat → Nat → Option Node
  | 0, t => match T t with | [] => some .nil | _ :: _ => none
  | n + 1, t => createNodes (kidsAt T n) (T t)

/-- node.go:21-23. -/
def maxDepth : Nat := 10

/-- node.go:115-118, 133-136: `pqarrow.ToParquet` takes these columns; it refuses a struct without fields (the library, `structToNode`). -/
def toParquet : Node → Bool
  | .leaf _ => true
  | .msg .nil => false
  | .msg fs => toParquet fs
  | .nil => true
  | .cons _ _ e r => toParquet e && toParquet r

/-- arrow3.go:19-38 `New`, node.go:97-143 `build`: the schema of message type `t`; `none`: an error. -/
def build (T : Nat → List FieldD) (t : Nat) : Option Node :=
  match kidsAt T maxDepth t with
  | none => none
  | some n => if toParquet n then some n else none

/-! ## Messages -/

variable (Any : Type)

abbrev LeafVal : Leaf → Type
  | .num => Int
  | .text => Bytes
  | .bytes => Bytes
  | .any => Any

abbrev Occurs : Card → Type → Type
  | .implicit, α => α
  | .explicit, α => Option α
  | .repeated, α => List α

/-- The messages of a type. Protobuf does not tell an unset scalar field without presence from one set to zero, nor an unset list
from an empty one, so neither do these. -/
abbrev Val : Node → Type
  | .leaf l => LeafVal Any l
  | .msg fs => Val fs
  | .nil => Unit
  | .cons _ c e r => Occurs c (Val e) × Val r

/-! ## Columns -/

/-- A cell of a column. `AnyValue` is kept serialized. -/
abbrev Cell : Leaf → Type
  | .num => Int
  | .text => Bytes
  | .bytes => Bytes
  | .any => Bytes

/-- Builder, or array, of a field: a list has offsets, validity and its elements. -/
abbrev Col : Card → Type → Type
  | .repeated, α => List Nat × List Bool × α
  | _, α => α

/-- Builder, or array, of a node: cells with nulls; validity and fields of a struct. -/
abbrev Arr : Node → Type
  | .leaf l => List (Option (Cell l))
  | .msg fs => List Bool × Arr fs
  | .nil => Unit
  | .cons _ c e r => Col c (Arr e) × Arr r

/-- node.go:153-159: empty builders. -/
def empty : (n : Node) → Arr n
  | .leaf _ => []
  | .msg fs => ([], empty fs)
  | .nil => ()
  | .cons _ .implicit e r => (empty e, empty r)
  | .cons _ .explicit e r => (empty e, empty r)
  | .cons _ .repeated e r => (([], [], empty e), empty r)

/-- `Len` of the builder. -/
def len : (n : Node) → Arr n → Nat
  | .leaf _, a => a.length
  | .msg _, a => a.1.length
  | _, _ => 0

/-- arrow `AppendNull`. -/
def appendNull : (n : Node) → Arr n → Arr n
  | .leaf _, a => a ++ [none]
  | .msg fs, a => (a.1 ++ [false], appendNull fs a.2)
  | .nil, _ => ()
  | .cons _ .implicit e r, a => (appendNull e a.1, appendNull r a.2)
  | .cons _ .explicit e r, a => (appendNull e a.1, appendNull r a.2)
  | .cons _ .repeated e r, a => ((a.1.1 ++ [len e a.1.2.2], a.1.2.1 ++ [false], a.1.2.2), appendNull r a.2)

/-- How `AnyValue` is serialized. -/
structure Coder where
  marshal : Any → Bytes
  unmarshal : Bytes → Any

variable {Any} (C : Coder Any)

def toCell : (l : Leaf) → LeafVal Any l → Cell l
  | .num, v => v
  | .text, v => v
  | .bytes, v => v
  | .any, v => C.marshal v

/-- `msg.Has` of a field without presence; only bytes fields look at it (node.go:501-512). -/
def hasImplicit : (e : Node) → Val Any e → Bool
  | .leaf .bytes, v => !v.isEmpty
  | _, _ => true

/-- The `valueFn` of a node for a value that is set, and of a struct for its fields:
node.go:197-212, 230-252, 266-288, 326-349, 350-363, 372-377, 379-568. -/
def write : (n : Node) → Arr n → Val Any n → Arr n
  | .leaf l, a, v => a ++ [some (toCell C l v)]
  | .msg fs, a, v => (a.1 ++ [true], write fs a.2 v)
  | .nil, _, _ => ()
  | .cons _ .implicit e r, a, v => (if hasImplicit e v.1 then write e a.1 v.1 else appendNull e a.1, write r a.2 v.2)
  | .cons _ .explicit e r, a, v => (match v.1 with | none => appendNull e a.1 | some x => write e a.1 x, write r a.2 v.2)
  | .cons _ .repeated e r, a, v =>
    (if v.1.isEmpty then (a.1.1 ++ [len e a.1.2.2], a.1.2.1 ++ [false], a.1.2.2)
     else (a.1.1 ++ [len e a.1.2.2], a.1.2.1 ++ [true], v.1.foldl (fun x y => write e x y) a.1.2.2), write r a.2 v.2)

/-- arrow3.go:42-44 `Append`, node.go:372-377 `WriteMessage`. -/
def append (n : Node) (a : Arr n) (v : Val Any n) : Arr n := write C n a v

/-! ## Reading -/

/-- `IsNull(row)`. -/
def isNull : (n : Node) → Arr n → Nat → Bool
  | .leaf _, a, i => match a[i]? with | some (some _) => false | _ => true
  | .msg _, a, i => !(a.1[i]?.getD false)
  | _, _, _ => true

def fromCell : (l : Leaf) → Cell l → LeafVal Any l
  | .num, v => v
  | .text, v => v
  | .bytes, v => v
  | .any, v => C.unmarshal v

/-- The value of a field that was not set. -/
def zero (C : Coder Any) : (n : Node) → Val Any n
  | .leaf .num => (0 : Int)
  | .leaf .text => ([] : Bytes)
  | .leaf .bytes => ([] : Bytes)
  | .leaf .any => C.unmarshal []
  | .msg fs => zero C fs
  | .nil => ()
  | .cons _ .implicit e r => (zero C e, zero C r)
  | .cons _ .explicit _ r => (none, zero C r)
  | .cons _ .repeated _ r => ([], zero C r)

/-- The rows of a list, arrow `List.ValueOffsets`: from its offset to the next, the last one to the end. -/
def rowsOf (offs : List Nat) (total i : Nat) : List Nat :=
  let a := offs[i]?.getD 0
  let b := offs[i + 1]?.getD total
  (List.range (b - a)).map (a + ·)

/-- The `encodeFn` of a node: node.go:213-228, 289-325, 379-568; of the fields of a struct or record, node.go:53-89. -/
def read : (n : Node) → Arr n → Nat → Val Any n
  | .leaf l, a, i => match a[i]? with | some (some c) => fromCell C l c | _ => zero C (.leaf l)
  | .msg fs, a, i => read fs a.2 i
  | .nil, _, _ => ()
  | .cons _ .implicit e r, a, i => (if isNull e a.1 i then zero C e else read e a.1 i, read r a.2 i)
  | .cons _ .explicit e r, a, i => (if isNull e a.1 i then none else some (read e a.1 i), read r a.2 i)
  | .cons _ .repeated e r, a, i =>
    (if a.1.2.1[i]?.getD false then (rowsOf a.1.1 (len e a.1.2.2) i).map (read e a.1.2.2) else [], read r a.2 i)

/-- node.go:42-95 `unmarshal`, arrow3.go:75-77 `Proto`: the given rows of a record. -/
def proto (n : Node) (a : Arr n) (rows : List Nat) : List (Val Any n) := rows.map (read C n a)

/-- Reading only some of the columns of a record: the others are not visited, their fields stay unset. `keep`: by name. -/
def readSome (keep : Bytes → Bool) : (n : Node) → Arr n → Nat → Val Any n
  | .leaf l, a, i => read C (.leaf l) a i
  | .msg fs, a, i => read C (.msg fs) a i
  | .nil, _, _ => ()
  | .cons name c e r, a, i =>
    ((if keep name then (read C (.cons name c e .nil) (a.1, ()) i).1 else (zero C (.cons name c e .nil)).1 : Occurs c (Val Any e)), readSome keep r a.2 i)

/-- parquet.go:56-80 `WriteParquetRecords` with two records and reading it back: the rows of one, then of the other. (Parquet itself
is not modelled; offsets are counted anew for the second record.) -/
def concat : (n : Node) → Arr n → Arr n → Arr n
  | .leaf _, a, b => a ++ b
  | .msg fs, a, b => (a.1 ++ b.1, concat fs a.2 b.2)
  | .nil, _, _ => ()
  | .cons _ .implicit e r, a, b => (concat e a.1 b.1, concat r a.2 b.2)
  | .cons _ .explicit e r, a, b => (concat e a.1 b.1, concat r a.2 b.2)
  | .cons _ .repeated e r, a, b =>
    ((a.1.1 ++ b.1.1.map (len e a.1.2.2 + ·), a.1.2.1 ++ b.1.2.1, concat e a.1.2.2 b.1.2.2), concat r a.2 b.2)

/-! ## Columns of a parquet file -/

/-- 46, `.` -/
def dot : Bytes := [46]
/-- `.list.element` -/
def listElement : Bytes := [46, 108, 105, 115, 116, 46, 101, 108, 101, 109, 101, 110, 116]

/-- Paths of the leaf columns (the parquet library, see testdata/otel_metrics_data_schema.txt): a list has the groups `list` and
`element` around its elements. -/
def paths (pre : Bytes) : Node → List Bytes
  | .leaf _ => [pre]
  | .msg fs => paths (pre ++ dot) fs
  | .nil => []
  | .cons name c e r => paths (pre ++ name ++ if c = .repeated then listElement else []) e ++ paths pre r

/-- Numbers of the paths that begin with `q`. -/
def pick (q : Bytes) : Nat → List Bytes → List Nat
  | _, [] => []
  | i, p :: ps => if q.isPrefixOf p then i :: pick q (i + 1) ps else pick q (i + 1) ps

/-- internal/dataframe/columns.go:35-64 `NewColumns`: the numbers of the columns whose path begins with the name and a dot. -/
def columns (n : Node) (signal : Bytes) : List Nat := pick (signal ++ dot) 0 (paths [] n)

/-- The top-level fields with the numbers of their columns. -/
def columnsOf (start : Nat) : Node → List (Bytes × List Nat)
  | .cons name c e r =>
    let k := (paths (name ++ if c = .repeated then listElement else []) e).length
    (name, (List.range k).map (start + ·)) :: columnsOf (start + k) r
  | _ => []

/-- parquet.go:21-45 `Read` of some columns and `Proto` of a row: fields without a column that was read stay unset. (A field of
which only some columns are read is not modelled: `C57_columns` shows that this does not happen.) -/
def readColumns (cols : List Nat) (n : Node) (a : Arr n) (i : Nat) : Val Any n :=
  readSome C (fun name => (columnsOf 0 n).any fun p => p.1 == name && p.2.any cols.contains) n a i

end Verif.A3
