import Verif.Model.Quote
/-!
# The wire format of protobuf

`proto.Marshal` and `proto.Unmarshal` (google.golang.org/protobuf v1.33.0, go.mod:34), as they are used in internal/arrow3/node.go:205, 225 (values of attributes are
stored as bytes), internal/data/sort.go:116 (attributes are hashed), internal/arena/arena.go:45, internal/x/x.go:21, and by gRPC for
the messages of the service. Message types are a parameter: a list of fields for each of them.

A message is the list of the fields that are set, in the order in which they are written (a field without presence is set if it is not
zero), and the bytes of the fields that its type does not have, which `proto.Unmarshal` keeps and `proto.Marshal` writes. Numbers are
their bits: two's complement, IEEE 754. Maps, groups as fields, extensions and required fields do not occur in the message types of the
program and are not modelled; a nil message in a list is written as an empty message, and is not distinguished from one.
-/
namespace Verif.Pb

/-- The types of fields, for internal/arrow3/node.go:205. `enum`: also `int32`. -/
inductive Kind where
  | bool | enum | int64 | uint32 | uint64 | sint32 | fixed32 | fixed64 | string | bytes
  | msg (t : Nat)
deriving DecidableEq, Repr

/-- How often a field occurs: a scalar without presence, a message or an `optional` scalar, a list of which each element is written by
itself, a list of numbers that are written together, a member of a oneof. For internal/arrow3/node.go:205. -/
inductive Card where
  | implicit | optional | repeated | packed
  | oneof (g : Nat)
deriving DecidableEq, Repr

/-- A field of a message type. For internal/arrow3/node.go:205. -/
structure Field where
  num : Nat
  kind : Kind
  card : Card := .implicit
deriving DecidableEq, Repr

/-- The message types: their fields, in the order in which they are written (by number; a oneof at the number of its first member).
For internal/arrow3/node.go:205. -/
abbrev Schema := Nat → List Field

/-- A value. For internal/arrow3/node.go:205. -/
inductive Val where
  | num (n : Nat)
  | bytes (b : Bytes)
  /-- a packed list -/
  | nums (l : List Nat)
  | msg (fields : List (Nat × Val)) (unknown : Bytes)

/-! ## Writing -/

/-- `protowire.AppendVarint`, for internal/arrow3/node.go:205. -/
def varint (n : Nat) : Bytes :=
  if n < 128 then [UInt8.ofNat n] else UInt8.ofNat (n % 128 + 128) :: varint (n / 128)
termination_by n

/-- `protowire.AppendFixed32`, `AppendFixed64`: the `k` low bytes, the lowest first. For internal/arrow3/node.go:205. -/
def fixed : Nat → Nat → Bytes
  | 0, _ => []
  | k + 1, n => UInt8.ofNat (n % 256) :: fixed k (n / 256)

/-- `protowire.AppendTag`, for internal/arrow3/node.go:205. -/
def tag (num wt : Nat) : Bytes := varint (num * 8 + wt)

/-- `protowire.AppendBytes`, for internal/arrow3/node.go:205. -/
def delimited (b : Bytes) : Bytes := varint b.length ++ b

/-- `wireTypes` of protobuf's `impl`, for internal/arrow3/node.go:205: varint, 64 bits, with a length, 32 bits. -/
def wireType : Kind → Nat
  | .bool | .enum | .int64 | .uint32 | .uint64 | .sint32 => 0
  | .fixed64 => 1
  | .string | .bytes | .msg _ => 2
  | .fixed32 => 5

/-- The wire type of a field: `wiretag` of protobuf's `impl`, for internal/arrow3/node.go:205. -/
def Field.wireType (f : Field) : Nat := if f.card = .packed then 2 else Pb.wireType f.kind

/-- `appendBool`, …: a number of protobuf's `impl`, for internal/arrow3/node.go:205. An `int32` is extended to 64 bits; `EncodeZigZag`
of a `sint32`. -/
def encNum : Kind → Nat → Bytes
  | .enum, n => varint (if n < 2 ^ 31 then n else n + (2 ^ 64 - 2 ^ 32))
  | .sint32, n => varint (if n < 2 ^ 31 then 2 * n else 2 * (2 ^ 32 - n) - 1)
  | .fixed32, n => fixed 4 n
  | .fixed64, n => fixed 8 n
  | _, n => varint n

/-- The field of a message type with a number. For internal/arrow3/node.go:205. -/
def Schema.field (S : Schema) (t n : Nat) : Option Field := (S t).find? fun f => f.num = n

mutual
/-- A value after its tag: `appendString`, `appendMessageInfo`, `appendDoublePackedSlice`, … of protobuf's `impl`, for internal/arrow3/node.go:205. -/
def encVal (S : Schema) : Kind → Val → Bytes
  | k, .num n => encNum k n
  | _, .bytes b => delimited b
  | k, .nums l => delimited (l.flatMap (encNum k))
  | .msg t, .msg fs u => delimited (encFields S t fs ++ u)
  | _, .msg _ _ => []
/-- `marshalAppendPointer` of protobuf's `impl`: the fields. For internal/arrow3/node.go:205. -/
def encFields (S : Schema) (t : Nat) : List (Nat × Val) → Bytes
  | [] => []
  | (n, v) :: r =>
    (match S.field t n with
      | none => []
      | some f => tag n f.wireType ++ encVal S f.kind v) ++ encFields S t r
end

/-- `utf8.Valid` of Go's library, for internal/arrow3/node.go:205. -/
def validUtf8 : Bytes → Bool
  | [] => true
  | b :: s => !((Qt.front b s).2 == 1 && (Qt.front b s).1 == Qt.runeError) && validUtf8 (s.drop ((Qt.front b s).2 - 1))
termination_by s => s.length

mutual
/-- `appendStringValidateUTF8` of protobuf's `impl` does not fail, for internal/arrow3/node.go:205. -/
def stringsOk (S : Schema) : Kind → Val → Bool
  | .string, .bytes b => validUtf8 b
  | .msg t, .msg fs _ => fieldsOk S t fs
  | _, _ => true
def fieldsOk (S : Schema) (t : Nat) : List (Nat × Val) → Bool
  | [] => true
  | (n, v) :: r => (match S.field t n with | none => true | some f => stringsOk S f.kind v) && fieldsOk S t r
end

/-- internal/arrow3/node.go:205 `proto.Marshal`; `none`: the error. -/
def marshal (S : Schema) (t : Nat) : Val → Option Bytes
  | .msg fs u => if fieldsOk S t fs then some (encFields S t fs ++ u) else none
  | _ => none

/-! ## Reading -/

/-- `protowire.ConsumeVarint`, for internal/arrow3/node.go:225: the number and what is left; `none`: an error. `i`: how many bytes have been read. -/
def varintFrom : Nat → Bytes → Option (Nat × Bytes)
  | _, [] => none
  | i, b :: r =>
    if i = 9 then if b.toNat < 2 then some (b.toNat, r) else none
    else if b.toNat < 128 then some (b.toNat, r)
    else match varintFrom (i + 1) r with
      | none => none
      | some (v, r') => some (b.toNat - 128 + 128 * v, r')

/-- `protowire.ConsumeVarint`, for internal/arrow3/node.go:225. -/
def readVarint (b : Bytes) : Option (Nat × Bytes) := varintFrom 0 b

/-- A number from its bytes, the lowest first. For internal/arrow3/node.go:225. -/
def littleEndian : Bytes → Nat
  | [] => 0
  | b :: r => b.toNat + 256 * littleEndian r

/-- `protowire.ConsumeFixed32`, `ConsumeFixed64`, for internal/arrow3/node.go:225. -/
def readFixed (k : Nat) (b : Bytes) : Option (Nat × Bytes) :=
  if b.length < k then none else some (littleEndian (b.take k), b.drop k)

/-- `protowire.ConsumeBytes`, for internal/arrow3/node.go:225. -/
def readBytes (b : Bytes) : Option (Bytes × Bytes) :=
  match readVarint b with
  | none => none
  | some (n, r) => if r.length < n then none else some (r.take n, r.drop n)

/-- The tag in `unmarshalPointer` of protobuf's `impl`, for internal/arrow3/node.go:225: number and wire type. The number is checked. -/
def readTag (b : Bytes) : Option (Nat × Nat × Bytes) :=
  match readVarint b with
  | none => none
  | some (n, r) => if n / 8 < 1 ∨ 2 ^ 29 - 1 < n / 8 then none else some (n / 8, n % 8, r)

/-- `protowire.ConsumeTag`, inside a group, for internal/arrow3/node.go:225. -/
def innerTag (b : Bytes) : Option (Nat × Nat × Bytes) :=
  match readVarint b with
  | none => none
  | some (n, r) => if n / 8 < 1 ∨ 2 ^ 31 - 1 < n / 8 then none else some (n / 8, n % 8, r)

/-- `consumeFieldValueD` of protobuf's `protowire`, for internal/arrow3/node.go:225: what is left after the value of a field that is not known. Groups may be nested
`depth` times; `fuel`: at least the number of the bytes of a group. -/
def skip : (fuel depth num wt : Nat) → Bytes → Option Bytes
  | 0, _, _, _, _ => none
  | fuel + 1, depth, num, wt, b =>
    if wt = 0 then (readVarint b).map (·.2)
    else if wt = 1 then (readFixed 8 b).map (·.2)
    else if wt = 2 then (readBytes b).map (·.2)
    else if wt = 5 then (readFixed 4 b).map (·.2)
    else if wt = 3 then
      match depth with
      | 0 => none
      | depth + 1 => group fuel depth num b
    else none
where
  group : (fuel depth num : Nat) → Bytes → Option Bytes
  | 0, _, _, _ => none
  | fuel + 1, depth, num, b =>
    match innerTag b with
    | none => none
    | some (n, w, r) =>
      if w = 4 then if n = num then some r else none
      else match skip fuel depth n w r with
        | none => none
        | some r' => group fuel depth num r'

/-- What became of a field: it was read, something is wrong with it, or its wire type is not that of the field (`errUnknown`). For internal/arrow3/node.go:225. -/
inductive Got (α : Type) where
  | ok (a : α)
  | bad
  | mismatch

def Got.ofOption {α : Type} : Option α → Got α
  | some a => .ok a
  | none => .bad

/-- `consumeBool`, …: a number of protobuf's `impl`, for internal/arrow3/node.go:225. `DecodeBool`; 32-bit numbers are cut; `DecodeZigZag`. -/
def readNum : Kind → Bytes → Option (Nat × Bytes)
  | .bool, b => (readVarint b).map fun p => (if p.1 = 0 then 0 else 1, p.2)
  | .enum, b => (readVarint b).map fun p => (p.1 % 2 ^ 32, p.2)
  | .uint32, b => (readVarint b).map fun p => (p.1 % 2 ^ 32, p.2)
  | .sint32, b => (readVarint b).map fun p =>
      (if p.1 % 2 ^ 32 % 2 = 0 then p.1 % 2 ^ 32 / 2 else 2 ^ 32 - 1 - p.1 % 2 ^ 32 / 2, p.2)
  | .fixed32, b => readFixed 4 b
  | .fixed64, b => readFixed 8 b
  | _, b => readVarint b

/-- The loop over a packed list: `consumeDoubleSlice`, … of protobuf's `impl`, for internal/arrow3/node.go:225. -/
def readNums (k : Kind) : Nat → Bytes → Option (List Nat)
  | _, [] => some []
  | 0, _ :: _ => none
  | fuel + 1, b =>
    match readNum k b with
    | none => none
    | some (n, r) => (readNums k fuel r).map (n :: ·)

/-- A message that is being read: fields, unknown bytes. For internal/arrow3/node.go:225. -/
structure Rec where
  fields : List (Nat × Val) := []
  unknown : Bytes := []

/-- The place of a field in the order of writing. For internal/arrow3/node.go:205. -/
def Schema.place (S : Schema) (t n : Nat) : Nat := (S t).findIdx fun f => f.num = n

/-- After the fields that are written before it, for internal/arrow3/node.go:225. -/
def insert (S : Schema) (t : Nat) (e : Nat × Val) : List (Nat × Val) → List (Nat × Val)
  | [] => [e]
  | x :: r => if S.place t e.1 < S.place t x.1 then e :: x :: r else x :: insert S t e r

/-- Setting field `f` clears field `n`: it is the field, or a member of the same oneof. For internal/arrow3/node.go:225. -/
def clears (S : Schema) (t : Nat) (f : Field) (n : Nat) : Bool :=
  n == f.num || match f.card, S.field t n with
    | .oneof g, some f' => f'.card == .oneof g
    | _, _ => false

/-- A field with at most one value is set. For internal/arrow3/node.go:225. -/
def set (S : Schema) (t : Nat) (f : Field) (v : Val) (fs : List (Nat × Val)) : List (Nat × Val) :=
  insert S t (f.num, v) (fs.filter fun e => !clears S t f e.1)

/-- A field is cleared (a scalar without presence that is set to zero). For internal/arrow3/node.go:225. -/
def clear (f : Field) (fs : List (Nat × Val)) : List (Nat × Val) := fs.filter fun e => e.1 ≠ f.num

/-- The value of a field. For internal/arrow3/node.go:225. -/
def get (n : Nat) (fs : List (Nat × Val)) : Option Val := (fs.find? fun e => e.1 = n).map (·.2)

/-- The packed list that a field has already. For internal/arrow3/node.go:225. -/
def packedOf (n : Nat) (fs : List (Nat × Val)) : List Nat := match get n fs with | some (.nums l) => l | _ => []

/-- The message that a field has already. For internal/arrow3/node.go:225. -/
def messageOf (n : Nat) (fs : List (Nat × Val)) : Rec := match get n fs with | some (.msg fs u) => ⟨fs, u⟩ | _ => {}

/-- Add numbers to a packed list; an empty list is not set. For internal/arrow3/node.go:225. -/
def addNums (S : Schema) (t : Nat) (f : Field) (l : List Nat) (fs : List (Nat × Val)) : List (Nat × Val) :=
  if packedOf f.num fs ++ l = [] then fs else set S t f (.nums (packedOf f.num fs ++ l)) fs

/-- Store a scalar, by the cardinality of its field. For internal/arrow3/node.go:225. -/
def store (S : Schema) (t : Nat) (f : Field) (v : Val) (zero : Bool) (fs : List (Nat × Val)) : List (Nat × Val) :=
  match f.card with
  | .repeated => insert S t (f.num, v) fs
  | .implicit => if zero then clear f fs else set S t f v fs
  | _ => set S t f v fs

/-- `f.funcs.unmarshal` of protobuf's `impl`, for internal/arrow3/node.go:225: a field that the type has. `sub`: reading a message into one. -/
def readKnown (S : Schema) (sub : Nat → Rec → Bytes → Option Rec) (t : Nat) (f : Field) (wt : Nat) (m : Rec) (b : Bytes) : Got (Rec × Bytes) :=
  match f.kind with
  | .string =>
    if wt ≠ 2 then .mismatch else
    match readBytes b with
    | none => .bad
    | some (s, r) => if validUtf8 s then .ok ({ m with fields := store S t f (.bytes s) s.isEmpty m.fields }, r) else .bad
  | .bytes =>
    if wt ≠ 2 then .mismatch else
    match readBytes b with
    | none => .bad
    | some (s, r) => .ok ({ m with fields := store S t f (.bytes s) s.isEmpty m.fields }, r)
  | .msg t' =>
    if wt ≠ 2 then .mismatch else
    match readBytes b with
    | none => .bad
    | some (s, r) =>
      match sub t' (if f.card = .repeated then {} else messageOf f.num m.fields) s with
      | none => .bad
      | some x => .ok ({ m with fields := store S t f (.msg x.fields x.unknown) false m.fields }, r)
  | k =>
    if f.card = .packed then
      if wt = 2 then
        match readBytes b with
        | none => .bad
        | some (s, r) =>
          match readNums k s.length s with
          | none => .bad
          | some l => .ok ({ m with fields := addNums S t f l m.fields }, r)
      else if wt = wireType k then
        match readNum k b with
        | none => .bad
        | some (n, r) => .ok ({ m with fields := addNums S t f [n] m.fields }, r)
      else .mismatch
    else if wt ≠ wireType k then .mismatch else
    match readNum k b with
    | none => .bad
    | some (n, r) => .ok ({ m with fields := store S t f (.num n) (n == 0) m.fields }, r)

/-- `protowire.DefaultRecursionLimit`, for internal/arrow3/node.go:225. -/
def recursionLimit : Nat := 10000

/-- A field that the type does not have, or has with another wire type: it is kept as it is. The end of `unmarshalPointer` of protobuf's
`impl`, for internal/arrow3/node.go:225. -/
def readUnknown (num wt : Nat) (m : Rec) (b : Bytes) : Option (Rec × Bytes) :=
  match skip (2 * b.length + 2) (recursionLimit + 1) num wt b with
  | none => none
  | some r => some ({ m with unknown := m.unknown ++ tag num wt ++ b.take (b.length - r.length) }, r)

/-- One turn of the loop of `unmarshalPointer` of protobuf's `impl`, for internal/arrow3/node.go:225. -/
def readField (S : Schema) (sub : Nat → Rec → Bytes → Option Rec) (t : Nat) (m : Rec) (b : Bytes) : Option (Rec × Bytes) :=
  match readTag b with
  | none => none
  | some (num, wt, r) =>
    if wt = 4 then none
    else match S.field t num with
      | none => readUnknown num wt m r
      | some f =>
        match readKnown S sub t f wt m r with
        | .ok x => some x
        | .bad => none
        | .mismatch => readUnknown num wt m r

/-- The loop of `unmarshalPointer` of protobuf's `impl`, for internal/arrow3/node.go:225. -/
def readFields (one : Rec → Bytes → Option (Rec × Bytes)) : Nat → Rec → Bytes → Option Rec
  | _, m, [] => some m
  | 0, _, _ :: _ => none
  | fuel + 1, m, b =>
    match one m b with
    | none => none
    | some (m', r) => readFields one fuel m' r

/-- `unmarshalPointer` of protobuf's `impl`, for internal/arrow3/node.go:225: messages may be nested `depth` times. -/
def readMessage (S : Schema) : (depth t : Nat) → Rec → Bytes → Option Rec
  | 0, _, _, _ => none
  | d + 1, t, m, b => readFields (readField S (readMessage S d) t) b.length m b

/-- internal/arrow3/node.go:225, internal/x/x.go:21 `proto.Unmarshal` into an empty message; `none`: the error. -/
def unmarshal (S : Schema) (t : Nat) (b : Bytes) : Option Val :=
  (readMessage S recursionLimit t {} b).map fun m => .msg m.fields m.unknown

end Verif.Pb
