import Verif.Model.WireOtlp
import Verif.Model.Float
import Verif.Spec.Decimal
/-!
# internal/render/metrics.go:19-21: metrics as JSON

`protojson.MarshalOptions{Multiline: pretty}.Marshal` (google.golang.org/protobuf v1.33.0, go.mod:34), with which scripts print metrics. The writer of the text
(`internal/encoding/json/encode.go` of the library) is a state machine and is transcribed as one. Fields are written in the order in which the .proto files declare them (for
`resource_metrics` and everything below, opentelemetry-proto v1.2.0). `extra`: the library adds a space after each comma or colon in some builds of the program
(`detrand.Bool`), so that nobody relies on the text.
-/
namespace Verif.Jn
open Pb (Val)

/-- What is written, as a tree, for internal/render/metrics.go:20. `num`: its text. -/
inductive Json where
  | null
  | bool (b : Bool)
  | num (text : Bytes)
  | str (s : Bytes)
  | arr (l : List Json)
  | obj (l : List (Bytes × Json))

/-! ## The text -/

/-- `kind` of the library's encode.go, for internal/render/metrics.go:20. -/
inductive Tok where
  | name | scalar | objectOpen | objectClose | arrayOpen | arrayClose
deriving DecidableEq, Repr

/-- The `Encoder` of the library's encode.go, for internal/render/metrics.go:20. -/
structure Enc where
  last : Option Tok := none
  indents : Bytes := []
  out : Bytes := []

def Tok.isOpen : Tok → Bool
  | .objectOpen | .arrayOpen => true
  | _ => false
def Tok.isClose : Tok → Bool
  | .objectClose | .arrayClose => true
  | _ => false
/-- The end of a value. -/
def Tok.isEnd : Tok → Bool
  | .scalar | .objectClose | .arrayClose => true
  | _ => false

/-- The indentation, two spaces, for internal/render/metrics.go:20. -/
def indent : Bytes := [32, 32]

variable (pretty extra : Bool)

/-- `prepareNext` of the library's encode.go without setting `lastKind`, for internal/render/metrics.go:20. -/
def lead (e : Enc) (next : Tok) : Enc :=
  match e.last with
  | none => e
  | some l =>
    if pretty then
      if l.isOpen then
        if next.isClose then e else { e with indents := e.indents ++ indent, out := e.out ++ 10 :: (e.indents ++ indent) }
      else if l.isEnd then
        if next.isClose then { e with indents := e.indents.take (e.indents.length - indent.length), out := e.out ++ 10 :: e.indents.take (e.indents.length - indent.length) }
        else { e with out := e.out ++ 44 :: 10 :: e.indents }
      else { e with out := e.out ++ 32 :: if extra then [32] else [] }
    else if l.isEnd && !next.isClose then { e with out := e.out ++ 44 :: if extra then [32] else [] }
    else e

/-- `prepareNext`, and what is written then. For internal/render/metrics.go:20. -/
def put (e : Enc) (next : Tok) (text : Bytes) : Enc := { lead pretty extra e next with last := some next, out := (lead pretty extra e next).out ++ text }

/-- A hexadecimal digit. -/
def hexDigit (n : Nat) : UInt8 := UInt8.ofNat (if n < 10 then 48 + n else 87 + n)

/-- `appendString` of the library's encode.go: a byte of a string. Simplification: the library goes by characters, but those that it escapes are single bytes. For
internal/render/metrics.go:20. -/
def escape (b : UInt8) : Bytes :=
  if b = 34 ∨ b = 92 then [92, b]
  else if b = 8 then [92, 98]
  else if b = 12 then [92, 102]
  else if b = 10 then [92, 110]
  else if b = 13 then [92, 114]
  else if b = 9 then [92, 116]
  else if b.toNat < 32 then [92, 117, 48, 48, hexDigit (b.toNat / 16), hexDigit (b.toNat % 16)]
  else [b]

/-- `appendString`, for internal/render/metrics.go:20. -/
def quote (s : Bytes) : Bytes := 34 :: s.flatMap escape ++ [34]

mutual
/-- `WriteNull`, `WriteBool`, `WriteInt`, …, `WriteString`, `StartArray`, `EndArray`, `StartObject` and `EndObject` of the library's encode.go, for internal/render/metrics.go:20. -/
def write (e : Enc) : Json → Enc
  | .null => put pretty extra e .scalar [110, 117, 108, 108]
  | .bool true => put pretty extra e .scalar [116, 114, 117, 101]
  | .bool false => put pretty extra e .scalar [102, 97, 108, 115, 101]
  | .num t => put pretty extra e .scalar t
  | .str s => put pretty extra e .scalar (quote s)
  | .arr l => put pretty extra (writeList (put pretty extra e .arrayOpen [91]) l) .arrayClose [93]
  | .obj l => put pretty extra (writeMembers (put pretty extra e .objectOpen [123]) l) .objectClose [125]
def writeList (e : Enc) : List Json → Enc
  | [] => e
  | x :: xs => writeList (write e x) xs
/-- `WriteName` and a value. -/
def writeMembers (e : Enc) : List (Bytes × Json) → Enc
  | [] => e
  | (k, x) :: xs => writeMembers (write (put pretty extra e .name (quote k ++ [58])) x) xs
end

/-! ## The tree -/

/-- What a field is in the .proto file; numbers are bits, for internal/render/metrics.go:20. -/
inductive Ty where
  | str | bytes | bool | i32 | u32 | u64 | i64 | double | temporality
  | msg (t : Nat)
deriving DecidableEq, Repr

/-- A field as the .proto file declares it: its number, the name it has in JSON, what it is; `list`: a list of messages (a packed list of numbers is one value). For internal/render/metrics.go:20. -/
structure Decl where
  num : Nat
  name : Bytes
  ty : Ty
  list : Bool := false
deriving DecidableEq

private def d (num : Nat) (name : String) (ty : Ty) : Decl := { num, name := ascii name, ty }
private def ds (num : Nat) (name : String) (ty : Ty) : Decl := { num, name := ascii name, ty, list := true }

/-- opentelemetry-proto v1.2.0, common.proto, resource.proto and metrics.proto: the messages that metrics consist of, with the fields in the order of their declaration; the numbers
of the messages are those of `Pb.otlp`. For internal/render/metrics.go:19. -/
def decls : Nat → List Decl
  | 1 => [ds 1 "resourceMetrics" (.msg 4)]
  | 4 => [d 1 "resource" (.msg 7), ds 2 "scopeMetrics" (.msg 8), d 3 "schemaUrl" .str]
  | 7 => [ds 1 "attributes" (.msg 11), d 2 "droppedAttributesCount" .u32]
  | 8 => [d 1 "scope" (.msg 12), ds 2 "metrics" (.msg 13), d 3 "schemaUrl" .str]
  | 11 => [d 1 "key" .str, d 2 "value" (.msg 31)]
  | 12 => [d 1 "name" .str, d 2 "version" .str, ds 3 "attributes" (.msg 11), d 4 "droppedAttributesCount" .u32]
  | 13 => [d 1 "name" .str, d 2 "description" .str, d 3 "unit" .str, d 5 "gauge" (.msg 16), d 7 "sum" (.msg 17), d 9 "histogram" (.msg 18),
      d 10 "exponentialHistogram" (.msg 19), d 11 "summary" (.msg 20), ds 12 "metadata" (.msg 11)]
  | 16 => [ds 1 "dataPoints" (.msg 24)]
  | 17 => [ds 1 "dataPoints" (.msg 24), d 2 "aggregationTemporality" .temporality, d 3 "isMonotonic" .bool]
  | 18 => [ds 1 "dataPoints" (.msg 25), d 2 "aggregationTemporality" .temporality]
  | 19 => [ds 1 "dataPoints" (.msg 26), d 2 "aggregationTemporality" .temporality]
  | 20 => [ds 1 "dataPoints" (.msg 27)]
  | 24 => [ds 7 "attributes" (.msg 11), d 2 "startTimeUnixNano" .u64, d 3 "timeUnixNano" .u64, d 4 "asDouble" .double, d 6 "asInt" .i64, ds 5 "exemplars" (.msg 28), d 8 "flags" .u32]
  | 25 => [ds 9 "attributes" (.msg 11), d 2 "startTimeUnixNano" .u64, d 3 "timeUnixNano" .u64, d 4 "count" .u64, d 5 "sum" .double, d 6 "bucketCounts" .u64,
      d 7 "explicitBounds" .double, ds 8 "exemplars" (.msg 28), d 10 "flags" .u32, d 11 "min" .double, d 12 "max" .double]
  | 26 => [ds 1 "attributes" (.msg 11), d 2 "startTimeUnixNano" .u64, d 3 "timeUnixNano" .u64, d 4 "count" .u64, d 5 "sum" .double, d 6 "scale" .i32, d 7 "zeroCount" .u64,
      d 8 "positive" (.msg 29), d 9 "negative" (.msg 29), d 10 "flags" .u32, ds 11 "exemplars" (.msg 28), d 12 "min" .double, d 13 "max" .double, d 14 "zeroThreshold" .double]
  | 27 => [ds 7 "attributes" (.msg 11), d 2 "startTimeUnixNano" .u64, d 3 "timeUnixNano" .u64, d 4 "count" .u64, d 5 "sum" .double, ds 6 "quantileValues" (.msg 30), d 8 "flags" .u32]
  | 28 => [ds 7 "filteredAttributes" (.msg 11), d 2 "timeUnixNano" .u64, d 3 "asDouble" .double, d 6 "asInt" .i64, d 4 "spanId" .bytes, d 5 "traceId" .bytes]
  | 29 => [d 1 "offset" .i32, d 2 "bucketCounts" .u64]
  | 30 => [d 1 "quantile" .double, d 2 "value" .double]
  | 31 => [d 1 "stringValue" .str, d 2 "boolValue" .bool, d 3 "intValue" .i64, d 4 "doubleValue" .double, d 5 "arrayValue" (.msg 32), d 6 "kvlistValue" (.msg 33),
      d 7 "bytesValue" .bytes]
  | 32 => [ds 1 "values" (.msg 31)]
  | 33 => [ds 1 "values" (.msg 11)]
  | _ => []

/-- `base64.StdEncoding`: a letter. For internal/render/metrics.go:20. -/
def letter (n : Nat) : UInt8 := UInt8.ofNat (if n < 26 then 65 + n else if n < 52 then 71 + n else if n < 62 then n - 4 else if n = 62 then 43 else 47)

/-- `base64.StdEncoding`, for internal/render/metrics.go:20. -/
def base64 : Bytes → Bytes
  | [] => []
  | [a] => [letter (a.toNat / 4), letter (a.toNat % 4 * 16), 61, 61]
  | [a, b] => [letter (a.toNat / 4), letter (a.toNat % 4 * 16 + b.toNat / 16), letter (b.toNat % 16 * 4), 61]
  | a :: b :: c :: r => letter (a.toNat / 4) :: letter (a.toNat % 4 * 16 + b.toNat / 16) :: letter (b.toNat % 16 * 4 + c.toNat / 64) :: letter (c.toNat % 64) :: base64 r

/-- The end of `appendFloat` of the library's encode.go: an exponent of one digit has no zero before it if it is negative. For internal/render/metrics.go:20. -/
def trimExp (t : Bytes) : Bytes :=
  let n := t.length
  if 4 ≤ n ∧ t[n - 4]? = some 101 ∧ t[n - 3]? = some 45 ∧ t[n - 2]? = some 48 then t.take (n - 2) ++ t.drop (n - 1) else t

variable (shortest : Nat → Int → Fp.Dec)

/-- `appendFloat` of the library's encode.go; `abs < 1e-6` and `abs >= 1e21` are comparisons of the bits. For internal/render/metrics.go:20. -/
def double (bits : Nat) : Json :=
  if Fp.expBits bits = 2047 then
    .str (if Fp.fracBits bits ≠ 0 then ascii "NaN" else if Fp.signBit bits then ascii "-Infinity" else ascii "Infinity")
  else
    let abs := bits % 2 ^ 63
    let s : Bytes := if Fp.signBit bits then [45] else []
    let m := Fp.digitsOf shortest (Fp.mantissa bits) (Fp.exponent bits)
    .num (if abs ≠ 0 ∧ (abs < 0x3eb0c6f7a0b5ed8d ∨ 0x444b1ae4d6e2ef50 ≤ abs) then trimExp (s ++ Fp.fmtE m) else s ++ Fp.fmtF m)

/-- A number of `k` bits with a sign. -/
def signed (k n : Nat) : Int := if n < 2 ^ (k - 1) then n else (n : Int) - 2 ^ k

/-- `marshalSingular` of protojson's encode.go: numbers. Numbers of 64 bits are strings; an enumeration is the name of its value if it has one. For internal/render/metrics.go:20. -/
def number (ty : Ty) (n : Nat) : Json :=
  match ty with
  | .bool => .bool (n ≠ 0)
  | .i32 => .num (decInt (signed 32 n))
  | .u32 => .num (dec n)
  | .u64 => .str (dec n)
  | .i64 => .str (decInt (signed 64 n))
  | .double => double shortest n
  | .temporality =>
    if n = 0 then .str (ascii "AGGREGATION_TEMPORALITY_UNSPECIFIED")
    else if n = 1 then .str (ascii "AGGREGATION_TEMPORALITY_DELTA")
    else if n = 2 then .str (ascii "AGGREGATION_TEMPORALITY_CUMULATIVE")
    else .num (decInt (signed 32 n))
  | _ => .null

/-- `marshalMessage` of protojson's encode.go: the fields that are set, in the order of their declaration, those that are lists with all elements. For internal/render/metrics.go:20. -/
def arrange (t : Nat) (es : List (Nat × Json)) : List (Bytes × Json) :=
  (decls t).filterMap fun f =>
    match (es.filter fun e => e.1 = f.num).map (·.2) with
    | [] => none
    | x :: xs => some (f.name, if f.list then .arr (x :: xs) else x)

/-- What a field of a message is. -/
def tyOf (t n : Nat) : Ty := (((decls t).find? fun f => f.num = n).map (·.ty)).getD .str

mutual
/-- `marshalSingular`, `marshalList` and `marshalMessage` of protojson's encode.go, for internal/render/metrics.go:20. -/
def tree : Ty → Val → Json
  | ty, .num n => number shortest ty n
  | .bytes, .bytes b => .str (base64 b)
  | _, .bytes b => .str b
  | ty, .nums l => .arr (l.map (number shortest ty))
  | .msg t, .msg fs _ => .obj (arrange t (entries t fs))
  | _, .msg _ _ => .null
def entries (t : Nat) : List (Nat × Val) → List (Nat × Json)
  | [] => []
  | (n, v) :: r => (n, tree (tyOf t n) v) :: entries t r
end

/-- internal/render/metrics.go:19-21 `MetricsDataJSON`; `none`: the error, which is for strings that are not UTF-8. Simplification: an error is found before anything is written. -/
def json (v : Val) : Option Bytes :=
  if Pb.stringsOk Pb.otlp (.msg 1) v then some (write pretty extra {} (tree shortest (.msg 1) v)).out else none

end Verif.Jn
