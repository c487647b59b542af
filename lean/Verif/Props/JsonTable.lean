import Verif.Props.JsonSame
import Verif.Model.ArrowOtlp
/-!
# C100: the fields of metrics

`Jn.decls`, which the theorems about metrics as JSON rest on, compared with what the repository itself says of the messages.
-/
namespace Verif.Jn

/-! ## Names: as in the columns, written the JSON way -/

/-- A name in JSON of a name in a .proto file: an underscore goes, and the letter behind it is a capital. -/
def camel : Bytes → Bytes
  | [] => []
  | 95 :: c :: r => (if 97 ≤ c ∧ c ≤ 122 then c - 32 else c) :: camel r
  | c :: r => c :: camel r

/-- Is a field of this type a number? -/
def isNumber : Ty → Bool
  | .str | .bytes | .msg _ => false
  | _ => true

/-- May a column of this kind hold a field of this type? -/
def agrees : A3.Kind → Ty → Bool
  | .text, .str | .bytes, .bytes | .any, .msg 31 => true
  | .msg t, .msg t' => t = t'
  | .num, ty => isNumber ty
  | _, _ => false

/-- The fields that are written as JSON are those that are stored in columns, in the same order, with the names the JSON way: none is missing, none is added. -/
theorem C100_names : ∀ t ∈ messages, t ≤ 30 →
    (decls t).map (·.name) = (A3.otlp t).map (fun f => camel f.name) ∧
    (∀ p ∈ (A3.otlp t).zip (decls t), agrees p.1.kind p.2.ty = true) ∧
    (∀ p ∈ (A3.otlp t).zip (decls t), p.2.list = true → p.1.repeated = true) := by decide +kernel

/-! ## Numbers: as in the Parquet schema -/

/-- A line of internal/arrow3/testdata/otel_metrics_data_schema.txt about a number: the message, the number of the field, the bits, and whether it has a sign; `none`: `double` or `boolean`. -/
structure SchemaLine where
  message : Nat
  field : Nat
  bits : Nat
  signed : Option Bool
  name : String

/-- internal/arrow3/testdata/otel_metrics_data_schema.txt: the lines about numbers that have a number of their own (those of lists have none), each message once. -/
def schema : List SchemaLine :=
  [⟨7, 2, 32, some false, "dropped_attributes_count"⟩, ⟨12, 4, 32, some false, "dropped_attributes_count"⟩,
   ⟨24, 2, 64, some false, "start_time_unix_nano"⟩, ⟨24, 3, 64, some false, "time_unix_nano"⟩, ⟨24, 4, 64, none, "as_double"⟩, ⟨24, 6, 64, some true, "as_int"⟩,
   ⟨24, 8, 32, some false, "flags"⟩,
   ⟨28, 2, 64, some false, "time_unix_nano"⟩, ⟨28, 3, 64, none, "as_double"⟩, ⟨28, 6, 64, some true, "as_int"⟩,
   ⟨17, 2, 32, some true, "aggregation_temporality"⟩, ⟨17, 3, 1, none, "is_monotonic"⟩,
   ⟨18, 2, 32, some true, "aggregation_temporality"⟩, ⟨19, 2, 32, some true, "aggregation_temporality"⟩,
   ⟨25, 2, 64, some false, "start_time_unix_nano"⟩, ⟨25, 3, 64, some false, "time_unix_nano"⟩, ⟨25, 4, 64, some false, "count"⟩, ⟨25, 5, 64, none, "sum"⟩,
   ⟨25, 10, 32, some false, "flags"⟩, ⟨25, 11, 64, none, "min"⟩, ⟨25, 12, 64, none, "max"⟩,
   ⟨26, 2, 64, some false, "start_time_unix_nano"⟩, ⟨26, 3, 64, some false, "time_unix_nano"⟩, ⟨26, 4, 64, some false, "count"⟩, ⟨26, 5, 64, none, "sum"⟩,
   ⟨26, 6, 32, some true, "scale"⟩, ⟨26, 7, 64, some false, "zero_count"⟩, ⟨26, 10, 32, some false, "flags"⟩, ⟨26, 12, 64, none, "min"⟩, ⟨26, 13, 64, none, "max"⟩,
   ⟨26, 14, 64, none, "zero_threshold"⟩,
   ⟨29, 1, 32, some true, "offset"⟩,
   ⟨27, 2, 64, some false, "start_time_unix_nano"⟩, ⟨27, 3, 64, some false, "time_unix_nano"⟩, ⟨27, 4, 64, some false, "count"⟩, ⟨27, 5, 64, none, "sum"⟩,
   ⟨27, 8, 32, some false, "flags"⟩,
   ⟨30, 1, 64, none, "quantile"⟩, ⟨30, 2, 64, none, "value"⟩]

/-- Bits and sign of a type. -/
def layout : Ty → Option (Nat × Option Bool)
  | .bool => some (1, none)
  | .i32 | .temporality => some (32, some true)
  | .u32 => some (32, some false)
  | .u64 => some (64, some false)
  | .i64 => some (64, some true)
  | .double => some (64, none)
  | _ => none

/-- Each number is written with the bits and the sign that it is stored with under its name and number, and the schema has a line for each number that is not in a list. -/
theorem C100_numbers :
    (∀ s ∈ schema, ∃ f ∈ decls s.message, f.num = s.field ∧ f.name = camel (ascii s.name) ∧ layout f.ty = some (s.bits, s.signed)) ∧
    (∀ t ∈ messages, t ≤ 30 → ∀ f ∈ decls t, layout f.ty ≠ none →
      (∃ s ∈ schema, s.message = t ∧ s.field = f.num) ∨ f.name = ascii "bucketCounts" ∨ f.name = ascii "explicitBounds") ∧
    (∀ t ∈ messages, ∀ f ∈ decls t, (f.name = ascii "bucketCounts" → f.ty = .u64) ∧ (f.name = ascii "explicitBounds" → f.ty = .double)) := by decide +kernel

/-! ## Texts in the repository -/

/-- 1024. -/
def goldenDigits : Nat → Int → Fp.Dec := fun _ _ => ⟨[49, 48, 50, 52], 4⟩

/-- What internal/js/rq_test.go renders: internal/js/testdata/metrics/render_json.json. -/
theorem golden_script : json false false goldenDigits
    (.msg [(1, .msg [(2, .msg [(1, .msg [(1, .bytes (ascii "test.scope")), (2, .bytes (ascii "v0.0.1"))] []),
      (2, .msg [(1, .bytes (ascii "foo")), (2, .bytes (ascii "Size")), (3, .bytes (ascii "By")),
        (5, .msg [(1, .msg [(3, .num 1136214240000000000), (4, .num 0x4090000000000000)] [])] [])] []), (3, .bytes (ascii "test.scope.schema"))] []),
      (3, .bytes (ascii "test.resource.schema"))] [])] []) =
    some (ascii "{\"resourceMetrics\":[{\"scopeMetrics\":[{\"scope\":{\"name\":\"test.scope\",\"version\":\"v0.0.1\"},\"metrics\":[{\"name\":\"foo\",\"description\":\"Size\",\"unit\":\"By\",\"gauge\":{\"dataPoints\":[{\"timeUnixNano\":\"1136214240000000000\",\"asDouble\":1024}]}}],\"schemaUrl\":\"test.scope.schema\"}],\"schemaUrl\":\"test.resource.schema\"}]}") := by
  decide +kernel

/-- internal/arrow3/testdata/otel_metrics_data_parquet_read_decoded.json. -/
theorem golden_decoded : json false false goldenDigits
    (.msg [(1, .msg [(2, .msg [(2, .msg [(1, .bytes (ascii "check")), (5, .msg [(1, .msg [(3, .num 16), (6, .num 18),
      (7, .msg [(1, .bytes (ascii "key")), (2, .msg [(1, .bytes (ascii "value"))] [])] [])] [])] [])] [])] [])] [])] []) =
    some (ascii "{\"resourceMetrics\":[{\"scopeMetrics\":[{\"metrics\":[{\"name\":\"check\",\"gauge\":{\"dataPoints\":[{\"attributes\":[{\"key\":\"key\",\"value\":{\"stringValue\":\"value\"}}],\"timeUnixNano\":\"16\",\"asInt\":\"18\"}]}}]}]}]}") := by
  decide +kernel

end Verif.Jn
