import Verif.Model.Time
/-!
# internal/render: metrics and attributes as text

Printing of strings (`%q`), doubles, numbers with units and what `text/tabwriter` does are parameters here (see Model/Quote, Model/Unit, Model/Tabwriter).
Buffers come from a pool and are read (`b.String()` copies) before they are put back; they are not modelled. Resources, scopes, metrics and pairs that are nil pointers are not modelled.
-/
namespace Verif.Rd

/-- `commonv1.AnyValue`. `nil`: a nil pointer to one; `unset`: one without a value. -/
inductive Any where
  | nil
  | unset
  | str (s : Bytes)
  | bool (b : Bool)
  | int (i : Int)
  | double (bits : Nat)
  | bytes (b : Bytes)
  | array (l : List Any)
  | kvs (l : List (Bytes × Any))

/-- Printing of the leaves. -/
structure Fmt where
  /-- `%q` -/
  quote : Bytes → Bytes
  /-- `%v` of a double -/
  double : Nat → Bytes

/-- A hexadecimal digit, lower case. -/
def hexDigit (d : Nat) : UInt8 := if d < 10 then UInt8.ofNat (48 + d) else UInt8.ofNat (87 + d)

/-- `%x` of a byte slice. -/
def hex (b : Bytes) : Bytes := b.flatMap fun c => [hexDigit (c.toNat / 16), hexDigit (c.toNat % 16)]

/-- internal/render/attribute.go:25 `strconv.FormatBool`. -/
def boolText : Bool → Bytes
  | true => [116, 114, 117, 101]
  | false => [102, 97, 108, 115, 101]

mutual
/-- internal/render/attribute.go:20-60 `value`; `none`: a nil value, the process ends. -/
def value (F : Fmt) : Any → Option Bytes
  | .nil => none
  | .unset => some []
  | .str s => some (F.quote s)
  | .bool b => some (boolText b)
  | .int i => some (decInt i)
  | .double d => some (F.double d)
  | .bytes b => some (hex b)
  | .array l => (elems F true l).map fun t => 91 :: (t ++ [93])
  | .kvs l => (pairs F true l).map fun t => 123 :: (t ++ (if l.isEmpty then [125] else [32, 125]))
/-- internal/render/attribute.go:31-38: the elements of an array; `first`: index 0. -/
def elems (F : Fmt) (first : Bool) : List Any → Option Bytes
  | [] => some []
  | a :: l => (value F a).bind fun t => (elems F false l).map fun u => (if first then [] else [44, 32]) ++ t ++ u
/-- internal/render/attribute.go:41-52: the pairs of a list. -/
def pairs (F : Fmt) (first : Bool) : List (Bytes × Any) → Option Bytes
  | [] => some []
  | (k, a) :: l => (value F a).bind fun t => (pairs F false l).map fun u => (if first then [32] else [44, 32]) ++ k ++ [32, 61, 32] ++ t ++ u
end

/-- internal/render/attribute.go:11-18 `attr`. -/
def attr (F : Fmt) (l : List (Bytes × Any)) : Option Bytes := value F (.kvs l)

/-! ## Metrics -/

/-- `metricsv1.NumberDataPoint`; `num`: the value as a float (internal/render/metrics.go:127-134 `numericDataValue`). -/
structure Point where
  time : Nat
  num : Nat
  attrs : List (Bytes × Any)

/-- `metricsv1.Metric.Data`; `other`: histograms, exponential histograms, summaries, or none. -/
inductive Data where
  | gauge (pts : List Point)
  | sum (pts : List Point)
  | other (raw : List Bytes)

/-- `metricsv1.Metric`. -/
structure Metric where
  name : Bytes := []
  description : Bytes := []
  unit : Bytes := []
  data : Data

/-- Printing of numbers and tables: what a `tabwriter` makes of what is written to it (`right`: with `AlignRight`). -/
structure Out extends Fmt where
  unit : Nat → Bytes → Bytes
  table : Bytes → Bytes
  right : Bytes → Bytes

/-- internal/render/metrics.go:123-125 `formatTime`: `2006-01-02 15:04:05` of the time in UTC. -/
def dateTime (ns : Nat) : Bytes :=
  let t := Tm.toInt64 ns
  let d := Tm.date t
  Tm.pad4 d.1.toNat ++ [45] ++ Tm.pad2 d.2.1 ++ [45] ++ Tm.pad2 d.2.2 ++ [32] ++ Tm.pad2 (Tm.hourOf t) ++ [58] ++
    Tm.pad2 (Tm.unixSec t % 3600 / 60).toNat ++ [58] ++ Tm.pad2 (Tm.unixSec t % 60).toNat

/-- `strings.Contains`. -/
def contains (sub : Bytes) : Bytes → Bool
  | [] => sub.isEmpty
  | c :: s => sub.isPrefixOf (c :: s) || contains sub s

/-- `nanoseconds` -/
def nanoseconds : Bytes := [110, 97, 110, 111, 115, 101, 99, 111, 110, 100, 115]

/-- internal/render/metrics.go:13-17 `MetricsFormatOption`. -/
structure Opts where
  resource : Bool := false
  scope : Bool := false
  metrics : Bool := false

/-- internal/render/metrics.go:113-118: the cells of one line. -/
def line (O : Out) (unit : Bytes) (p : Point) : Option (List Bytes) :=
  (attr O.toFmt p.attrs).map fun a => [dateTime p.time, O.unit p.num unit, a]

/-- All or nothing: the first nil value ends the process. -/
def lines (O : Out) (unit : Bytes) : List Point → Option (List (List Bytes))
  | [] => some []
  | p :: ps => (line O unit p).bind fun l => (lines O unit ps).map fun r => l :: r

/-- `TIMESTAMP`, `VALUE`, `ATTRIBUTES` -/
def heading : List Bytes :=
  [[84, 73, 77, 69, 83, 84, 65, 77, 80], [86, 65, 76, 85, 69], [65, 84, 84, 82, 73, 66, 85, 84, 69, 83]]

/-- internal/render/metrics.go:112, 114: a line of the table, `"%s \t%s \t%s \t\n"`. -/
def tableLine (cells : List Bytes) : Bytes := (cells.flatMap fun c => c ++ [32, 9]) ++ [10]

/-- internal/render/metrics.go:108-121 `numeric`. -/
def numeric (O : Out) (pts : List Point) (unit : Bytes) : Option Bytes := (lines O unit pts).map fun l => O.table ((heading :: l).flatMap tableLine)

/-- internal/render/metrics.go:84-87. -/
def unitOf (m : Metric) : Bytes := if m.unit = [] ∧ contains nanoseconds m.description = true then [110, 115] else m.unit

/-- internal/render/metrics.go:92-93: `"… \t%s\t\n"`. -/
def headLine (label v : Bytes) : Bytes := label ++ [32, 9] ++ v ++ [9, 10]

/-- internal/render/metrics.go:89-95: the head of a metric (`description`, `unit`). -/
def metricHead (O : Out) (o : Opts) (m : Metric) : Bytes :=
  m.name ++ [10] ++
    if o.metrics then O.table (headLine [100, 101, 115, 99, 114, 105, 112, 116, 105, 111, 110] m.description ++ headLine [117, 110, 105, 116] (unitOf m)) else []

/-- internal/render/metrics.go:80-106 `metrics`. -/
def metric (O : Out) (o : Opts) (m : Metric) : Option Bytes :=
  match m.data with
  | .gauge pts => (numeric O pts (unitOf m)).map fun t => metricHead O o m ++ t
  | .sum pts => (numeric O pts (unitOf m)).map fun t => metricHead O o m ++ t
  | .other _ => some (metricHead O o m)

/-! ## Scopes and resources -/

/-- `metricsv1.ScopeMetrics`; a missing scope reads like an empty one. -/
structure Scope where
  name : Bytes := []
  schema : Bytes := []
  version : Bytes := []
  attrs : List (Bytes × Any) := []
  metrics : List Metric := []

/-- `metricsv1.ResourceMetrics`. -/
structure Resource where
  schema : Bytes := []
  attrs : List (Bytes × Any) := []
  scopes : List Scope := []

/-- internal/render/metrics.go:26-31, 47-52, 69-74: the parts, separated by line ends; `first`: index 0. -/
def parts (first : Bool) : List (Option Bytes) → Option Bytes
  | [] => some []
  | t :: ts => t.bind fun t => (parts false ts).map fun u => (if first then [] else [10]) ++ t ++ u

/-- internal/render/metrics.go:42-43, 63-66: `"… \t%s\n"`. -/
def labelLine (r : Bytes × Bytes) : Bytes := r.1 ++ [32, 9] ++ r.2 ++ [10]

/-- `scope.name`, `scope.schema`, `scope.version`, `scope.attributes` -/
def scopeRows (sc : Scope) (a : Bytes) : List (Bytes × Bytes) :=
  [([115, 99, 111, 112, 101, 46, 110, 97, 109, 101], sc.name), ([115, 99, 111, 112, 101, 46, 115, 99, 104, 101, 109, 97], sc.schema),
    ([115, 99, 111, 112, 101, 46, 118, 101, 114, 115, 105, 111, 110], sc.version),
    ([115, 99, 111, 112, 101, 46, 97, 116, 116, 114, 105, 98, 117, 116, 101, 115], a)]

/-- internal/render/metrics.go:56-76 `scope`. -/
def scopeText (O : Out) (o : Opts) (sc : Scope) : Option Bytes :=
  (if o.scope then (attr O.toFmt sc.attrs).map fun a => O.right ((scopeRows sc a).flatMap labelLine) else some []).bind fun d =>
    (parts true (sc.metrics.map (metric O o))).map fun t => [45, 45, 62, 32] ++ sc.name ++ [10] ++ d ++ t

/-- `resource.schema`, `resource.attributes` -/
def resourceRows (rm : Resource) (a : Bytes) : List (Bytes × Bytes) :=
  [([114, 101, 115, 111, 117, 114, 99, 101, 46, 115, 99, 104, 101, 109, 97], rm.schema),
    ([114, 101, 115, 111, 117, 114, 99, 101, 46, 97, 116, 116, 114, 105, 98, 117, 116, 101, 115], a)]

/-- internal/render/metrics.go:35-54 `resource`. -/
def resourceText (O : Out) (o : Opts) (rm : Resource) : Option Bytes :=
  (if o.resource then (attr O.toFmt rm.attrs).map fun a => O.right ((resourceRows rm a).flatMap labelLine) else some []).bind fun d =>
    (parts true (rm.scopes.map (scopeText O o))).map fun t => [61, 61, 61, 32] ++ rm.schema ++ [10] ++ d ++ t

/-- internal/render/metrics.go:23-33 `MetricsData`. -/
def metricsData (O : Out) (o : Opts) (md : List Resource) : Option Bytes := parts true (md.map (resourceText O o))

end Verif.Rd
