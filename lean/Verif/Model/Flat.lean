import Verif.Model.Transform
/-!
# internal/f2: metrics flattened to one row per data point

The dictionary is a parameter `tr` (internal/f2/translate.go, see Model/Cache.lean). Ids come from a badger sequence
(internal/f2/id.go, see Model/Seq.lean): `ids n` is the `n`-th id handed out since `NewMetrics`. The hash of a bitmap (xxhash of
its serialization) and the conversion of int64 to float64 are parameters. Arrow builders are modelled in Model/Arrow.lean; here
the record under construction is the list of messages appended to it, each as it was at that moment. Everything a data point
carries that is copied as a whole is opaque.
-/
namespace Verif.Fl
open Tf (Translator)

/-- `metricsv1.NumberDataPoint.Value`; doubles by their bits. -/
inductive Num where
  | double (bits : Nat)
  | int (v : Int)
deriving DecidableEq, Repr

/-- `metricsv1.NumberDataPoint`. -/
structure NPoint where
  attrs : List KeyValue := []
  start : Nat := 0
  time : Nat := 0
  exemplars : List Bytes := []
  value : Option Num := none
deriving DecidableEq, Repr

/-- `HistogramDataPoint`, `ExponentialHistogramDataPoint`, `SummaryDataPoint` (which has no exemplars); `body`: counts, sums,
buckets, bounds, quantiles. -/
structure HPoint where
  attrs : List KeyValue := []
  start : Nat := 0
  time : Nat := 0
  exemplars : List Bytes := []
  body : Bytes := []
deriving DecidableEq, Repr

/-- `metricsv1.Metric.Data`. -/
inductive Points where
  | gauge (l : List NPoint)
  | sum (temporality : Int) (monotonic : Bool) (l : List NPoint)
  | hist (temporality : Int) (l : List HPoint)
  | expHist (temporality : Int) (l : List HPoint)
  | summary (l : List HPoint)
deriving DecidableEq, Repr

/-- `metricsv1.Metric`. -/
structure Metric where
  name : Bytes := []
  description : Bytes := []
  unit : Bytes := []
  data : Option Points := none
deriving DecidableEq, Repr

/-- proto/store/v1/format.proto `Metric.Kind`. -/
inductive Kind where
  | gauge | sum | histogram | exponentialHistogram | summary
deriving DecidableEq, Repr

/-- proto/store/v1/format.proto `Metric`. The field `counter` is never set. -/
structure Row where
  name : Bytes := []
  description : Bytes := []
  unit : Bytes := []
  kind : Kind := .gauge
  attributes : List KeyValue := []
  start : Nat := 0
  time : Nat := 0
  exemplars : List Bytes := []
  gauge : Option Nat := none
  histogram : Option Bytes := none
  expHistogram : Option Bytes := none
  summary : Option Bytes := none
  hash : Nat := 0
  id : Nat := 0
  temporality : Int := 0
  monotonic : Bool := false
deriving DecidableEq, Repr

/-- attr.go:13-19 `Attr`: what outlives a call. `ab`, `b` and `hash` are reset before they are used. -/
structure Attr where
  resource : List KeyValue := []
  scope : List KeyValue := []
  rb : Bm := []
  sb : Bm := []

/-- 61, `=`; attr.go `equal`. -/
def equal : Bytes := [61]
/-- `__name__`, metrics.go:26. -/
def nameKey : Bytes := [95, 95, 110, 97, 109, 101, 95, 95]

/-- Surroundings: the dictionary, the sequence, the hash of a bitmap, and int64 as float64. -/
structure Par (σ : Type) where
  tr : Translator σ
  ids : Nat → Nat
  hash : Bm → Nat
  float : Int → Nat

variable {σ : Type} (P : Par σ)

/-- attr.go:77-87 `do` after `b.Clear()`, with `toString` (89-97): only string values have a column. `none`: the process ends,
because the dictionary fails (translate.go:49) or the attribute has no value (attr.go:90, a nil pointer). -/
def addCols : List KeyValue → σ → Bm → Option (σ × Bm)
  | [], st, b => some (st, b)
  | kv :: kvs, st, b =>
    match kv.value with
    | none => none
    | some (.other _) => addCols kvs st b
    | some (.str s) =>
      match P.tr st (kv.key ++ equal ++ s) with
      | none => none
      | some (st, c) => addCols kvs st (b.add c)

/-- attr.go:77-87 `do`: the bitmap is cleared first. -/
def doCols (kvs : List KeyValue) (st : σ) (_b : Bm) : Option (σ × Bm) := addCols P kvs st []

/-- attr.go:25-29 `Resource`. -/
def setResource (a : Attr) (kvs : List KeyValue) (st : σ) : Option (σ × Attr) :=
  match doCols P kvs st a.rb with
  | none => none
  | some (st, rb) => some (st, { a with resource := kvs, rb := rb })

/-- attr.go:31-35 `Scope`. -/
def setScope (a : Attr) (kvs : List KeyValue) (st : σ) : Option (σ × Attr) :=
  match doCols P kvs st a.sb with
  | none => none
  | some (st, sb) => some (st, { a with scope := kvs, sb := sb })

/-- attr.go:37-49 `Attr` with `name` (69-75): all attributes, the columns. -/
def attrOf (a : Attr) (name : Bytes) (kvs : List KeyValue) (st : σ) : Option (σ × List KeyValue × Bm) :=
  let ab := Bm.or (Bm.or [] a.rb) a.sb
  match doCols P kvs st ab with
  | none => none
  | some (st, ab) =>
    match P.tr st (nameKey ++ equal ++ name) with
    | none => none
    | some (st, c) => some (st, a.resource ++ a.scope ++ kvs, ab.add c)

/-- metrics.go:239-241 `pos`, in uint64. -/
def pos (row col : Nat) : Nat := (row * Bt.shardWidth + col % Bt.shardWidth) % 2 ^ 64

/-- metrics.go:30-35 `Metrics`, with the state of the dictionary and the number of ids taken. -/
structure M (σ : Type) where
  st : σ
  taken : Nat := 0
  rows : List Row := []
  positions : Bm := []

/-- metrics.go:123-130 and the same lines of `sum`, `summary`, `hist`, `expHist`: attributes, hash, id, positions, row. -/
def finish (a : Attr) (attrs : List KeyValue) (m : M σ) (mx : Row) : Option (M σ × Row) :=
  match attrOf P a mx.name attrs m.st with
  | none => none
  | some (st, all, cols) =>
    let id := P.ids m.taken
    let mx := { mx with attributes := all, hash := P.hash cols, id := id }
    some ({ st := st, taken := m.taken + 1, rows := m.rows ++ [mx],
            positions := cols.foldl (fun b c => b.add (pos id c)) m.positions }, mx)

/-- metrics.go:116-122, 143-149: a point without value leaves `mx.Gauge` as it is. -/
def fillNum (mx : Row) (p : NPoint) : Row :=
  match p.value with
  | some (.double b) => { mx with start := p.start, time := p.time, exemplars := p.exemplars, gauge := some b }
  | some (.int v) => { mx with start := p.start, time := p.time, exemplars := p.exemplars, gauge := some (P.float v) }
  | none => { mx with start := p.start, time := p.time, exemplars := p.exemplars }

/-- metrics.go:109-132 `gauge` and 134-159 `sum`: the same message is filled in again for every point. -/
def numbers (a : Attr) : List NPoint → M σ → Row → Option (M σ)
  | [], m, _ => some m
  | p :: ps, m, mx =>
    match finish P a p.attrs m (fillNum P mx p) with
    | none => none
    | some (m, mx) => numbers a ps m mx

/-- metrics.go:160-180 `summary`. -/
def summaries (a : Attr) : List HPoint → M σ → Row → Option (M σ)
  | [], m, _ => some m
  | p :: ps, m, mx =>
    match finish P a p.attrs m { mx with start := p.start, time := p.time, summary := some p.body } with
    | none => none
    | some (m, mx) => summaries a ps m mx

/-- metrics.go:182-207 `hist`. -/
def hists (a : Attr) : List HPoint → M σ → Row → Option (M σ)
  | [], m, _ => some m
  | p :: ps, m, mx =>
    match finish P a p.attrs m { mx with start := p.start, time := p.time, exemplars := p.exemplars, histogram := some p.body } with
    | none => none
    | some (m, mx) => hists a ps m mx

/-- metrics.go:209-237 `expHist`. -/
def expHists (a : Attr) : List HPoint → M σ → Row → Option (M σ)
  | [], m, _ => some m
  | p :: ps, m, mx =>
    match finish P a p.attrs m { mx with start := p.start, time := p.time, exemplars := p.exemplars, expHistogram := some p.body } with
    | none => none
    | some (m, mx) => expHists a ps m mx

/-- metrics.go:76-102: one metric. The message comes out of the pool empty (pool.go:33-36 resets it). -/
def metric (a : Attr) (ms : Metric) (m : M σ) : Option (M σ) :=
  let mx : Row := { name := ms.name, description := ms.description, unit := ms.unit }
  match ms.data with
  | none => some m
  | some (.gauge l) => numbers P a l m { mx with kind := .gauge }
  | some (.sum t mono l) => numbers P a l m { mx with kind := .sum, temporality := t, monotonic := mono }
  | some (.hist t l) => hists P a l m { mx with kind := .histogram, temporality := t }
  | some (.expHist t l) => expHists P a l m { mx with kind := .exponentialHistogram, temporality := t }
  | some (.summary l) => summaries P a l m { mx with kind := .summary }

/-- metrics.go:75. -/
def metricLoop (a : Attr) : List Metric → M σ → Option (M σ)
  | [], m => some m
  | x :: xs, m => match metric P a x m with
    | none => none
    | some m => metricLoop a xs m

/-- metrics.go:72-73. -/
def scopeLoop (a : Attr) : List (ScopeG Metric) → M σ → Option (M σ × Attr)
  | [], m => some (m, a)
  | s :: ss, m =>
    match setScope P a ((s.scope.map (·.attrs)).getD []) m.st with
    | none => none
    | some (st, a) =>
      match metricLoop P a s.items { m with st := st } with
      | none => none
      | some m => scopeLoop a ss m

/-- metrics.go:70-71. -/
def resourceLoop (a : Attr) : List (ResourceG Metric) → M σ → Option (M σ)
  | [], m => some m
  | r :: rs, m =>
    match setResource P a ((r.resource.map (·.attrs)).getD []) m.st with
    | none => none
    | some (st, a) =>
      match scopeLoop P a r.scopes { m with st := st } with
      | none => none
      | some (m, a) => resourceLoop a rs m

/-- metrics.go:66-107 `Append`; the `Attr` is reset (attr.go:51-62). -/
def append (data : List (ResourceG Metric)) (m : M σ) : Option (M σ) := resourceLoop P {} data m

/-- Any number of calls. -/
def appendAll : List (List (ResourceG Metric)) → M σ → Option (M σ)
  | [], m => some m
  | d :: ds, m => match append P d m with
    | none => none
    | some m => appendAll ds m

end Verif.Fl
