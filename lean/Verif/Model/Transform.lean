import Verif.Model.Otlp
import Verif.Model.Labels
import Verif.Model.Batch
/-!
# internal/transform: labels and time bounds of samples

The translator is a parameter `tr`, which may change its state `σ`; `none` means that the process exits
(internal/store/store.go:65 `logger.Fail`).
-/
namespace Verif.Tf
open Bt Tm

/-- `transform.TranslateFunc` (transform.go:19) with its state. -/
abbrev Translator (σ : Type) := σ → Bytes → Option (σ × Nat)

/-- transform.go:21-29 `Context`. The field `label` is reduced to its resource: every use sets prefix, key and value first
(transform.go:152-154, 161-163). -/
structure Ctx (σ : Type) where
  minTs : Nat := 0
  maxTs : Nat := 0
  batch : Batch := Batch.new
  positions : Bm := []
  resource : Int := 0
  st : σ

variable {σ : Type} (tr : Translator σ)

/-- transform.go:151-158 `Label`: encode, translate, remember the column. -/
def label (pfx : Int) (key value : Bytes) (c : Ctx σ) : Option (Ctx σ) :=
  match tr c.st (Label.encode { resource := c.resource, pfx := pfx, key := key, value := value }) with
  | none => none
  | some (st, column) => some { c with st := st, positions := c.positions.add column }

/-- The recurring statement `if s != "" { c.Label(… WithKey(s)) }`, e.g. transform.go:109-114, 133-144, logs.go:18-24,
trace.go:16-22. -/
def labelText (pfx : Int) (s : Bytes) (c : Ctx σ) : Option (Ctx σ) :=
  if s ≠ [] then label tr pfx s [] c else some c

/-- The recurring statement `if id != nil { c.Label(… WithKey(hex.EncodeToString(id))) }`, e.g. logs.go:26-39, trace.go:23-43. -/
def labelId (pfx : Int) (id : Option Bytes) (c : Ctx σ) : Option (Ctx σ) :=
  match id with
  | some id => label tr pfx (hexEncode id) [] c
  | none => some c

/-- transform.go:160-167 `init`. -/
def initLabel (c : Ctx σ) : Option (Ctx σ) := label tr Pfx.unknown [] [] c

/-- transform.go:169-181 `attributes`. -/
def attributes (pfx : Int) (kvs : List KeyValue) (c : Ctx σ) : Option (Ctx σ) :=
  kvs.foldlM (fun c kv =>
    let s := kv.stringValue
    if s ≠ [] then label tr pfx kv.key s c else some c) c

/-- transform.go:108-118 `addResource`. -/
def addResource (schema : Bytes) (r : Option Resource) (c : Ctx σ) : Option (Ctx σ) := do
  let c ← labelText tr Pfx.resourceSchema schema c
  match r with
  | some r => attributes tr Pfx.resourceAttributes r.attrs c
  | none => some c

/-- transform.go:125-149 `addScope`. -/
def addScope (schema : Bytes) (s : Option InstrScope) (c : Ctx σ) : Option (Ctx σ) := do
  let c ← labelText tr Pfx.scopeSchema schema c
  match s with
  | some r =>
    let c ← labelText tr Pfx.scopeName r.name c
    let c ← labelText tr Pfx.scopeVersion r.version c
    attributes tr Pfx.scopeAttributes r.attrs c
  | none => some c

/-- transform.go:183-189 `Timestamp`. -/
def timestamp (ts : Nat) (c : Ctx σ) : Ctx σ :=
  let m := if c.minTs = 0 then ts else c.minTs
  { c with minTs := min m ts, maxTs := max c.maxTs ts }

/-- transform.go:199-205 `Range`. -/
def range (start stop : Nat) (c : Ctx σ) : Ctx σ :=
  let m := if c.minTs = 0 then start else c.minTs
  { c with minTs := min m start, maxTs := max c.maxTs stop }

/-- metrics.go:52-55 `addDataBase`. -/
def addDataBase (p : DataPoint) (c : Ctx σ) : Option (Ctx σ) :=
  attributes tr Pfx.attributes p.attrs (timestamp p.ts c)

/-- metrics.go:14-43: one metric, with the five branches of the type switch. -/
def metric (m : Metric) (c : Ctx σ) : Option (Ctx σ) := do
  let c ← label tr Pfx.name m.name [] c
  match m.data with
  | some { kind := .gauge, points := ps, .. } => ps.foldlM (fun c p => addDataBase tr p c) c
  | some { kind := .sum, points := ps, .. } => ps.foldlM (fun c p => addDataBase tr p c) c
  | some { kind := .histogram, points := ps, .. } => ps.foldlM (fun c p => addDataBase tr p c) c
  | some { kind := .exponentialHistogram, points := ps, .. } => ps.foldlM (fun c p => addDataBase tr p c) c
  | some { kind := .summary, points := ps, .. } => ps.foldlM (fun c p => addDataBase tr p c) c
  | none => some c

/-- logs.go:16-40: one log record. -/
def logRecord (r : LogRecord) (c : Ctx σ) : Option (Ctx σ) := do
  let c := timestamp r.ts c
  let c ← labelText tr Pfx.logsLevel r.severity c
  let c ← attributes tr Pfx.attributes r.attrs c
  let c ← labelId tr Pfx.spanId r.spanId c
  labelId tr Pfx.traceId r.traceId c

/-- trace.go:15-45: one span. Span attributes are not indexed. -/
def span (s : Span) (c : Ctx σ) : Option (Ctx σ) := do
  let c ← labelText tr Pfx.name s.name c
  let c ← labelId tr Pfx.traceId s.traceId c
  let c ← labelId tr Pfx.spanId s.spanId c
  let c ← labelId tr Pfx.parentSpanId s.parentSpanId c
  some (range s.start s.stop c)

/-- metrics.go:10-45, logs.go:11-42, trace.go:11-47: resource, then its scopes, then their items. -/
def group {α : Type} (item : α → Ctx σ → Option (Ctx σ)) (rm : ResourceG α) (c : Ctx σ) : Option (Ctx σ) := do
  let c ← addResource tr rm.schema rm.resource c
  rm.scopes.foldlM (fun c sm => do
    let c ← addScope tr sm.schema sm.scope c
    sm.items.foldlM (fun c x => item x c) c) c

/-- transform.go:62-81 `data`. -/
def data (d : Data) (c : Ctx σ) : Option (Ctx σ) :=
  match d with
  | .metrics rs => rs.foldlM (fun c rm => group tr (metric tr) rm c) { c with resource := Res.metrics }
  | .traces rs => rs.foldlM (fun c rm => group tr (span tr) rm c) { c with resource := Res.traces }
  | .logs rs => rs.foldlM (fun c rm => group tr (logRecord tr) rm c) { c with resource := Res.logs }
  | .none => some c

/-- transform.go:45-60 `processSample`: returns the context and the sample with its time bounds. Note that the resource
label is written (`init`) before `data` sets the resource. -/
def processSample (s : Sample) (c : Ctx σ) : Option (Ctx σ × Sample) := do
  let c : Ctx σ := { c with minTs := 0, maxTs := 0, positions := [] }
  let c ← initLabel tr c
  let c ← data tr s.data c
  let s' := { s with minTs := c.minTs, maxTs := c.maxTs }
  some ({ c with batch := c.batch.add s.id (toInt64 c.minTs) (some c.positions), positions := [] }, s')

/-- transform.go:38-43 `ProcessSamples`, first part: all samples in order. -/
def processAll (ss : List Sample) (c : Ctx σ) : Option (Ctx σ × List Sample) :=
  match ss with
  | [] => some (c, [])
  | s :: ss => do
    let (c, s') ← processSample tr s c
    let (c, ss') ← processAll ss c
    some (c, s' :: ss')

/-- transform.go:38-43 `ProcessSamples`: the fragments, or `none` for an error of `Build`. -/
def processSamples (ss : List Sample) (c : Ctx σ) : Option (Ctx σ × List Sample × Option Frags) := do
  let (c, ss') ← processAll tr ss c
  let (b, f) := c.batch.build
  some ({ c with batch := b }, ss', f)

end Verif.Tf
