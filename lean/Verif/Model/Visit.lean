import Verif.Model.Store
import Verif.Model.XxHash
/-!
# internal/visit: trimming a payload to what was asked for

Hashes are parameters: `H` is `xxhash.Sum64` (and a digest after `Reset`), `H0` a digest that was never reset (`attr`,
visit.go:163-169). `none` is a panic: reading through the nil `Value` of an attribute (visit.go:294). Pool objects are
clean: `Release` resets them (visit.go:148-151, bitmaps.go:35-40). Pointers inside lists are not nil.
-/
namespace Verif.Vs
open St (Filter)

structure Hashes where
  H : Bytes → Nat
  H0 : Bytes → Nat

/-- The hashes of the program. -/
def xx : Hashes := ⟨Xx.sum64, Xx.sumZero⟩

/-- visit.go:65-79 `All`. -/
structure All where
  resourceSchema : Bm := []
  resourceAttr : Bm := []
  scopeSchema : Bm := []
  scopeName : Bm := []
  scopeVersion : Bm := []
  scopeAttr : Bm := []
  attr : Bm := []
  name : Bm := []
  traceId : Bm := []
  spanId : Bm := []
  parentSpanId : Bm := []
  logLevel : Bm := []
  start : Nat := 0
  stop : Nat := 0

/-- encoding/hex `fromHexChar`. -/
def hexVal (c : UInt8) : Option Nat :=
  if 48 ≤ c.toNat ∧ c.toNat ≤ 57 then some (c.toNat - 48)
  else if 97 ≤ c.toNat ∧ c.toNat ≤ 102 then some (c.toNat - 87)
  else if 65 ≤ c.toNat ∧ c.toNat ≤ 70 then some (c.toNat - 55)
  else none

/-- encoding/hex `DecodeString`; `none`: an error. -/
def hexDecode : Bytes → Option Bytes
  | [] => some []
  | [_] => none
  | a :: b :: r =>
    match hexVal a, hexVal b, hexDecode r with
    | some x, some y, some z => some (UInt8.ofNat (x * 16 + y) :: z)
    | _, _, _ => none

/-- The bytes hashed for an attribute: visit.go:165-167, 297-299. -/
def pair (k v : Bytes) : Bytes := k ++ [61] ++ v

variable (P : Hashes)

/-- visit.go:163-169 `attr`. -/
def attrHash (k v : Bytes) : Nat := P.H0 (pair k v)

/-- visit.go:194-201 `SetTraceID`, 203-210 `SetSpanID`, 212-219 `SetParentSpanID`: what is added to the bitmap. -/
def addId (b : Bm) (id : Bytes) : Bm :=
  match hexDecode id with
  | none => b
  | some h => b.add (P.H h)

/-- visit.go:88-121: one iteration of `Compile`. -/
def step (o : All) : Filter → All
  | .base p v =>
    if p = Pfx.resourceSchema then { o with resourceSchema := o.resourceSchema.add (P.H v) }
    else if p = Pfx.scopeSchema then { o with scopeSchema := o.scopeSchema.add (P.H v) }
    else if p = Pfx.scopeName then { o with scopeName := o.scopeName.add (P.H v) }
    else if p = Pfx.scopeVersion then { o with scopeVersion := o.scopeVersion.add (P.H v) }
    else if p = Pfx.name then { o with name := o.name.add (P.H v) }
    else if p = Pfx.traceId then { o with traceId := addId P o.traceId v }
    else if p = Pfx.spanId then { o with spanId := addId P o.spanId v }
    else if p = Pfx.parentSpanId then { o with parentSpanId := addId P o.parentSpanId v }
    else if p = Pfx.logsLevel then { o with logLevel := o.logLevel.add (P.H v) }
    else o
  | .attr p k v =>
    if p = Pfx.resourceAttributes then { o with resourceAttr := o.resourceAttr.add (attrHash P k v) }
    else if p = Pfx.scopeAttributes then { o with scopeAttr := o.scopeAttr.add (attrHash P k v) }
    else if p = Pfx.attributes then { o with scopeAttr := o.scopeAttr.add (attrHash P k v) }
    else o
  | .unset => o

/-- visit.go:87-122 `Compile`. -/
def compile (fs : List Filter) (o : All) : All := fs.foldl (step P) o

/-- visit.go:225-227 `SetTimeRange`. -/
def setTimeRange (o : All) (start stop : Nat) : All := { o with start := start, stop := stop }

/-- visit.go:124-141 `Reset`. -/
def All.reset (_ : All) : All := {}

/-- visit.go:264-266 `TimeRange`. -/
def All.timeRange (a : All) : Nat × Nat := (a.start, a.start)

/-- visit.go:229-234 and the other `Accept…` functions with one value: 239-250, 255-258, 268-280. -/
def accept (b : Bm) (v : Bytes) : Bool := b.isEmpty || b.contains (P.H v)

/-- visit.go:293-302: hashes of the string attributes. -/
def attrHashes : List KeyValue → Bm → Option Bm
  | [], b => some b
  | kv :: r, b =>
    match kv.value with
    | none => none
    | some (.str s) => attrHashes r (b.add (P.H (pair kv.key s)))
    | some (.other _) => attrHashes r b

/-- visit.go:286-307 `matchAttr`. -/
def matchAttr (a : Bm) (ls : List KeyValue) : Option Bool :=
  if a.isEmpty then some true
  else
    match attrHashes P ls [] with
    | none => none
    | some b => some ((b.and a).length == a.length)

/-- Go's `x && y` when `y` may panic. -/
def andThen (x : Bool) (y : Option Bool) : Option Bool := if x then y else some false

/-- visit.go:282-284 `AcceptTimestamp`. -/
def acceptTimestamp (A : All) (ts : Nat) : Bool := decide (A.start ≤ ts) && decide (ts < A.stop)

/-- `r.GetResource().GetAttributes()`. -/
def resAttrs (r : Option Resource) : List KeyValue := match r with | none => [] | some r => r.attrs
/-- `r.GetName()`. -/
def scName (s : Option InstrScope) : Bytes := match s with | none => [] | some s => s.name
/-- `r.GetVersion()`. -/
def scVersion (s : Option InstrScope) : Bytes := match s with | none => [] | some s => s.version
/-- `r.GetAttributes()`. -/
def scAttrs (s : Option InstrScope) : List KeyValue := match s with | none => [] | some s => s.attrs

variable {α : Type}

/-- visit.go:20-23 `AcceptResource`. -/
def acceptResource (A : All) (rm : ResourceG α) : Option Bool :=
  andThen (accept P A.resourceSchema rm.schema) (matchAttr P A.resourceAttr (resAttrs rm.resource))

/-- visit.go:25-30 `AcceptScope`. -/
def acceptScope (A : All) (sm : ScopeG α) : Option Bool :=
  andThen (accept P A.scopeSchema sm.schema && accept P A.scopeName (scName sm.scope) && accept P A.scopeVersion (scVersion sm.scope))
    (matchAttr P A.scopeAttr (scAttrs sm.scope))

/-- visit.go:38-41 `AcceptDataPoint`. -/
def acceptPoint (A : All) (p : DataPoint) : Option Bool :=
  andThen (acceptTimestamp A p.ts) (matchAttr P A.attr p.attrs)

/-- logs.go:25-27. -/
def acceptLog (A : All) (x : LogRecord) : Option Bool :=
  andThen (accept P A.logLevel x.severity && acceptTimestamp A x.ts) (matchAttr P A.attr x.attrs)

/-- trace.go:25-29. -/
def acceptSpan (A : All) (x : Span) : Option Bool :=
  andThen (accept P A.name x.name && acceptTimestamp A x.start && accept P A.traceId (x.traceId.getD []) &&
    accept P A.parentSpanId (x.spanId.getD [])) (matchAttr P A.attr x.attrs)

/-- `for … { if !accepted { continue }; … = append(…) }`. -/
def select {β : Type} (f : β → Option Bool) : List β → Option (List β)
  | [] => some []
  | x :: xs =>
    match f x with
    | none => none
    | some b =>
      match select f xs with
      | none => none
      | some ys => some (if b then x :: ys else ys)

/-- metrics.go:25-158: the metrics of a scope. The oneof holds one kind, so at most one of the five branches is taken. -/
def selectMetrics (A : All) : List Metric → Option (List Metric)
  | [] => some []
  | ms :: rest =>
    if accept P A.name ms.name then
      match ms.data with
      | none => selectMetrics A rest
      | some v =>
        match select (acceptPoint P A) v.points with
        | none => none
        | some points =>
          match selectMetrics A rest with
          | none => none
          | some out =>
            if points.isEmpty then some out
            else
              some ({ name := ms.name
                      data := some (match v.kind with
                        | .gauge => { kind := .gauge, points := points }
                        | .sum => { kind := .sum, temporality := v.temporality, monotonic := v.monotonic, points := points }
                        | .histogram => { kind := .histogram, temporality := v.temporality, points := points }
                        | .exponentialHistogram => { kind := .exponentialHistogram, temporality := v.temporality, points := points }
                        | .summary => { kind := .summary, points := points }) } :: out)
    else selectMetrics A rest

/-- The loop over scopes: logs.go:18-46, trace.go:18-48, metrics.go:18-168. -/
def visitScopes (A : All) (sel : List α → Option (List α)) : List (ScopeG α) → Option (List (ScopeG α))
  | [] => some []
  | sm :: rest =>
    match acceptScope P A sm with
    | none => none
    | some false => visitScopes A sel rest
    | some true =>
      match sel sm.items with
      | none => none
      | some items =>
        match visitScopes A sel rest with
        | none => none
        | some out => some (if items.isEmpty then out else { scope := sm.scope, items := items } :: out)

/-- The loop over resources: logs.go:10-50, trace.go:10-52, metrics.go:10-172. -/
def visitResources (A : All) (sel : List α → Option (List α)) : List (ResourceG α) → Option (List (ResourceG α))
  | [] => some []
  | rm :: rest =>
    match acceptResource P A rm with
    | none => none
    | some false => visitResources A sel rest
    | some true =>
      match visitScopes P A sel rm.scopes with
      | none => none
      | some scopes =>
        match visitResources A sel rest with
        | none => none
        | some out => some (if scopes.isEmpty then out else { schema := rm.schema, resource := rm.resource, scopes := scopes } :: out)

/-- logs.go:9-52 `Logs.Visit`. -/
def visitLogs (A : All) : List (ResourceG LogRecord) → Option (List (ResourceG LogRecord)) := visitResources P A (select (acceptLog P A))
/-- trace.go:9-54 `Trace.Visit`. -/
def visitTraces (A : All) : List (ResourceG Span) → Option (List (ResourceG Span)) := visitResources P A (select (acceptSpan P A))
/-- metrics.go:9-174 `Metrics.Visit`. -/
def visitMetrics (A : All) : List (ResourceG Metric) → Option (List (ResourceG Metric)) := visitResources P A (selectMetrics P A)

/-- visit.go:43-63 `All.Visit` on a non-nil visitor and payload. -/
def visit (A : All) : Data → Option Data
  | .metrics rs =>
    match visitMetrics P A rs with
    | none => none
    | some out => some (.metrics out)
  | .logs rs =>
    match visitLogs P A rs with
    | none => none
    | some out => some (.logs out)
  | .traces rs =>
    match visitTraces P A rs with
    | none => none
    | some out => some (.traces out)
  | .none => some .none

end Verif.Vs
