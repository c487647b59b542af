import Verif.Model.Visit
/-!
# What trimming a payload should do

A `Wanted` is what a list of filters demands: for single-valued properties one of the listed values (any, if nothing is
listed), for attributes all the listed ones. `intended` is the plain reading of a list of filters; `actual` is the one the
code implements (Props/Visit.lean proves it), in the same terms.
-/
namespace Verif.Vs
open St (Filter)

structure Wanted where
  resourceSchema : List Bytes
  resourceAttrs : List (Bytes × Bytes)
  scopeSchema : List Bytes
  scopeName : List Bytes
  scopeVersion : List Bytes
  scopeAttrs : List (Bytes × Bytes)
  /-- metrics and spans -/
  name : List Bytes
  /-- log records -/
  level : List Bytes
  /-- attributes of records and data points -/
  attrs : List (Bytes × Bytes)
  /-- ids, decoded from hexadecimal; `none` for a text that is not hexadecimal, which no id matches -/
  traceId : List (Option Bytes)
  spanId : List (Option Bytes)
  parentId : List (Option Bytes)
  logTraceId : List (Option Bytes)
  logSpanId : List (Option Bytes)

/-- The values of the filters on a single-valued property. -/
def askedBase (fs : List Filter) (prop : Int) : List Bytes :=
  fs.filterMap fun f => match f with
    | .base p v => if p = prop then some v else none
    | _ => none

/-- The attributes of the filters on attributes of a kind. -/
def askedAttrs (fs : List Filter) (prop : Int) : List (Bytes × Bytes) :=
  fs.filterMap fun f => match f with
    | .attr p k v => if p = prop then some (k, v) else none
    | _ => none

/-- The plain reading of filters. -/
def intended (fs : List Filter) : Wanted where
  resourceSchema := askedBase fs Pfx.resourceSchema
  resourceAttrs := askedAttrs fs Pfx.resourceAttributes
  scopeSchema := askedBase fs Pfx.scopeSchema
  scopeName := askedBase fs Pfx.scopeName
  scopeVersion := askedBase fs Pfx.scopeVersion
  scopeAttrs := askedAttrs fs Pfx.scopeAttributes
  name := askedBase fs Pfx.name
  level := askedBase fs Pfx.logsLevel
  attrs := askedAttrs fs Pfx.attributes
  traceId := (askedBase fs Pfx.traceId).map hexDecode
  spanId := (askedBase fs Pfx.spanId).map hexDecode
  parentId := (askedBase fs Pfx.parentSpanId).map hexDecode
  logTraceId := (askedBase fs Pfx.traceId).map hexDecode
  logSpanId := (askedBase fs Pfx.spanId).map hexDecode

/-- The valid ids of the filters on an id. -/
def askedIds (fs : List Filter) (prop : Int) : List (Option Bytes) :=
  ((askedBase fs prop).filterMap hexDecode).map some

/-- What the code makes of filters: attribute filters demand attributes of the scope, the parent filter looks at the span's own
id, the span filter at nothing, ids of log records are not looked at, texts that are not hexadecimal are dropped. -/
def actual (fs : List Filter) : Wanted :=
  { intended fs with
    scopeAttrs := fs.filterMap fun f => match f with
      | .attr p k v => if p = Pfx.scopeAttributes ∨ p = Pfx.attributes then some (k, v) else none
      | _ => none
    attrs := []
    traceId := askedIds fs Pfx.traceId
    spanId := askedIds fs Pfx.parentSpanId
    parentId := []
    logTraceId := []
    logSpanId := [] }

/-- One of the asked values, or nothing asked. -/
def OneOf (asked : List Bytes) (v : Bytes) : Prop := asked = [] ∨ v ∈ asked
/-- One of the asked ids, or nothing asked. -/
def OneId (asked : List (Option Bytes)) (id : Option Bytes) : Prop := asked = [] ∨ some (id.getD []) ∈ asked
/-- All the asked attributes are there, as strings. -/
def AllOf (asked : List (Bytes × Bytes)) (kvs : List KeyValue) : Prop := ∀ a ∈ asked, ({ key := a.1, value := some (.str a.2) } : KeyValue) ∈ kvs

variable {α : Type}

def ResourceOk (W : Wanted) (rm : ResourceG α) : Prop :=
  OneOf W.resourceSchema rm.schema ∧ AllOf W.resourceAttrs (resAttrs rm.resource)

def ScopeOk (W : Wanted) (sm : ScopeG α) : Prop :=
  OneOf W.scopeSchema sm.schema ∧ OneOf W.scopeName (scName sm.scope) ∧ OneOf W.scopeVersion (scVersion sm.scope) ∧
  AllOf W.scopeAttrs (scAttrs sm.scope)

def LogOk (W : Wanted) (start stop : Nat) (x : LogRecord) : Prop :=
  OneOf W.level x.severity ∧ start ≤ x.ts ∧ x.ts < stop ∧ OneId W.logTraceId x.traceId ∧ OneId W.logSpanId x.spanId ∧ AllOf W.attrs x.attrs

def SpanOk (W : Wanted) (start stop : Nat) (x : Span) : Prop :=
  OneOf W.name x.name ∧ start ≤ x.start ∧ x.start < stop ∧ OneId W.traceId x.traceId ∧ OneId W.spanId x.spanId ∧
  OneId W.parentId x.parentSpanId ∧ AllOf W.attrs x.attrs

def PointOk (W : Wanted) (start stop : Nat) (p : DataPoint) : Prop :=
  start ≤ p.ts ∧ p.ts < stop ∧ AllOf W.attrs p.attrs

/-- `out` are the elements of `ins` with `p`, in order, each changed only as `r` allows. -/
inductive Picked {β γ : Type} (p : β → Prop) (r : β → γ → Prop) : List β → List γ → Prop
  | nil : Picked p r [] []
  | skip {x xs ys} : ¬ p x → Picked p r xs ys → Picked p r (x :: xs) ys
  | keep {x xs y ys} : p x → r x y → Picked p r xs ys → Picked p r (x :: xs) (y :: ys)

/-- The scopes with a wanted item, each with its wanted items. Its schema URL is not demanded to be kept (C48). -/
def ScopesPicked (W : Wanted) (has : List α → Prop) (items : List α → List α → Prop) : List (ScopeG α) → List (ScopeG α) → Prop :=
  Picked (fun sm => ScopeOk W sm ∧ has sm.items) fun sm sm' => sm'.scope = sm.scope ∧ items sm.items sm'.items

/-- The resources with a wanted item, each with its wanted scopes. -/
def ResourcesPicked (W : Wanted) (has : List α → Prop) (items : List α → List α → Prop) : List (ResourceG α) → List (ResourceG α) → Prop :=
  Picked (fun rm => ResourceOk W rm ∧ ∃ sm ∈ rm.scopes, ScopeOk W sm ∧ has sm.items) fun rm rm' =>
    rm'.schema = rm.schema ∧ rm'.resource = rm.resource ∧ ScopesPicked W has items rm.scopes rm'.scopes

/-- The data points of a metric that are wanted. -/
def MetricOk (W : Wanted) (start stop : Nat) (m : Metric) : Prop :=
  OneOf W.name m.name ∧ ∃ d, m.data = some d ∧ ∃ p ∈ d.points, PointOk W start stop p

/-- `m'` is `m` with only its wanted points (description and unit are not demanded to be kept, C48). -/
def MetricTrimmed (W : Wanted) (start stop : Nat) (m m' : Metric) : Prop :=
  m'.name = m.name ∧ ∃ d d', m.data = some d ∧ m'.data = some d' ∧ d'.kind = d.kind ∧
    (d.kind ∈ [MKind.sum, .histogram, .exponentialHistogram] → d'.temporality = d.temporality) ∧
    (d.kind = .sum → d'.monotonic = d.monotonic) ∧ Picked (PointOk W start stop) (fun p p' => p' = p) d.points d'.points

/-- `out` is `d` trimmed to exactly what is wanted: all the matching records and nothing else, in order, in their groups, without
empty groups. -/
def Trimmed (W : Wanted) (start stop : Nat) : Data → Data → Prop
  | .logs rs, .logs out => ResourcesPicked W (fun xs => ∃ x ∈ xs, LogOk W start stop x) (Picked (LogOk W start stop) fun x y => y = x) rs out
  | .traces rs, .traces out => ResourcesPicked W (fun xs => ∃ x ∈ xs, SpanOk W start stop x) (Picked (SpanOk W start stop) fun x y => y = x) rs out
  | .metrics rs, .metrics out =>
    ResourcesPicked W (fun xs => ∃ x ∈ xs, MetricOk W start stop x) (Picked (MetricOk W start stop) (MetricTrimmed W start stop)) rs out
  | .none, .none => True
  | _, _ => False

/-- All texts of a payload that a filter on a single value is compared with. -/
def GroupText (item : α → Bytes → Prop) (rs : List (ResourceG α)) (t : Bytes) : Prop :=
  ∃ rm ∈ rs, t = rm.schema ∨ ∃ sm ∈ rm.scopes, t = sm.schema ∨ t = scName sm.scope ∨ t = scVersion sm.scope ∨ ∃ x ∈ sm.items, item x t

/-- All attributes of a payload. -/
def GroupAttr (item : α → KeyValue → Prop) (rs : List (ResourceG α)) (kv : KeyValue) : Prop :=
  ∃ rm ∈ rs, kv ∈ resAttrs rm.resource ∨ ∃ sm ∈ rm.scopes, kv ∈ scAttrs sm.scope ∨ ∃ x ∈ sm.items, item x kv

def HasText : Data → Bytes → Prop
  | .logs rs, t => GroupText (fun x t => t = x.severity) rs t
  | .traces rs, t => GroupText (fun x t => t = x.name ∨ t = x.traceId.getD [] ∨ t = x.spanId.getD []) rs t
  | .metrics rs, t => GroupText (fun m t => t = m.name) rs t
  | .none, _ => False

def HasAttr : Data → KeyValue → Prop
  | .logs rs, kv => GroupAttr (fun x kv => kv ∈ x.attrs) rs kv
  | .traces rs, kv => GroupAttr (fun x kv => kv ∈ x.attrs) rs kv
  | .metrics rs, kv => GroupAttr (fun m kv => ∃ d, m.data = some d ∧ ∃ p ∈ d.points, kv ∈ p.attrs) rs kv
  | .none, _ => False

/-- Hashing does not confuse what is asked for with something else in the payload: no collisions between the texts of filters
and of the payload, and an asked attribute is recognised where it is and only there. -/
structure Faithful (P : Hashes) (fs : List Filter) (d : Data) : Prop where
  text : ∀ p v, .base p v ∈ fs → ∀ t, HasText d t → P.H v = P.H t → v = t
  id : ∀ p v h, .base p v ∈ fs → hexDecode v = some h → ∀ t, HasText d t → P.H h = P.H t → h = t
  attr : ∀ p k v, .attr p k v ∈ fs → ∀ kv s, HasAttr d kv → kv.value = some (.str s) →
    (P.H0 (pair k v) = P.H (pair kv.key s) ↔ k = kv.key ∧ v = s)

/-- No attribute of the payload is without a value. -/
def NoNil (d : Data) : Prop := ∀ kv, HasAttr d kv → kv.value ≠ none

end Verif.Vs

namespace Verif.Vs

/-- A log record, span or data point. -/
inductive Rec where
  | log (x : LogRecord)
  | span (x : Span)
  | point (metric : Bytes) (kind : MKind) (p : DataPoint)

/-- A record with its resource and scope. -/
structure Entry where
  resourceSchema : Bytes
  resource : Option Resource
  scopeSchema : Bytes
  scope : Option InstrScope
  record : Rec

variable {α : Type}

def entriesOf (recs : α → List Rec) (rs : List (ResourceG α)) : List Entry :=
  rs.flatMap fun rm => rm.scopes.flatMap fun sm => sm.items.flatMap fun x => (recs x).map fun r =>
    ⟨rm.schema, rm.resource, sm.schema, sm.scope, r⟩

/-- All records of a payload, in order. -/
def entries : Data → List Entry
  | .logs rs => entriesOf (fun x => [.log x]) rs
  | .traces rs => entriesOf (fun x => [.span x]) rs
  | .metrics rs => entriesOf (fun m => match m.data with | none => [] | some d => d.points.map fun p => .point m.name d.kind p) rs
  | .none => []

/-- A record is wanted. -/
def RecOk (W : Wanted) (start stop : Nat) : Rec → Prop
  | .log x => LogOk W start stop x
  | .span x => SpanOk W start stop x
  | .point n _ p => OneOf W.name n ∧ PointOk W start stop p

/-- A record is wanted, and so are its scope and its resource. -/
def EntryOk (W : Wanted) (start stop : Nat) (e : Entry) : Prop :=
  OneOf W.resourceSchema e.resourceSchema ∧ AllOf W.resourceAttrs (resAttrs e.resource) ∧
  OneOf W.scopeSchema e.scopeSchema ∧ OneOf W.scopeName (scName e.scope) ∧ OneOf W.scopeVersion (scVersion e.scope) ∧
  AllOf W.scopeAttrs (scAttrs e.scope) ∧ RecOk W start stop e.record

/-- Without the schema URL of the scope, which filtering loses (C48). -/
def Entry.bare (e : Entry) : Entry := { e with scopeSchema := [] }

end Verif.Vs
