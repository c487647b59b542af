import Verif.Spec.Scan
/-!
# What the filters of a scan ask for

In terms of the fields of OTLP payloads and the numbers of proto/rq/v1/scan.proto, which are written out here.
-/
namespace Verif.Flt

/-- The digits of lower-case and upper-case hexadecimal, as text. -/
def lower : Bytes := [48, 49, 50, 51, 52, 53, 54, 55, 56, 57, 97, 98, 99, 100, 101, 102]
def upper : Bytes := [48, 49, 50, 51, 52, 53, 54, 55, 56, 57, 65, 66, 67, 68, 69, 70]

/-- `s` spells the bytes `b`: two digits for each, the high one first. -/
inductive HexText (digits : List Bytes) : Bytes → Bytes → Prop
  | nil : HexText digits [] []
  | cons {x : UInt8} {b : Bytes} {h l : UInt8} {s : Bytes} (hi : ∃ ds ∈ digits, ds[x.toNat / 16]? = some h)
      (lo : ∃ ds ∈ digits, ds[x.toNat % 16]? = some l) (rest : HexText digits b s) : HexText digits (x :: b) (h :: l :: s)

/-- proto/rq/v1/scan.proto `Scan.BaseProp`. -/
inductive Field where
  | resourceSchema | scopeSchema | scopeName | scopeVersion | name | traceId | spanId | parentSpanId | logsLevel
deriving DecidableEq, Repr

def Field.number : Field → Int
  | .resourceSchema => 13 | .scopeSchema => 2 | .scopeName => 3 | .scopeVersion => 4 | .name => 6
  | .traceId => 8 | .spanId => 9 | .parentSpanId => 10 | .logsLevel => 11

/-- proto/rq/v1/scan.proto `Scan.AttributeProp`. -/
inductive Place where
  | resource | scope | record
deriving DecidableEq, Repr

def Place.number : Place → Int
  | .resource => 1 | .scope => 5 | .record => 7

/-- proto/rq/v1/scan.proto `Scan.SCOPE`. -/
def scopeOf : Data → Int
  | .metrics _ => 1
  | .traces _ => 2
  | .logs _ => 3
  | .none => 0

/-- An optional id, spelled in lower case. -/
def IdText (id : Option Bytes) (s : Bytes) : Prop := ∃ b, id = some b ∧ HexText [lower] b s

/-- A text of the resources or scopes. -/
def GroupText {α : Type} (rs : List (ResourceG α)) (s : Bytes) : Field → Prop
  | .resourceSchema => ∃ rm ∈ rs, rm.schema = s
  | .scopeSchema => ∃ rm ∈ rs, ∃ sm ∈ rm.scopes, sm.schema = s
  | .scopeName => ∃ rm ∈ rs, ∃ sm ∈ rm.scopes, ∃ sc, sm.scope = some sc ∧ sc.name = s
  | .scopeVersion => ∃ rm ∈ rs, ∃ sm ∈ rm.scopes, ∃ sc, sm.scope = some sc ∧ sc.version = s
  | _ => False

/-- An item (metric, log record, span) of the payload. -/
def Item {α : Type} (rs : List (ResourceG α)) (x : α) : Prop := ∃ rm ∈ rs, ∃ sm ∈ rm.scopes, x ∈ sm.items

/-- The payload has a field of this kind with the text `s`. -/
def Shows : Data → Field → Bytes → Prop
  | .metrics rs, f, s => GroupText rs s f ∨ ∃ x, Item rs x ∧
    match f with
    | .name => x.name = s
    | _ => False
  | .logs rs, f, s => GroupText rs s f ∨ ∃ x, Item rs x ∧
    match f with
    | .logsLevel => x.severity = s
    | .traceId => IdText x.traceId s
    | .spanId => IdText x.spanId s
    | _ => False
  | .traces rs, f, s => GroupText rs s f ∨ ∃ x, Item rs x ∧
    match f with
    | .name => x.name = s
    | .traceId => IdText x.traceId s
    | .spanId => IdText x.spanId s
    | .parentSpanId => IdText x.parentSpanId s
    | _ => False
  | .none, _, _ => False

/-- A string attribute of a list. -/
def InAttrs (k v : Bytes) (as : List KeyValue) : Prop := (⟨k, some (.str v)⟩ : KeyValue) ∈ as

/-- Attributes of resources or scopes. -/
def GroupAttr {α : Type} (rs : List (ResourceG α)) (k v : Bytes) : Place → Prop
  | .resource => ∃ rm ∈ rs, ∃ res, rm.resource = some res ∧ InAttrs k v res.attrs
  | .scope => ∃ rm ∈ rs, ∃ sm ∈ rm.scopes, ∃ sc, sm.scope = some sc ∧ InAttrs k v sc.attrs
  | .record => False

/-- The payload has a string attribute `k` = `v` at this place; for metrics `record` means the data points. -/
def HasAttr : Data → Place → Bytes → Bytes → Prop
  | .metrics rs, p, k, v => GroupAttr rs k v p ∨ p = .record ∧ ∃ x, Item rs x ∧ ∃ d, x.data = some d ∧ ∃ y ∈ d.points, InAttrs k v y.attrs
  | .logs rs, p, k, v => GroupAttr rs k v p ∨ p = .record ∧ ∃ x, Item rs x ∧ InAttrs k v x.attrs
  | .traces rs, p, k, v => GroupAttr rs k v p ∨ p = .record ∧ ∃ x, Item rs x ∧ InAttrs k v x.attrs
  | .none, _, _, _ => False

/-- Some span. -/
def IsTraces : Data → Prop
  | .traces _ => True
  | _ => False

/-- A filter of the documented kinds. -/
inductive Ask where
  | field (f : Field) (text : Bytes)
  | attr (p : Place) (key value : Bytes)

/-- As it is sent. -/
def Ask.filter : Ask → St.Filter
  | .field f s => .base f.number s
  | .attr p k v => .attr p.number k v

/-- The label kind is filed even if the text is empty: metric names and ids. -/
def Always : Data → Field → Prop
  | .metrics _, f => f = .name
  | _, f => f = .traceId ∨ f = .spanId ∨ f = .parentSpanId

/-- The payload passes the filter. -/
def Passes (d : Data) : Ask → Prop
  | .field f s => Shows d f s ∧ (s = [] → Always d f)
  | .attr p k v => ¬ (IsTraces d ∧ p = .record) ∧ ∃ k' v', HasAttr d p k' v' ∧ v' ≠ [] ∧ k' ++ [61] ++ v' = if v = [] then k else k ++ [61] ++ v

end Verif.Flt
