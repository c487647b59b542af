import Verif.Spec.Self
import Verif.Model.SelfDetail
/-!
# What an exported span or data point tells

Two spans are told apart by their exported forms unless they are the same in everything listed here. What is not listed is lost: the
flags of the span's context, the trace id of its parent, trace state and flags of links, and the zero threshold of exponential
histograms.
-/
namespace Verif.Sf

/-- The same value, or one of those that exported attributes do not tell apart (C66). -/
def SameValue (v w : Value) : Prop := v = w ∨ Confused v w

/-- The same attributes, in the same order. -/
def SameAttrs (a b : List Attr) : Prop := List.Forall₂ (fun x y : Attr => x.1 = y.1 ∧ SameValue x.2 y.2) a b

/-- A time between 1678 and 2262. -/
def TimeOk (t : Int) : Prop := -2 ^ 63 ≤ t ∧ t < 2 ^ 63

/-- A count that fits. -/
def CountOk (n : Int) : Prop := 0 ≤ n ∧ n < 2 ^ 32

/-- A status: ok (2), error (1), anything else. -/
def SameStatus (a b : Nat) : Prop := (a = 2 ↔ b = 2) ∧ (a = 1 ↔ b = 1)

/-- A kind of span: 1 … 5, anything else. -/
def SameKind (a b : Int) : Prop := a = b ∨ (¬ (1 ≤ a ∧ a ≤ 5) ∧ ¬ (1 ≤ b ∧ b ≤ 5))

structure SameEvent (a b : EventIn) : Prop where
  name : a.name = b.name
  time : a.time = b.time
  attrs : SameAttrs a.attrs b.attrs
  dropped : a.dropped = b.dropped

structure SameLink (a b : LinkIn) : Prop where
  traceId : a.traceId = b.traceId
  spanId : a.spanId = b.spanId
  attrs : SameAttrs a.attrs b.attrs
  dropped : a.dropped = b.dropped

structure SameSpan (a b : SpanDetail) : Prop where
  traceId : a.traceId = b.traceId
  spanId : a.spanId = b.spanId
  traceState : a.traceState = b.traceState
  parentId : a.parentId = b.parentId
  kind : SameKind a.kind b.kind
  name : a.name = b.name
  start : a.start = b.start
  stop : a.stop = b.stop
  status : SameStatus a.statusCode b.statusCode
  statusText : a.statusText = b.statusText
  attrs : SameAttrs a.attrs b.attrs
  events : List.Forall₂ SameEvent a.events b.events
  links : List.Forall₂ SameLink a.links b.links
  dropped : a.droppedAttrs = b.droppedAttrs ∧ a.droppedEvents = b.droppedEvents ∧ a.droppedLinks = b.droppedLinks

/-- Ids of eight bytes, times and counts in range. -/
structure SpanDetail.Ok (s : SpanDetail) : Prop where
  parent : s.parentId.length = 8
  times : TimeOk s.start ∧ TimeOk s.stop
  counts : CountOk s.droppedAttrs ∧ CountOk s.droppedEvents ∧ CountOk s.droppedLinks
  events : ∀ e ∈ s.events, TimeOk e.time ∧ CountOk e.dropped
  links : ∀ l ∈ s.links, CountOk l.dropped

/-- The time of a data point: the zero time stands for 1970. -/
def SameTime (t u : Int) : Prop := (if t = zeroTime then 0 else t) = (if u = zeroTime then 0 else u)

structure SameBase (a b : Base) : Prop where
  attrs : SameAttrs a.attrs b.attrs
  start : SameTime a.start b.start
  time : SameTime a.time b.time

structure SameExemplar (a b : Exemplar) : Prop where
  filtered : SameAttrs a.filtered b.filtered
  time : SameTime a.time b.time
  value : a.value = b.value
  spanId : a.spanId = b.spanId
  traceId : a.traceId = b.traceId

variable (f : Int → Nat)

/-- The same number, as a double. -/
def SameNum (a b : Num) : Prop := toFloat f a = toFloat f b

def SameOpt : Option Num → Option Num → Prop
  | none, none => True
  | some a, some b => SameNum f a b
  | _, _ => False

/-- Two data points that say the same: values of gauges and sums exactly, with their type; sums, minima and maxima of histograms as
doubles. -/
inductive SamePt : Pt → Pt → Prop
  | number {b b' v ex ex'} : SameBase b b' → List.Forall₂ SameExemplar ex ex' → SamePt (.number b v ex) (.number b' v ex')
  | hist {b b' n bounds counts lo lo' hi hi' sum sum' ex ex'} : SameBase b b' → SameOpt f lo lo' → SameOpt f hi hi' → SameNum f sum sum' →
      List.Forall₂ SameExemplar ex ex' → SamePt (.hist b n bounds counts lo hi sum ex) (.hist b' n bounds counts lo' hi' sum' ex')
  | exp {b b' n lo lo' hi hi' sum sum' scale zc zt zt' pos neg ex ex'} : SameBase b b' → SameOpt f lo lo' → SameOpt f hi hi' → SameNum f sum sum' →
      List.Forall₂ SameExemplar ex ex' → SamePt (.exp b n lo hi sum scale zc zt pos neg ex) (.exp b' n lo' hi' sum' scale zc zt' pos neg ex')
  | summary {b b' n sum qs} : SameBase b b' → SamePt (.summary b n sum qs) (.summary b' n sum qs)

/-- A time between 1678 and 2262, or none. -/
def PtTimeOk (t : Int) : Prop := t = zeroTime ∨ TimeOk t

def Base.Ok (b : Base) : Prop := PtTimeOk b.start ∧ PtTimeOk b.time

def ExOk (l : List Exemplar) : Prop := ∀ e ∈ l, PtTimeOk e.time

def Pt.Ok : Pt → Prop
  | .number b _ ex => b.Ok ∧ ExOk ex
  | .hist b _ _ _ _ _ _ ex => b.Ok ∧ ExOk ex
  | .exp b _ _ _ _ _ _ _ _ _ ex => b.Ok ∧ ExOk ex
  | .summary b _ _ _ => b.Ok

/-- The same kind of aggregation, the same temporality and monotonicity, and points that say the same, in order. -/
inductive SameAgg : Agg Pt → Agg Pt → Prop
  | gauge {a b} : List.Forall₂ (SamePt f) a b → SameAgg (.gauge a) (.gauge b)
  | sum {t m a b} : List.Forall₂ (SamePt f) a b → SameAgg (.sum t m a) (.sum t m b)
  | hist {t a b} : List.Forall₂ (SamePt f) a b → SameAgg (.hist t a) (.hist t b)
  | expHist {t a b} : List.Forall₂ (SamePt f) a b → SameAgg (.expHist t a) (.expHist t b)
  | summary {a b} : List.Forall₂ (SamePt f) a b → SameAgg (.summary a) (.summary b)

def Agg.points {α : Type} : Agg α → List α
  | .gauge p | .sum _ _ p | .hist _ p | .expHist _ p | .summary p => p
  | .unknown => []

/-! ## The exported forms

The numbers of statuses and kinds in the SDK and in OTLP, and what the fields of an exported span hold. -/

/-- The status: error is 1 and ok is 2 in the SDK, the other way round in OTLP; anything else is unset, 0. -/
def StatusAs (s o : Nat) : Prop := (s = 1 ∧ o = 2) ∨ (s = 2 ∧ o = 1) ∨ (s ≠ 1 ∧ s ≠ 2 ∧ o = 0)

/-- Kinds have the same numbers in both, 1 … 5; anything else is unspecified, 0. -/
def KindAs (s o : Int) : Prop := ((1 ≤ s ∧ s ≤ 5) ∧ o = s) ∨ (¬ (1 ≤ s ∧ s ≤ 5) ∧ o = 0)

/-- The exported field holds the instant (a two's complement, should it be before 1970). -/
def TimeAs (t : Int) (o : Nat) : Prop := (o : Int) = if 0 ≤ t then t else t + 2 ^ 64

/-- The attributes with their keys and values, in order. -/
def AttrsAs (a : List Attr) (o : List (Bytes × Any)) : Prop := List.Forall₂ (fun x y => y.1 = x.1 ∧ y.2 = value x.2) a o

structure EventAs (e : EventIn) (o : EventOut) : Prop where
  name : o.name = e.name
  time : TimeAs e.time o.time
  attrs : AttrsAs e.attrs o.attrs
  dropped : (o.dropped : Int) = e.dropped

structure LinkAs (l : LinkIn) (o : LinkOut) : Prop where
  traceId : o.traceId = l.traceId
  spanId : o.spanId = l.spanId
  attrs : AttrsAs l.attrs o.attrs
  dropped : (o.dropped : Int) = l.dropped

/-- The exported span holds what the span holds; a parent only if it has one. -/
structure SpanAs (s : SpanDetail) (o : SpanOut) : Prop where
  traceId : o.traceId = s.traceId
  spanId : o.spanId = s.spanId
  traceState : o.traceState = s.traceState
  parent : (s.parentId = List.replicate 8 0 ∧ o.parentId = none) ∨ (s.parentId ≠ List.replicate 8 0 ∧ o.parentId = some s.parentId)
  kind : KindAs s.kind o.kind
  name : o.name = s.name
  start : TimeAs s.start o.start
  stop : TimeAs s.stop o.stop
  status : StatusAs s.statusCode o.statusCode
  statusText : o.statusText = s.statusText
  attrs : AttrsAs s.attrs o.attrs
  events : List.Forall₂ EventAs s.events o.events
  links : List.Forall₂ LinkAs s.links o.links
  dropped : (o.droppedAttrs : Int) = s.droppedAttrs ∧ (o.droppedEvents : Int) = s.droppedEvents ∧ (o.droppedLinks : Int) = s.droppedLinks

/-- A time, or 0 for none. -/
def PtTimeAs (t : Int) (o : Nat) : Prop := (t = zeroTime ∧ o = 0) ∨ (t ≠ zeroTime ∧ TimeAs t o)

structure BaseAs (b : Base) (o : BaseOut) : Prop where
  attrs : AttrsAs b.attrs o.attrs
  start : PtTimeAs b.start o.start
  time : PtTimeAs b.time o.time

structure ExemplarAs (e : Exemplar) (o : ExemplarOut) : Prop where
  filtered : AttrsAs e.filtered o.filtered
  time : PtTimeAs e.time o.time
  value : o.value = e.value
  spanId : o.spanId = e.spanId
  traceId : o.traceId = e.traceId

/-- The number as a double. -/
def NumAs (n : Num) (o : Nat) : Prop := (∃ i, n = .int i ∧ o = f i) ∨ n = .float o

/-- A minimum or maximum, if there is one. -/
def OptAs (n : Option Num) (o : Option Nat) : Prop := (n = none ∧ o = none) ∨ ∃ x y, n = some x ∧ o = some y ∧ NumAs f x y

/-- The exported data point holds what the data point holds. -/
inductive PtAs : Pt → PtOut → Prop
  | number {b o v ex ex'} : BaseAs b o → List.Forall₂ ExemplarAs ex ex' → PtAs (.number b v ex) (.number o v ex')
  | hist {b o n bounds counts lo lo' hi hi' sum sum' ex ex'} : BaseAs b o → OptAs f lo lo' → OptAs f hi hi' → NumAs f sum sum' →
      List.Forall₂ ExemplarAs ex ex' → PtAs (.hist b n bounds counts lo hi sum ex) (.hist o n bounds counts lo' hi' sum' ex')
  | exp {b o n lo lo' hi hi' sum sum' scale zc zt pos neg ex ex'} : BaseAs b o → OptAs f lo lo' → OptAs f hi hi' → NumAs f sum sum' →
      List.Forall₂ ExemplarAs ex ex' → PtAs (.exp b n lo hi sum scale zc zt pos neg ex) (.exp o n lo' hi' sum' scale zc pos neg ex')
  | summary {b o n sum qs} : BaseAs b o → PtAs (.summary b n sum qs) (.summary o n sum qs)

end Verif.Sf
