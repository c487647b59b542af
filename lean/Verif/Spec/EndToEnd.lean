import Verif.Spec.Service
import Verif.Spec.Collapse
import Verif.Model.Js
import Verif.Spec.Dictionary
/-!
# From the requests of clients to the answers of scans
-/
namespace Verif

/-- A log record, a span, or a data point with the kind of its metric. -/
inductive Item where
  | log (x : LogRecord)
  | span (x : Span)
  | point (kind : MKind) (p : DataPoint)

/-- The records of a payload, in order. -/
def Data.items : Data → List Item
  | .logs rs => rs.flatMap fun r => r.scopes.flatMap fun s => s.items.map .log
  | .traces rs => rs.flatMap fun r => r.scopes.flatMap fun s => s.items.map .span
  | .metrics rs => rs.flatMap fun r => r.scopes.flatMap fun s => s.items.flatMap fun m =>
      match m.data with
      | Option.none => []
      | some d => d.points.map fun p => .point d.kind p
  | .none => []

/-- The records of an answer (none for an error or a crash). -/
def St.Result.items : St.Result → List Item
  | .data (some d) => d.items
  | _ => []

/-- A record that was in a request. -/
def Sv.Sent {σ : Type} (ls : List (Sv.Label σ)) (x : Item) : Prop := ∃ t d, .call t d ∈ ls ∧ x ∈ d.items

/-- The payload carries every label the scan asks for; labels are compared as they are stored (C01, C02). -/
def Data.Answers (d : Data) (sc : St.Scan) : Prop := ∀ l ∈ sc.asked, ∃ l', Carries d l' ∧ l'.encode = l.encode

/-- The payload is filed under view `v`: the hour, day, … of its earliest start (C19, C21). -/
def Data.InView (d : Data) (v : Bytes) : Prop := IsView (Tm.toInt64 (St.startOf d)) v

/-- It is filed under exactly one of the views. -/
def Data.OneView (d : Data) (views : List Bytes) : Prop := ∃ a v b, views = a ++ v :: b ∧ d.InView v ∧ ∀ w ∈ a ++ b, ¬ d.InView w

open Classical in
/-- Those of the payloads that the scan is about. -/
noncomputable def wantedOf (ds : List Data) (E : St.Env) (sc : St.Scan) : List Data :=
  ds.filter fun d => decide (d.Answers sc ∧ ∃ v ∈ E.views sc, d.InView v)

/-- The labels of the payloads, and of the resources, are in the list. -/
structure Sv.Covers {σ : Type} (K : List Bytes) (ls : List (Sv.Label σ)) : Prop where
  res : ∀ r ∈ [Res.unknown, Res.metrics, Res.logs, Res.traces], ({ resource := r } : Verif.Label).encode ∈ K
  data : ∀ t d, .call t d ∈ ls → ∀ l, Carries d l → l.encode ∈ K

/-- Maps are iterated in some order, timestamps are `uint64`. -/
structure Sv.Plain {σ : Type} (ls : List (Sv.Label σ)) : Prop where
  times : ∀ t d, .call t d ∈ ls → ∀ a b, HasTime d a b → a < 2 ^ 64
  orders : ∀ fl, .save fl ∈ ls → (∀ m, (fl.viewOrder m).Perm m) ∧ (∀ m, (fl.shardOrder m).Perm m) ∧ ∀ m, (fl.bitsOrder m).Perm m

/-- Everything answered is in the store: no call is about to answer, the buffer is empty, no flush has failed. -/
structure Sv.Settled {σ : Type} (s : Sv.Svc σ) (es : List (Sv.Event σ)) : Prop where
  answered : Sv.unanswered s = []
  hand : Sv.inHand s = []
  buffer : Sv.buffered s = []
  ok : ∀ fl o, .flushed fl o ∈ es → o = .ok

/-- A view is unused, or the first payload of all is in it: then the rows of its data frame are right (C23). -/
def AlignedData (ds : List Data) (v : Bytes) : Prop := (∃ d, ds.head? = some d ∧ d.InView v) ∨ ∀ d ∈ ds, ¬ d.InView v

end Verif
