import Verif.Model.PoolScan
import Verif.Model.Js
/-!
# Trimming a payload, with every object it takes from a pool and puts back

The functions of Model/Visit.lean again; `v` is the visitor. A panic (`none`) runs the deferred releases.
-/
namespace Verif.Pl
open St (Filter Scan Env Result)
open Vs (Hashes All)

/-- The contents of a visitor. -/
def Obj.all : Obj → All
  | .visitor a => a
  | _ => {}
/-- A change of a visitor. -/
def Obj.onAll (f : All → All) : Obj → Obj
  | .visitor a => .visitor (f a)
  | o => o

variable (H : Hashes)

/-- visit.go:293-302: hashes of the string attributes, into the bitmap `b`. False: a panic. -/
def attrLoop (b : Nat) : List KeyValue → P Bool
  | [] => pure true
  | kv :: r =>
    match kv.value with
    | none => pure false
    | some (.str s) => do
      let _ ← use b (Obj.onBits fun x => x.add (H.H (Vs.pair kv.key s)))
      attrLoop b r
    | some (.other _) => attrLoop b r

/-- visit.go:286-307 `matchAttr`. -/
def matchAttr (a : Bm) (ls : List KeyValue) : P (Option Bool) :=
  if a.isEmpty then pure (some true)
  else do
    let b ← take .bitmap
    let ok ← attrLoop H b ls
    if ok then do
      let x ← use b (Obj.onBits fun x => x.and a)
      give b
      pure (some (x.bits.length == a.length))
    else do
      give b
      pure none

/-- Go's `x && y`. -/
def andThen (x : Bool) (y : P (Option Bool)) : P (Option Bool) := if x then y else pure (some false)

variable {α : Type}

/-- visit.go:20-23 `AcceptResource`. -/
def acceptResource (v : Nat) (rm : ResourceG α) : P (Option Bool) := do
  let o ← look v
  andThen (Vs.accept H o.all.resourceSchema rm.schema) (matchAttr H o.all.resourceAttr (Vs.resAttrs rm.resource))

/-- visit.go:25-30 `AcceptScope`. -/
def acceptScope (v : Nat) (sm : ScopeG α) : P (Option Bool) := do
  let o ← look v
  andThen (Vs.accept H o.all.scopeSchema sm.schema && Vs.accept H o.all.scopeName (Vs.scName sm.scope) && Vs.accept H o.all.scopeVersion (Vs.scVersion sm.scope))
    (matchAttr H o.all.scopeAttr (Vs.scAttrs sm.scope))

/-- visit.go:38-41 `AcceptDataPoint`. -/
def acceptPoint (v : Nat) (p : DataPoint) : P (Option Bool) := do
  let o ← look v
  andThen (Vs.acceptTimestamp o.all p.ts) (matchAttr H o.all.attr p.attrs)

/-- logs.go:25-27. -/
def acceptLog (v : Nat) (x : LogRecord) : P (Option Bool) := do
  let o ← look v
  andThen (Vs.accept H o.all.logLevel x.severity && Vs.acceptTimestamp o.all x.ts) (matchAttr H o.all.attr x.attrs)

/-- trace.go:25-29. -/
def acceptSpan (v : Nat) (x : Span) : P (Option Bool) := do
  let o ← look v
  andThen (Vs.accept H o.all.name x.name && Vs.acceptTimestamp o.all x.start && Vs.accept H o.all.traceId (x.traceId.getD []) &&
    Vs.accept H o.all.parentSpanId (x.spanId.getD [])) (matchAttr H o.all.attr x.attrs)

/-- `for … { if !accepted { continue }; … = append(…) }`. -/
def select {β : Type} (f : β → P (Option Bool)) : List β → P (Option (List β))
  | [] => pure (some [])
  | x :: xs => do
    let b ← f x
    match b with
    | none => pure none
    | some b => do
      let ys ← select f xs
      match ys with
      | none => pure none
      | some ys => pure (some (if b then x :: ys else ys))

/-- metrics.go:25-158: the metrics of a scope. -/
def selectMetrics (v : Nat) : List Metric → P (Option (List Metric))
  | [] => pure (some [])
  | ms :: rest => do
    let o ← look v
    if Vs.accept H o.all.name ms.name then
      match ms.data with
      | none => selectMetrics v rest
      | some d => do
        let points ← select (acceptPoint H v) d.points
        match points with
        | none => pure none
        | some points => do
          let out ← selectMetrics v rest
          match out with
          | none => pure none
          | some out =>
            if points.isEmpty then pure (some out)
            else
              pure (some ({ name := ms.name
                            data := some (match d.kind with
                              | .gauge => { kind := .gauge, points := points }
                              | .sum => { kind := .sum, temporality := d.temporality, monotonic := d.monotonic, points := points }
                              | .histogram => { kind := .histogram, temporality := d.temporality, points := points }
                              | .exponentialHistogram => { kind := .exponentialHistogram, temporality := d.temporality, points := points }
                              | .summary => { kind := .summary, points := points }) } :: out))
    else selectMetrics v rest

/-- The loop over scopes: logs.go:18-46, trace.go:18-48, metrics.go:18-168. -/
def visitScopes (v : Nat) (sel : List α → P (Option (List α))) : List (ScopeG α) → P (Option (List (ScopeG α)))
  | [] => pure (some [])
  | sm :: rest => do
    let a ← acceptScope H v sm
    match a with
    | none => pure none
    | some false => visitScopes v sel rest
    | some true => do
      let items ← sel sm.items
      match items with
      | none => pure none
      | some items => do
        let out ← visitScopes v sel rest
        match out with
        | none => pure none
        | some out => pure (some (if items.isEmpty then out else { scope := sm.scope, items := items } :: out))

/-- The loop over resources: logs.go:10-50, trace.go:10-52, metrics.go:10-172. -/
def visitResources (v : Nat) (sel : List α → P (Option (List α))) : List (ResourceG α) → P (Option (List (ResourceG α)))
  | [] => pure (some [])
  | rm :: rest => do
    let a ← acceptResource H v rm
    match a with
    | none => pure none
    | some false => visitResources v sel rest
    | some true => do
      let scopes ← visitScopes H v sel rm.scopes
      match scopes with
      | none => pure none
      | some scopes => do
        let out ← visitResources v sel rest
        match out with
        | none => pure none
        | some out => pure (some (if scopes.isEmpty then out else { schema := rm.schema, resource := rm.resource, scopes := scopes } :: out))

/-- visit.go:43-63 `All.Visit`. -/
def visit (v : Nat) : Data → P (Option Data)
  | .metrics rs => do
    let out ← visitResources H v (selectMetrics H v) rs
    pure (out.map .metrics)
  | .logs rs => do
    let out ← visitResources H v (select (acceptLog H v)) rs
    pure (out.map .logs)
  | .traces rs => do
    let out ← visitResources H v (select (acceptSpan H v)) rs
    pure (out.map .traces)
  | .none => pure (some .none)

/-- rq.go:90-96: a visitor for the range and the filters, and the payload trimmed with it. -/
def trim (filters : List Filter) (b : Int × Int) (d : Data) : P (Option Data) := do
  let v ← take .visitor
  let _ ← use v (Obj.onAll fun a => Vs.setTimeRange a (Js.toUint64 b.1) (Js.toUint64 b.2))
  let _ ← use v (Obj.onAll (Vs.compile H filters))
  let r ← visit H v d
  give v
  pure r

/-- rq.go:78-99 `JS.Scan`, when `ScanFn` has returned `r`. -/
def jsScan (clock : Int) (a : Scan) (r : Result) : P Result :=
  match r with
  | .data d =>
    if a.time.range = none ∧ a.filters = [] then pure (.data d)
    else
      match d with
      | none => do
        let v ← take .visitor
        let _ ← use v (Obj.onAll fun o => Vs.setTimeRange o (Js.toUint64 (Tm.timeBounds clock a.time).1) (Js.toUint64 (Tm.timeBounds clock a.time).2))
        let _ ← use v (Obj.onAll (Vs.compile H a.filters))
        give v
        pure .panic
      | some d => do
        let out ← trim H a.filters (Tm.timeBounds clock a.time) d
        match out with
        | none => pure .panic
        | some out => pure (.data (some out))
  | r => pure r

end Verif.Pl
