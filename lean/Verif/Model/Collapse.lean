import Verif.Model.Bitmap
import Verif.Model.Otlp
import Verif.Model.Labels
import Mathlib.Data.List.Sort
/-!
# internal/data: merging the payloads of a scan

`Sorter` registers resources, scopes and metrics by hash in maps of pointers. Pointers are positions: a resource is its
index in `out` (resources in the order in which they were registered), a scope an index pair, a metric an index triple.
xxhash and the protobuf encoding of attributes are arbitrary functions. Payloads passed in are distinct objects (a scan
decodes each one afresh), so merging into one does not change another.
-/
namespace Verif.Dt

/-- The external functions: xxhash and the wire encoding of one attribute. -/
structure Par where
  H : Bytes → Nat
  marshal : KeyValue → Bytes

/-- sort.go:58-65 `hashResource` (with `attr`, 114-119). -/
def hashResource (P : Par) (schema : Bytes) (r : Option Resource) : Nat :=
  P.H (schema ++ match r with | none => [] | some r => r.attrs.flatMap P.marshal)

/-- sort.go:67-79 `hashScope` (with `hashNum`, 52-56). -/
def hashScope (P : Par) (rh : Nat) (schema : Bytes) (s : Option InstrScope) : Nat :=
  P.H (u64tob rh ++ schema ++ match s with | none => [] | some s => s.name ++ s.version ++ s.attrs.flatMap P.marshal)

/-- sort.go:45-50 `hashMetrics`. -/
def hashMetric (P : Par) (sh : Nat) (name : Bytes) : Nat := P.H (u64tob sh ++ name)

/-- sort.go:14-23 `Sorter`, together with the registered resources. -/
structure St (α : Type) where
  out : List (ResourceG α) := []
  resource : AMap Nat Nat := []
  order : AMap Nat Nat := []
  scope : AMap Nat (Nat × Nat) := []
  metrics : AMap Nat (Nat × Nat × Nat) := []

/-- `resource.Scope… = append(…)` and `scope.… = append(…)` through the pointers of the maps. -/
def modScope {α : Type} (out : List (ResourceG α)) (l : Nat × Nat) (f : ScopeG α → ScopeG α) : List (ResourceG α) :=
  out.modify l.1 fun r => { r with scopes := r.scopes.modify l.2 f }

/-- What differs between the three signals. `reg` registers the items of a scope that is taken over whole, `add` adds items
to a scope that is already there (`none`: panic). -/
structure Ops (α : Type) where
  reg : Nat → Nat × Nat → List α → AMap Nat (Nat × Nat × Nat) → AMap Nat (Nat × Nat × Nat)
  add : Nat → Nat × Nat → List α → St α → Option (St α)

/-- logs.go:24-27, trace.go:24-27 (nothing to register), logs.go:38, trace.go:38 (append the records). -/
def plainOps (α : Type) : Ops α where
  reg := fun _ _ _ m => m
  add := fun _ l xs st => some { st with out := modScope st.out l fun s => { s with items := s.items ++ xs } }

/-- metrics.go:27-30, 40-43: the metrics of a scope, with their positions. -/
def regMetrics (P : Par) (sh : Nat) (l : Nat × Nat) : Nat → List Metric → AMap Nat (Nat × Nat × Nat) → AMap Nat (Nat × Nat × Nat)
  | _, [], m => m
  | k, x :: xs, m => regMetrics P sh l (k + 1) xs (m.set (hashMetric P sh x.name) (l.1, l.2, k))

/-- metrics.go:54-69: append the points of `m` to the registered metric `om`. Writing through the nil result of a getter of
another kind panics (`none`). -/
def mergeMetric (om m : Metric) : Option Metric :=
  match m.data with
  | none => some om
  | some d =>
    match om.data with
    | none => none
    | some od => if od.kind = d.kind then some { om with data := some { od with points := od.points ++ d.points } } else none

/-- The metric at a position. -/
def getMetric (out : List (ResourceG Metric)) (p : Nat × Nat × Nat) : Option Metric :=
  match out[p.1]? with
  | none => none
  | some r =>
    match r.scopes[p.2.1]? with
    | none => none
    | some s => s.items[p.2.2]?

/-- metrics.go:46-70: the metrics of a scope that is already registered. -/
def addMetrics (P : Par) (sh : Nat) (l : Nat × Nat) : List Metric → St Metric → Option (St Metric)
  | [], st => some st
  | m :: ms, st =>
    match st.metrics.get (hashMetric P sh m.name) with
    | none =>
      let k := match (st.out[l.1]?.bind fun r => r.scopes[l.2]?) with
        | none => 0
        | some s => s.items.length
      addMetrics P sh l ms { st with
        out := modScope st.out l fun s => { s with items := s.items ++ [m] }
        metrics := st.metrics.set (hashMetric P sh m.name) (l.1, l.2, k) }
    | some p =>
      match getMetric st.out p with
      | none => none
      | some om =>
        match mergeMetric om m with
        | none => none
        | some om' =>
          addMetrics P sh l ms { st with
            out := modScope st.out (p.1, p.2.1) fun s => { s with items := s.items.set p.2.2 om' } }

def metricOps (P : Par) : Ops Metric where
  reg := fun sh l xs m => regMetrics P sh l 0 xs m
  add := fun sh l xs st => addMetrics P sh l xs st

variable {α : Type}

/-- metrics.go:24-31, logs.go:24-27, trace.go:24-27: the scopes of a resource seen for the first time. -/
def regScopes (P : Par) (o : Ops α) (rh i : Nat) : Nat → List (ScopeG α) → St α → St α
  | _, [], st => st
  | j, sm :: rest, st =>
    let sh := hashScope P rh sm.schema sm.scope
    regScopes P o rh i (j + 1) rest
      { st with scope := st.scope.set sh (i, j), metrics := o.reg sh (i, j) sm.items st.metrics }

/-- metrics.go:34-71, logs.go:30-39, trace.go:30-39: the scopes of a resource seen before. -/
def addScopes (P : Par) (o : Ops α) (rh i : Nat) : List (ScopeG α) → St α → Option (St α)
  | [], st => some st
  | sm :: rest, st =>
    let sh := hashScope P rh sm.schema sm.scope
    match st.scope.get sh with
    | none =>
      let j := match st.out[i]? with
        | none => 0
        | some r => r.scopes.length
      addScopes P o rh i rest { st with
        out := st.out.modify i fun r => { r with scopes := r.scopes ++ [sm] }
        scope := st.scope.set sh (i, j)
        metrics := o.reg sh (i, j) sm.items st.metrics }
    | some l =>
      match o.add sh l sm.items st with
      | none => none
      | some st => addScopes P o rh i rest st

/-- metrics.go:14-72, logs.go:14-40, trace.go:14-40: one resource. -/
def addResource (P : Par) (o : Ops α) (rm : ResourceG α) (st : St α) : Option (St α) :=
  let rh := hashResource P rm.schema rm.resource
  match st.resource.get rh with
  | none =>
    let i := st.out.length
    some (regScopes P o rh i 0 rm.scopes
      { st with out := st.out ++ [rm], resource := st.resource.set rh i, order := st.order.set rh (i + 1) })
  | some i => addScopes P o rh i rm.scopes st

/-- All resources of all payloads, in order. -/
def addAll (P : Par) (o : Ops α) : List (ResourceG α) → St α → Option (St α)
  | [], st => some st
  | rm :: rest, st =>
    match addResource P o rm st with
    | none => none
    | some st => addAll P o rest st

/-- sort.go:95-105 `Sort` (with `Less`, 106-108), 85-93 `Result`: the hashes of the map `order`, in its iteration order `rs`, sorted by their number (the numbers differ, so the
sorting algorithm does not matter); then
the resources with those hashes. -/
def result (st : St α) (rs : AMap Nat Nat) : List (ResourceG α) :=
  (rs.insertionSort fun a b => a.2 ≤ b.2).filterMap fun e => (st.resource.get e.1).bind fun i => st.out[i]?

/-- metrics.go:9-76, logs.go:9-44, trace.go:9-44. A nil payload (another signal) panics: `none`. `perm` is the iteration order
of the map `order`. -/
def collapseG (P : Par) (o : Ops α) (perm : AMap Nat Nat → AMap Nat Nat) (ds : List (Option (List (ResourceG α)))) :
    Option (List (ResourceG α)) :=
  match ds.mapM id with
  | none => none
  | some l => (addAll P o l.flatten {}).map fun st => result st (perm st.order)

def Data.metrics? : Data → Option (List (ResourceG Metric))
  | .metrics rs => some rs
  | _ => none
def Data.logs? : Data → Option (List (ResourceG LogRecord))
  | .logs rs => some rs
  | _ => none
def Data.traces? : Data → Option (List (ResourceG Span))
  | .traces rs => some rs
  | _ => none

/-- data.go:23-52 `Collapse`: `none` is a panic, `some none` a nil result. -/
def collapse (P : Par) (perm : AMap Nat Nat → AMap Nat Nat) (ts : List Data) : Option (Option Data) :=
  match ts with
  | [] => some none
  | [d] => some (some d)
  | d :: _ =>
    match d with
    | .metrics _ => (collapseG P (metricOps P) perm (ts.map Data.metrics?)).map fun r => some (.metrics r)
    | .logs _ => (collapseG P (plainOps LogRecord) perm (ts.map Data.logs?)).map fun r => some (.logs r)
    | .traces _ => (collapseG P (plainOps Span) perm (ts.map Data.traces?)).map fun r => some (.traces r)
    | .none => some none

/-- data.go:10-21 `Zero`. -/
def zero (kind : Int) : Option Data :=
  if kind = Res.metrics then some (.metrics [])
  else if kind = Res.logs then some (.logs [])
  else if kind = Res.traces then some (.traces [])
  else none

end Verif.Dt
