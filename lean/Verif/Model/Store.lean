import Verif.Model.Transform
import Verif.Model.Frame
import Verif.Model.Shards
import Verif.Model.Collapse
import Verif.Spec.Dict
/-!
# internal/store: flushing samples and scanning

The store is the transform context (with the dictionary state), the data frame and the index shards. The dictionary is a
parameter `D` (met by the translator of the code, see Props/RealDict.lean). Map iteration orders, the position of faults,
the clock, xxhash and the list of views of a time range (github.com/gernest/rbf/quantum `ViewsByTimeRange`) are
parameters.
-/
namespace Verif.St
open Tm Tf
open Bt (Frags)

/-- store.go:20-29 `Storage`. -/
structure Store (σ : Type) where
  ctx : Ctx σ
  frame : Df.Frame
  idx : Sh.Store

/-- store.go:35-56 `NewStore` on an existing database and dictionary. -/
def Store.start {σ : Type} (st : σ) (frame : Df.Frame) (disk : Frags) : Store σ :=
  { ctx := { st := st }, frame := frame, idx := Sh.Store.new disk }

/-- One call of `SaveSamples`: the samples, the iteration orders of the maps of views, shards and bitmaps, and how many
store transactions commit before one fails or the process dies (one per view of the data frame, then one per shard). -/
structure Flush where
  samples : List Sample
  viewOrder : AMap Bytes (List Sample) → AMap Bytes (List Sample) := id
  shardOrder : Frags → Frags := id
  bitsOrder : AMap Bytes Bm → AMap Bytes Bm := id
  commits : Nat

/-- store.go:87-101: one transaction per shard. -/
def indexLoop (bitsOrder : AMap Bytes Bm → AMap Bytes Bm) : Frags → Nat → Sh.Store → Sh.Store × Bool
  | [], _, s => (s, true)
  | (k, vs) :: _, 0, s => (s.update k (bitsOrder vs) false, false)
  | (k, vs) :: rest, n + 1, s => indexLoop bitsOrder rest n (s.update k (bitsOrder vs) true)

/-- How a call ends. `exit`: the process exits because a label could not be translated (store.go:65). -/
inductive Outcome where
  | ok | err | exit
deriving DecidableEq, Repr

variable {σ : Type}

/-- store.go:78-103 `SaveSamples`. After an error nothing is undone. -/
def saveSamples (D : Dict σ) (s : Store σ) (fl : Flush) : Store σ × Outcome :=
  match processSamples D.tr fl.samples s.ctx with
  | none => (s, .exit)
  | some (ctx, _, none) => ({ s with ctx := ctx }, .err)
  | some (ctx, ss, some f) =>
    match Df.groupViews ss [] with
    | none => ({ s with ctx := ctx }, .err)
    | some m =>
      let a := Df.appendViews s.frame (fl.viewOrder m) fl.commits
      if a.2 then
        let i := indexLoop fl.bitsOrder (fl.shardOrder f) (fl.commits - (fl.viewOrder m).length) s.idx
        ({ ctx := ctx, frame := a.1, idx := i.1 }, if i.2 then .ok else .err)
      else ({ s with ctx := ctx, frame := a.1 }, .err)

/-- proto/rq/v1/scan.proto `Filter`; `unset`: the oneof is empty. -/
inductive Filter where
  | base (prop : Int) (value : Bytes)
  | attr (prop : Int) (key value : Bytes)
  | unset
deriving DecidableEq, Repr

/-- proto/rq/v1/scan.proto `Scan`. -/
structure Scan where
  scope : Int
  filters : List Filter := []
  time : ScanTime := {}
  limit : Nat := 0
  reverse : Bool := false

/-- The surroundings of a scan: faults, clock, map orders, external functions. -/
structure Env where
  clock : Int
  vbr : Int → Int → TUnit → List Bytes
  P : Dt.Par
  colOrder : AMap Nat (List Nat) → AMap Nat (List Nat) := id
  resOrder : AMap Nat Nat → AMap Nat Nat := id
  /-- looking up this key in the dictionary fails (other than by not finding it) -/
  findFault : Bytes → Bool := fun _ => false
  /-- reading the index fails -/
  rowsFault : Bool := false
  /-- reading this view of the data frame fails -/
  frameFault : Bytes → Bool := fun _ => false

/-- The label a filter asks for, scan.go:98-101, 113-117. -/
def Filter.label (scope : Int) : Filter → Option Label
  | .base prop value => some { resource := scope, pfx := prop, key := value }
  | .attr prop key value => some { resource := scope, pfx := prop, key := key, value := value }
  | .unset => none

/-- translate.go:122-135 `Find` as used by `CompileFilters`. -/
inductive Found where
  | col (n : Nat)
  | notFound
  | fault

def find (D : Dict σ) (st : σ) (E : Env) (l : Label) : Found :=
  if E.findFault l.encode then .fault
  else match D.look st l.encode with
    | none => .notFound
    | some n => .col n

/-- scan.go:95-130: the loop over the filters; `none` is an error. -/
def filterLoop (D : Dict σ) (st : σ) (E : Env) (scope : Int) : List Filter → Bm → Option Bm
  | [], r => some r
  | f :: fs, r =>
    match f.label scope with
    | none => filterLoop D st E scope fs r
    | some l =>
      match find D st E l with
      | .fault => none
      | .notFound => some []
      | .col n => filterLoop D st E scope fs (r.add n)

/-- scan.go:72-131 `CompileFilters` into an empty bitmap. -/
def compileFilters (D : Dict σ) (st : σ) (E : Env) (sc : Scan) : Option Bm :=
  if sc.filters = [] then
    match find D st E { resource := sc.scope } with
    | .fault => none
    | .notFound => some []
    | .col n => some [n]
  else filterLoop D st E sc.scope sc.filters []

/-- Result of a scan: a payload (possibly nil), an error, a panic, or a read outside of a stored table (what arrow then does is
not modelled). -/
inductive Result where
  | data (d : Option Data)
  | err
  | panic
  | undefined
deriving DecidableEq

/-- The views a scan reads, shards.go:107-109, dataframe.go:82. -/
def Env.views (E : Env) (sc : Scan) : List Bytes :=
  let b := timeBounds E.clock sc.time
  E.vbr b.1 b.2 (chooseQuantum (timeSub b.2 b.1))

/-- scan.go:58-69: read the payloads of the chosen samples and merge them. The error of the read is dropped. -/
def readSamples (s : Store σ) (E : Env) (sc : Scan) (ids : Bm) : Result :=
  if sc.scope = Res.metrics ∨ sc.scope = Res.logs ∨ sc.scope = Res.traces then
    match Df.unmarshal s.frame E.frameFault sc.scope ids (E.views sc) with
    | .outOfRange => .undefined
    | .err => .data none
    | .ok l =>
      match Dt.collapse E.P E.resOrder (l.map (·.2)) with
      | none => .panic
      | some d => .data d
  else .err

/-- scan.go:52-57: an instant scan keeps the highest id. -/
def chosen (sc : Scan) (ids : Bm) : Bm :=
  match sc.time.range with
  | some _ => ids
  | none => match ids.getLast? with | some i => [i] | none => []

/-- scan.go:20-70 `Scan`. -/
def scan (D : Dict σ) (s : Store σ) (E : Env) (sc : Scan) : Result :=
  match compileFilters D s.ctx.st E sc with
  | none => .err
  | some cols =>
    if cols = [] then .data (Dt.zero sc.scope)
    else if E.rowsFault then .err
    else match s.idx.rows (E.views sc) (E.colOrder (Sh.groupCols cols)) with
      | none => .data (Dt.zero sc.scope)
      | some ids => if ids = [] then .data (Dt.zero sc.scope) else readSamples s E sc (chosen sc ids)

/-- translate.go:52-74 over the dictionary: stops at the first id without a key. -/
def bulk (D : Dict σ) (st : σ) : List Nat → List Bytes × Bool
  | [] => ([], true)
  | id :: rest =>
    match D.keyOf st id with
    | none => ([], false)
    | some k => (k :: (bulk D st rest).1, (bulk D st rest).2)

/-- scan.go:151-163 `Labels`; `order` is the iteration order of the opened shards. -/
def labels (D : Dict σ) (s : Store σ) (view : Bytes) (sample : Nat) (order : List Nat) : List Bytes × Bool :=
  bulk D s.ctx.st (s.idx.rowColumns view sample order)

/-- What can happen to a store. `restart st`: the process ends, at any point outside of a flush or inside the translation of a
flush, and is started again; the dictionary is then in state `st`. -/
inductive Op (σ : Type) where
  | flush (fl : Flush)
  | restart (st : σ)

/-- One operation. A flush that exits leaves the store as it is (see `Op.restart`). -/
def step (D : Dict σ) (s : Store σ) : Op σ → Store σ
  | .flush fl => (saveSamples D s fl).1
  | .restart st => Store.start st s.frame s.idx.disk

/-- Any history of a store that starts with an empty directory. -/
def run (D : Dict σ) (st : σ) (ops : List (Op σ)) : Store σ :=
  ops.foldl (step D) (Store.start st (fun _ => none) [])

end Verif.St
