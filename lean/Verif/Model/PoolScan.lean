import Verif.Model.Pool
/-!
# A scan, with every object it takes from a pool and puts back
-/
namespace Verif.Pl
open St (Filter Scan Env Result)

/-- What a scan or a flush asks the databases. -/
inductive Ask where
  /-- translate.go:122-135 `Find` -/
  | find (key : Bytes)
  /-- shards.go:120-131: the open database of a shard, a transaction on it -/
  | shard (k : Nat)
  /-- shards.go:138-141: the rows that have all these columns, in a view -/
  | rows (k : Nat) (view : Bytes) (cols : List Nat)
  /-- dataframe.go:103: the table of a view -/
  | view (v : Bytes)
  /-- dataframe.go:112-116: the ids of a signal in a view -/
  | ids (kind : Int) (v : Bytes)
  /-- dataframe.go:127-135: the contents of the table -/
  | table (v : Bytes)
  /-- translate.go:76-108 `TranslateKey` -/
  | translate (key : Bytes)
  /-- dataframe.go:251-256 and the commit: the table and the ids of a view are written -/
  | write (v : Bytes) (r : Df.VRec)
  /-- shards.go:56-72: bits are added to the bitmaps of a shard -/
  | index (k : Nat) (ws : List (Bytes × Bm))
deriving DecidableEq, Repr

/-- What is answered. -/
inductive Ans where
  | missing
  | failed
  | found
  | id (n : Nat)
  | bits (b : Bm)
  | table (rows : List Data)
deriving Repr, Inhabited

abbrev P (α : Type) := Prog Ask Ans α

/-- The bits of a bitmap. -/
def Obj.bits : Obj → Bm
  | .bitmap _ b => b
  | _ => []
/-- A change of the bits of a bitmap. -/
def Obj.onBits (f : Bm → Bm) : Obj → Obj
  | .bitmap k b => .bitmap k (f b)
  | o => o
/-- The bytes `Encode` returns. -/
def Obj.buf : Obj → Bytes
  | .label _ b => b
  | _ => []
/-- labels.go:42-61: `Reset`, the `With…` functions that set the fields of `g`, `Encode`. -/
def Obj.encode (g : Label → Label) : Obj → Obj
  | .label l _ => .label (g l.reset) (g l.reset).encode
  | o => o

/-- scan.go:98-101, 113-117: the fields that are set for a filter. -/
def fields (scope : Int) : Filter → Option (Label → Label)
  | .base prop value => some fun l => { l with pfx := prop, key := value, resource := scope }
  | .attr prop key value => some fun l => { l with pfx := prop, key := key, value := value, resource := scope }
  | .unset => none

/-- scan.go:95-130: the loop over the filters; `lbl` the label, `r` the bitmap. False: an error. -/
def filterLoop (scope : Int) (lbl r : Nat) : List Filter → P Bool
  | [] => pure true
  | f :: fs =>
    match fields scope f with
    | none => filterLoop scope lbl r fs
    | some g => do
      let l ← use lbl (Obj.encode g)
      let a ← ask (.find l.buf)
      match a with
      | .id n => do
        let _ ← use r (Obj.onBits fun b => b.add n)
        filterLoop scope lbl r fs
      | .missing => do
        let _ ← use r (Obj.onBits fun _ => [])
        pure true
      | _ => pure false

/-- scan.go:76-130: the columns to look for, into the bitmap `r`. -/
def columnsOf (sc : Scan) (lbl r : Nat) : P Bool :=
  if sc.filters = [] then do
    let l ← use lbl (Obj.encode fun l => { l with resource := sc.scope, pfx := Pfx.unknown })
    let a ← ask (.find l.buf)
    match a with
    | .id n => do
      let _ ← use r (Obj.onBits fun b => b.add n)
      pure true
    | .missing => pure true
    | _ => pure false
  else filterLoop sc.scope lbl r sc.filters

/-- scan.go:72-131 `CompileFilters`. -/
def compileFilters (sc : Scan) (r : Nat) : P Bool := do
  let lbl ← take .label
  let ok ← columnsOf sc lbl r
  give lbl
  pure ok

/-- shards.go:137-148: all views of one shard, into the bitmap `b`. False: an error. -/
def viewLoop (k : Nat) (cols : List Nat) (b : Nat) : List Bytes → P Bool
  | [] => pure true
  | v :: vs => do
    let a ← ask (.rows k v cols)
    match a with
    | .bits x => do
      let _ ← use b (Obj.onBits fun y => y.or x)
      viewLoop k cols b vs
    | _ => pure false

/-- shards.go:149-163: the rows of one shard, in `b`, are combined with the result so far, and `b` is put back. True: no need to go on. -/
def mergeShard (b : Nat) (r : Option Nat) : P (Bool × Option Nat) := do
  let x ← look b
  if x.bits = [] then do
    give b
    pure (false, r)
  else
    match r with
    | none => do
      let c ← take .bitmap
      let _ ← use c (Obj.onBits fun y => y.or x.bits)
      give b
      pure (false, some c)
    | some c => do
      let y ← look c
      let z ← use c (Obj.onBits fun y => y.and x.bits)
      give b
      pure (decide (z.bits = [] ∧ y.bits ≠ []), some c)

/-- shards.go:113-166 `rows`; `r` the result so far (none: nil). The outer `none`: an error. Where an error is returned, the bitmaps are not put back. -/
def rowsLoop (views : List Bytes) : AMap Nat (List Nat) → Option Nat → P (Option (Option Nat))
  | [], r => pure (some r)
  | (k, f) :: rest, r => do
    let a ← ask (.shard k)
    match a with
    | .failed => pure none
    | .missing =>
      match r with
      | none => pure (some none)
      | some c => do
        let _ ← use c (Obj.onBits fun _ => [])
        pure (some (some c))
    | _ => do
      let b ← take .bitmap
      let ok ← viewLoop k f b views
      if ok then do
        let m ← mergeShard b r
        if m.1 then pure (some m.2) else rowsLoop views rest m.2
      else pure none

/-- dataframe.go:127-136 with the function of `Unmarshal` (60-68) and `readRows` (75-79): the rows `x` of the table. -/
def readTable (kind : Int) (v : Bytes) (x : Bm) : P Df.Read := do
  let g ← take .schema
  let a ← ask (.table v)
  match a with
  | .table rows => do
    let g' ← take .schema
    give g'
    give g
    pure (Df.readRows kind rows x)
  | _ => do
    give g
    pure .err

/-- dataframe.go:112-136: `b` the bitmap that was taken, `ids` that of the wanted rows. -/
def readSet (kind : Int) (ids : Nat) (v : Bytes) (b : Nat) : P Df.Read := do
  let a ← ask (.ids kind v)
  match a with
  | .bits s => do
    let _ ← use b (Obj.onBits fun _ => s)
    let w ← look ids
    let x ← use b (Obj.onBits fun y => y.and w.bits)
    if x.bits = [] then pure (.ok []) else readTable kind v x.bits
  | _ => pure .err

/-- dataframe.go:101-138 `read`. -/
def readView (kind : Int) (ids : Nat) (v : Bytes) : P Df.Read := do
  let a ← ask (.view v)
  match a with
  | .missing => pure (.ok [])
  | .failed => pure .err
  | _ => do
    let b ← take .bitmap
    let r ← readSet kind ids v b
    give b
    pure r

/-- dataframe.go:56-73, 81-99 `Unmarshal`, `View`. -/
def unmarshal (kind : Int) (ids : Nat) : List Bytes → P Df.Read
  | [] => pure (.ok [])
  | v :: vs => do
    let r ← readView kind ids v
    match r with
    | .ok l => do
      let r' ← unmarshal kind ids vs
      match r' with
      | .ok l' => pure (.ok (l ++ l'))
      | e => pure e
    | e => pure e

/-- The sorter as the state of Model/Collapse.lean. -/
def Obj.st {α : Type} : Obj → Dt.St α
  | .sorter _ s => { out := [], resource := s.resource, order := s.order, scope := s.scope, metrics := s.metrics }
  | _ => {}
/-- What the loops leave in the sorter. -/
def Obj.withSt {α : Type} (st : Dt.St α) : Obj → Obj
  | .sorter g s => .sorter g { s with resource := st.resource, order := st.order, scope := st.scope, metrics := st.metrics }
  | o => o
/-- sort.go:95-105 `Sort`: appends to `rs` and `id`. -/
def Obj.sort (perm : AMap Nat Nat → AMap Nat Nat) : Obj → Obj
  | .sorter g s => .sorter g { s with rs := s.rs ++ perm s.order, id := s.id ++ List.range s.order.length }
  | o => o
def Obj.rs : Obj → AMap Nat Nat
  | .sorter _ s => s.rs
  | _ => []

/-- metrics.go:9-76, logs.go:9-44, trace.go:9-44. `none`: a panic (the deferred `Release` runs). -/
def collapseG {α : Type} (signal : Int) (H : Dt.Par) (o : Dt.Ops α) (perm : AMap Nat Nat → AMap Nat Nat) (ds : List (Option (List (ResourceG α)))) : P (Option (List (ResourceG α))) := do
  let xm ← take (.sorter signal)
  match ds.mapM id with
  | none => do
    give xm
    pure none
  | some l => do
    let s ← look xm
    match Dt.addAll H o l.flatten s.st with
    | none => do
      give xm
      pure none
    | some st => do
      let _ ← use xm (Obj.withSt st)
      let s ← use xm (Obj.sort perm)
      let out := Dt.result st s.rs
      give xm
      pure (some out)

/-- data.go:23-52 `Collapse`. -/
def collapse (H : Dt.Par) (perm : AMap Nat Nat → AMap Nat Nat) (ts : List Data) : P (Option (Option Data)) :=
  match ts with
  | [] => pure (some none)
  | [d] => pure (some (some d))
  | d :: _ =>
    match d with
    | .metrics _ => do
      let r ← collapseG Res.metrics H (Dt.metricOps H) perm (ts.map Dt.Data.metrics?)
      pure (r.map fun r => some (.metrics r))
    | .logs _ => do
      let r ← collapseG Res.logs H (Dt.plainOps LogRecord) perm (ts.map Dt.Data.logs?)
      pure (r.map fun r => some (.logs r))
    | .traces _ => do
      let r ← collapseG Res.traces H (Dt.plainOps Span) perm (ts.map Dt.Data.traces?)
      pure (r.map fun r => some (.traces r))
    | .none => pure (some none)

/-- scan.go:58-69. -/
def readSamples (E : Env) (sc : Scan) (ids : Nat) : P Result :=
  if sc.scope = Res.metrics ∨ sc.scope = Res.logs ∨ sc.scope = Res.traces then do
    let r ← unmarshal sc.scope ids (E.views sc)
    match r with
    | .outOfRange => pure .undefined
    | .err => pure (.data none)
    | .ok l => do
      let r ← collapse E.P E.resOrder (l.map (·.2))
      match r with
      | none => pure .panic
      | some d => pure (.data d)
  else pure .err

/-- scan.go:52-57. -/
def choose (sc : Scan) (ids : Nat) : P Obj :=
  match sc.time.range with
  | some _ => look ids
  | none => use ids (Obj.onBits fun b => match b.getLast? with | some i => [i] | none => [])

/-- scan.go:49-69: the rest of a scan that has found samples. -/
def scanSamples (E : Env) (sc : Scan) (samples : Nat) : P Result := do
  let s ← look samples
  if s.bits = [] then pure (.data (Dt.zero sc.scope))
  else do
    let _ ← choose sc samples
    readSamples E sc samples

/-- scan.go:37-69: the rest of a scan whose filters are compiled. -/
def scanColumns (E : Env) (sc : Scan) (columns : Nat) : P Result := do
  let c ← look columns
  if c.bits = [] then pure (.data (Dt.zero sc.scope))
  else do
    let r ← rowsLoop (E.views sc) (E.colOrder (Sh.groupCols c.bits)) none
    match r with
    | none => pure .err
    | some none => pure (.data (Dt.zero sc.scope))
    | some (some samples) => do
      let res ← scanSamples E sc samples
      give samples
      pure res

/-- scan.go:33-69. -/
def scanBody (E : Env) (sc : Scan) (columns : Nat) : P Result := do
  let ok ← compileFilters sc columns
  if ok then scanColumns E sc columns else pure .err

/-- scan.go:20-70 `Scan`. The sample key is taken and put back without being used. -/
def scan (E : Env) (sc : Scan) : P Result := do
  let key ← take .key
  let columns ← take .bitmap
  let res ← scanBody E sc columns
  give columns
  give key
  pure res

end Verif.Pl
