import Verif.Model.PoolScan
/-!
# A flush, with every object it takes from a pool and puts back

The arena of a view (dataframe.go:165) is the subject of Model/Arena.lean and is left out here, and so are the buffers of the translator: see Model/PoolTranslate.lean.
-/
namespace Verif.Pl
open Tm
open Bt (Frags)
open St (Flush Outcome)

/-- What a sample needs to have translated: the keys in order, the sample with its time bounds, the resource of the context afterwards. What the transformation does
(transform.go, metrics.go, logs.go, trace.go) does not depend on the columns it is given, so it is run here, as in Model/Transform.lean, with a translator that writes down what it is asked. -/
structure Wanted where
  keys : List Bytes
  sample : Sample
  resource : Int

def wanted (resource : Int) (s : Sample) : Option Wanted :=
  (Tf.processSample (fun (ks : List Bytes) k => some (ks ++ [k], 0)) s { st := [], resource := resource }).map fun x => ⟨x.1.st, x.2, x.1.resource⟩

/-- transform.go:151-158: translate, and add the column to the bitmap `pos`. False: the process exits (store.go:65). -/
def translateAll (pos : Nat) : List Bytes → P Bool
  | [] => pure true
  | k :: ks => do
    let a ← ask (.translate k)
    match a with
    | .id n => do
      let _ ← use pos (Obj.onBits fun b => b.add n)
      translateAll pos ks
    | _ => pure false

/-- The ten bytes of a quantized time. -/
def Obj.ymdh : Obj → Bytes
  | .qtime b => b
  | _ => []
/-- time.go:43-45 `Set`: `copy` into the array. -/
def Obj.setTime (ns : Int) : Obj → Obj
  | .qtime b => .qtime (Tm.ymdh ns ++ b.drop (Tm.ymdh ns).length)
  | o => o

/-- An element of the slices `ids`, `labels` and `times` of batch.go:21-26: the id, the bitmap, the quantized time. -/
structure Held where
  id : Nat
  labels : Nat
  q : Nat

/-- What the samples leave in the context: its resource, the samples with their time bounds, the batch. -/
structure Processed where
  resource : Int
  samples : List Sample
  entries : List Held

/-- batch.go:51-55 `addTs`: a quantized time. -/
def addTs (ns : Int) : P Nat := do
  let q ← take .qtime
  let _ ← use q (Obj.setTime ns)
  pure q

/-- transform.go:38-43 `ProcessSamples` with `processSample` (45-60), for all samples. The outer `none`: the process exits. -/
def processAll (resource : Int) : List Sample → P (Option Processed)
  | [] => pure (some ⟨resource, [], []⟩)
  | s :: ss =>
    match wanted resource s with
    | none => pure none
    | some w => do
      let pos ← take .bitmap
      let ok ← translateAll pos w.keys
      if ok then do
        let q ← addTs (toInt64 w.sample.minTs)
        let rest ← processAll w.resource ss
        match rest with
        | none => pure none
        | some p => pure (some ⟨p.resource, w.sample :: p.samples, ⟨s.id, pos, q⟩ :: p.entries⟩)
      else pure none

/-- batch.go:73-97 `makeFragments`. -/
def makeFragments : List Held → Frags → P (Option Frags)
  | [], f => pure (some f)
  | e :: es, f => do
    let ls ← look e.labels
    let q ← look e.q
    match viewsOf q.ymdh quantumYMDH with
    | none => pure none
    | some vs => makeFragments es (Bt.addCols e.id vs ls.bits f)

/-- batch.go:34-49 `Reset`: the quantized times are put back; the bitmaps are not, because the slice that holds them is emptied before the loop. -/
def releaseTimes : List Held → P Unit
  | [] => pure ()
  | e :: es => do
    give e.q
    releaseTimes es

/-- dataframe.go:144-153: samples grouped by view; `q` is one quantized time, set for each sample and never put back. -/
def groupViews (q : Nat) : List Sample → AMap Bytes (List Sample) → P (Option (AMap Bytes (List Sample)))
  | [], m => pure (some m)
  | s :: ss, m => do
    let t ← use q (Obj.setTime (toInt64 s.minTs))
    match viewsOf t.ymdh quantumYMDH with
    | none => pure none
    | some vs => groupViews q ss (vs.foldl (fun m x => m.set x ((m.get x).getD [] ++ [s])) m)

/-- dataframe.go:180-189 `setSample`, on the bitmap of the sample's signal. -/
def setSample (m l t : Nat) (s : Sample) : P Unit :=
  match s.data with
  | .metrics _ => do
    let _ ← use m (Obj.onBits fun b => b.add s.id)
    pure ()
  | .traces _ => do
    let _ ← use t (Obj.onBits fun b => b.add s.id)
    pure ()
  | .logs _ => do
    let _ ← use l (Obj.onBits fun b => b.add s.id)
    pure ()
  | .none => pure ()

/-- The rows a builder holds. -/
def Obj.rows : Obj → List Data
  | .schema r => r
  | _ => []
/-- `Append`, several times. -/
def Obj.append (rows : List Data) : Obj → Obj
  | .schema r => .schema (r ++ rows)
  | o => o
/-- `NewRecord`: the builder is empty afterwards. -/
def Obj.newRecord : Obj → Obj
  | .schema _ => .schema []
  | o => o

/-- dataframe.go:231-240: the loop over the samples. -/
def appendLoop (m l t g : Nat) : Nat → List Sample → P Unit
  | _, [] => pure ()
  | last, s :: ss => do
    setSample m l t s
    let _ ← use g (Obj.append (List.replicate (s.id - (last + 1)) Data.none ++ [s.data]))
    appendLoop m l t g s.id ss

/-- dataframe.go:241-256 with the commit: `r` the rows that were there. `NewRecord` (called in `WriteParquet` if there was no record) comes before all that can fail. -/
def writeView (v : Bytes) (m l t g : Nat) (r : List Data) : P Bool := do
  let b ← look g
  let _ ← use g Obj.newRecord
  let x ← look m
  let y ← look t
  let z ← look l
  let a ← ask (.write v { rows := r ++ b.rows, metrics := x.bits, traces := y.bits, logs := z.bits })
  match a with
  | .found => pure true
  | _ => pure false

/-- dataframe.go:209-221, 260-266: a set is read into a bitmap. -/
def loadSet (kind : Int) (v : Bytes) (b : Nat) : P Bool := do
  let a ← ask (.ids kind v)
  match a with
  | .bits s => do
    let _ ← use b (Obj.onBits fun _ => s)
    pure true
  | _ => pure false

/-- dataframe.go:194-222: the rows that are there (the inner `none`: there is no record). The outer `none`: an error. -/
def loadView (v : Bytes) (m l t : Nat) : P (Option (Option (List Data))) := do
  let a ← ask (.view v)
  match a with
  | .missing => pure (some none)
  | .failed => pure none
  | _ => do
    let a ← ask (.table v)
    match a with
    | .table rows => do
      let x ← loadSet Res.metrics v m
      if x then do
        let y ← loadSet Res.logs v l
        if y then do
          let z ← loadSet Res.traces v t
          if z then pure (some (some rows)) else pure none
        else pure none
      else pure none
    | _ => pure none

/-- dataframe.go:223-229 `lastId`. -/
def lastId : Option (List Data) → Nat
  | none => 0
  | some r => r.length - 1

/-- dataframe.go:191-256: the function of the transaction. -/
def updateView (v : Bytes) (ss : List Sample) (m l t g : Nat) : P Bool := do
  let r ← loadView v m l t
  match r with
  | none => pure false
  | some r => do
    appendLoop m l t g (lastId r) ss
    writeView v m l t g (r.getD [])

/-- dataframe.go:164-258 `appendView`. -/
def appendView (v : Bytes) (ss : List Sample) : P Bool := do
  let m ← take .bitmap
  let l ← take .bitmap
  let t ← take .bitmap
  let g ← take .schema
  let ok ← updateView v ss m l t g
  give g
  give m
  give l
  give t
  pure ok

/-- dataframe.go:155-161. -/
def appendViews : AMap Bytes (List Sample) → P Bool
  | [] => pure true
  | e :: es => do
    let ok ← appendView e.1 e.2
    if ok then appendViews es else pure false

/-- dataframe.go:140-162 `Append`; `order` the iteration order of the map of views. -/
def append (order : AMap Bytes (List Sample) → AMap Bytes (List Sample)) (ss : List Sample) : P Bool := do
  let q ← take .qtime
  let m ← groupViews q ss []
  match m with
  | none => pure false
  | some m => appendViews (order m)

/-- store.go:87-101: one transaction per shard. -/
def indexLoop (bitsOrder : AMap Bytes Bm → AMap Bytes Bm) : Frags → P Bool
  | [] => pure true
  | (k, vs) :: rest => do
    let a ← ask (.index k (bitsOrder vs))
    match a with
    | .found => indexLoop bitsOrder rest
    | _ => pure false

/-- store.go:84-101: what follows the transformation. -/
def saveAll (fl : Flush) (ss : List Sample) (f : Frags) : P Outcome := do
  let ok ← append fl.viewOrder ss
  if ok then do
    let ok ← indexLoop fl.bitsOrder (fl.shardOrder f)
    pure (if ok then .ok else .err)
  else pure .err

/-- store.go:78-103 `SaveSamples` of a context with an empty batch; `resource`: that of the context's label, left by the flush before. Returns it too. -/
def flush (resource : Int) (fl : Flush) : P (Outcome × Int) := do
  let p ← processAll resource fl.samples
  match p with
  | none => pure (.exit, resource)
  | some p => do
    let f ← makeFragments p.entries []
    match f with
    | none => pure (.err, p.resource)
    | some f => do
      releaseTimes p.entries
      let o ← saveAll fl p.samples f
      pure (o, p.resource)

end Verif.Pl
