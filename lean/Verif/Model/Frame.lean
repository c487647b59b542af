import Verif.Model.Bitmap
import Verif.Model.Time
import Verif.Model.Otlp
import Verif.Model.Labels
/-!
# internal/dataframe/dataframe.go: the payloads of samples, one table per view

The table of a view and its three id sets are values of four keys that are always written in one badger transaction, so
they are one record here. arrow3/parquet is modelled as a faithful list of rows: writing and reading back gives the same
payloads, and reading only the columns of one signal gives that signal's part of the payload.
-/
namespace Verif.Df
open Tm

/-- What is stored under the keys `view`, `sets_metrics_`+view, `sets_traces_`+view, `sets_logs_`+view. -/
structure VRec where
  rows : List Data
  metrics : Bm
  traces : Bm
  logs : Bm
deriving Repr, DecidableEq

/-- The part of badger the data frame uses. -/
abbrev Frame := Bytes → Option VRec

/-- dataframe.go:223-229: the rows already there (none without a record). -/
structure AppendState where
  recd : VRec
  /-- `lastId` -/
  last : Nat
deriving Repr, DecidableEq

/-- dataframe.go:180-189 `setSample`. -/
def setSample (r : VRec) (s : Sample) : VRec :=
  match s.data with
  | .metrics _ => { r with metrics := r.metrics.add s.id }
  | .traces _ => { r with traces := r.traces.add s.id }
  | .logs _ => { r with logs := r.logs.add s.id }
  | .none => r

/-- dataframe.go:231-240: one turn of the loop over the samples. The filler loop runs `i` from `lastId+1` to `s.Id - 1`. -/
def appendOne (st : AppendState) (s : Sample) : AppendState :=
  let r := setSample st.recd s
  { recd := { r with rows := r.rows ++ List.replicate (s.id - (st.last + 1)) Data.none ++ [s.data] }, last := s.id }

/-- dataframe.go:194-222: the record that is read at the start of the transaction. Without one, `lastId` is 0; with one it
is the number of rows minus 1 (a record has at least one row; `uint64` wrap for an empty one is not modelled). -/
def startState : Option VRec → AppendState
  | none => { recd := { rows := [], metrics := [], traces := [], logs := [] }, last := 0 }
  | some r => { recd := r, last := r.rows.length - 1 }

/-- dataframe.go:164-258 `appendView`, committed. -/
def appendView (f : Frame) (view : Bytes) (ss : List Sample) : Frame :=
  fun v => if v = view then some (ss.foldl appendOne (startState (f view))).recd else f v

/-- dataframe.go:144-153: samples grouped by view. `none`: a time could not be turned into views. -/
def groupViews : List Sample → AMap Bytes (List Sample) → Option (AMap Bytes (List Sample))
  | [], m => some m
  | s :: ss, m =>
    match sampleViews s.minTs with
    | none => none
    | some vs => groupViews ss (vs.foldl (fun m x => m.set x ((m.get x).getD [] ++ [s])) m)

/-- dataframe.go:155-161: views are appended in map order, each in its own transaction; the first `n` transactions commit and
the next one fails (or the process dies); `true` if all committed. -/
def appendViews (f : Frame) (m : AMap Bytes (List Sample)) (n : Nat) : Frame × Bool :=
  ((m.take n).foldl (fun f e => appendView f e.1 e.2) f, decide (m.length ≤ n))

/-- dataframe.go:82-91: the id set of a signal. (An unknown signal reads the key `view` itself as set; not modelled.) -/
def VRec.set (r : VRec) (kind : Int) : Bm :=
  if kind = Res.metrics then r.metrics else if kind = Res.traces then r.traces else if kind = Res.logs then r.logs else []

/-- Reading only the columns of one signal, columns.go:41-62. -/
def project (kind : Int) : Data → Data
  | .metrics rs => if kind = Res.metrics then .metrics rs else .none
  | .traces rs => if kind = Res.traces then .traces rs else .none
  | .logs rs => if kind = Res.logs then .logs rs else .none
  | .none => .none

/-- Result of reading: payloads with the row they were read from, an error, or an access to a row that does not exist (what
arrow then does, a panic or garbage, is not modelled). -/
inductive Read where
  | ok (l : List (Nat × Data))
  | err
  | outOfRange
deriving Repr, DecidableEq

/-- dataframe.go:75-79 `readRows`: `Proto` on the given rows. -/
def readRows (kind : Int) (rows : List Data) : List Nat → Read
  | [] => .ok []
  | i :: is =>
    match rows[i]? with
    | none => .outOfRange
    | some d =>
      match readRows kind rows is with
      | .ok l => .ok ((i, project kind d) :: l)
      | e => e

/-- dataframe.go:101-138 `read` with the function of `Unmarshal` (60-68). `fault`: reading this view fails. -/
def readView (f : Frame) (fault : Bytes → Bool) (kind : Int) (wanted : Bm) (v : Bytes) : Read :=
  if fault v then .err
  else match f v with
    | none => .ok []
    | some r => if (r.set kind).and wanted = [] then .ok [] else readRows kind r.rows ((r.set kind).and wanted)

/-- dataframe.go:56-73, 81-99 `Unmarshal`, `View` over the views of the time range. -/
def unmarshal (f : Frame) (fault : Bytes → Bool) (kind : Int) (wanted : Bm) : List Bytes → Read
  | [] => .ok []
  | v :: vs =>
    match readView f fault kind wanted v with
    | .ok l =>
      match unmarshal f fault kind wanted vs with
      | .ok l' => .ok (l ++ l')
      | e => e
    | e => e

/-- Calls of `Append`: the samples, the iteration order of the map of views, and how many transactions commit. -/
structure Call where
  samples : List Sample
  order : AMap Bytes (List Sample)
  commits : Nat
deriving Repr

/-- One call. -/
def step (f : Frame) (c : Call) : Frame := (appendViews f c.order c.commits).1

/-- Any history of calls on an empty database. -/
def run (cs : List Call) : Frame := cs.foldl step (fun _ => none)

end Verif.Df
