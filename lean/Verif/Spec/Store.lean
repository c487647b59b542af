import Verif.Model.Store
import Verif.Spec.Views
import Verif.Spec.Otlp
import Verif.Lemmas.Transform
/-!
# What a store should answer

A history is a list of flushes and restarts. `offered` lists every sample ever handed to a flush, in order, with whether its
flush returned without an error.
-/
namespace Verif.St
open Tm Tf
variable {σ : Type}

/-- The iteration orders are orders of the maps, timestamps are `uint64`, ids fit in 44 bits (C45). -/
structure Flush.Fair (fl : Flush) : Prop where
  views : ∀ m, (fl.viewOrder m).Perm m
  shards : ∀ m, (fl.shardOrder m).Perm m
  bits : ∀ m, (fl.bitsOrder m).Perm m
  times : ∀ s ∈ fl.samples, ∀ a b, HasTime s.data a b → a < 2 ^ 64
  ids : ∀ s ∈ fl.samples, s.id < 2 ^ 44

/-- A history of the code: no flush ends the process in the translation (that is `restart`), and a restart finds a dictionary
with at least the entries of before. -/
def Valid (D : Dict σ) : Store σ → List (Op σ) → Prop
  | _, [] => True
  | s, .flush fl :: ops => fl.Fair ∧ (saveSamples D s fl).2 ≠ .exit ∧ Valid D (saveSamples D s fl).1 ops
  | s, .restart st :: ops =>
    D.Good st ∧ (∀ a n, D.look s.ctx.st a = some n → D.look st a = some n) ∧ Valid D (step D s (.restart st)) ops

/-- A sample handed to a flush. `res`: the resource in force when it was processed (see C20). `ok`: the flush succeeded. -/
structure Offered where
  res : Int
  sample : Sample
  ok : Bool

/-- The samples of one flush, with the resource in force before each of them. -/
def tag (ok : Bool) : Int → List Sample → List Offered
  | _, [] => []
  | r, s :: ss => ⟨r, s, ok⟩ :: tag ok (s.data.signal.getD r) ss

/-- All samples ever handed to a flush; `r` is the resource in force at first. -/
def offered (D : Dict σ) : Store σ → Int → List (Op σ) → List Offered
  | _, _, [] => []
  | s, r, .flush fl :: ops =>
    tag ((saveSamples D s fl).2 == .ok) r fl.samples ++
      offered D (saveSamples D s fl).1 (fl.samples.foldl (fun r x => x.data.signal.getD r) r) ops
  | s, _, .restart st :: ops => offered D (step D s (.restart st)) 0 ops

/-- The samples of a history that starts with an empty directory. -/
def samplesOf (D : Dict σ) (st : σ) (ops : List (Op σ)) : List Offered :=
  offered D (Store.start st (fun _ => none) []) 0 ops

/-- The start time a payload is filed under (C19: the earliest start, if all are positive). -/
def startOf (d : Data) : Nat := (bounds (dataTimes d) (0, 0)).1

/-- The sample is filed under view `v`. -/
def Offered.InView (o : Offered) (v : Bytes) : Prop := IsView (toInt64 (startOf o.sample.data)) v

/-- The labels a scan asks for; without filters the resource label. -/
def Scan.asked (sc : Scan) : List Label :=
  if sc.filters = [] then [{ resource := sc.scope }] else sc.filters.filterMap (·.label sc.scope)

/-- A label that is translated for the sample. -/
def Offered.Uses (o : Offered) (l : Label) : Prop := Carries o.sample.data l ∨ l = { resource := o.res }

/-- The sample has the label: its payload carries it, or it is its resource label. Labels are compared as they are stored
(C01, C02). -/
def Offered.Has (o : Offered) (l : Label) : Prop :=
  ∃ l', (Carries o.sample.data l' ∨ l' = { resource := o.res }) ∧ l'.encode = l.encode

/-- The sample has everything the scan asks for. -/
def Offered.Matches (o : Offered) (sc : Scan) : Prop := sc.asked ≠ [] ∧ ∀ l ∈ sc.asked, o.Has l

/-- Samples get their ids in increasing order (C08). -/
def Increasing (os : List Offered) : Prop := os.Pairwise fun a b => a.sample.id < b.sample.id

/-- View `v` is unused, or sample 0 is in it: then the rows of its data frame are right (C23). -/
def Aligned (os : List Offered) (v : Bytes) : Prop :=
  (∃ o ∈ os, o.ok = true ∧ o.sample.id = 0 ∧ o.InView v) ∨ ∀ o ∈ os, ¬ o.InView v

/-- The iteration orders of a scan. -/
structure Env.Fair (E : Env) : Prop where
  cols : ∀ m, (E.colOrder m).Perm m
  res : ∀ m, (E.resOrder m).Perm m

/-- Nothing fails. -/
structure Env.NoFaults (E : Env) : Prop where
  find : ∀ k, E.findFault k = false
  rows : E.rowsFault = false
  frame : ∀ v, E.frameFault v = false

open Classical in
/-- The samples a scan should consider. -/
noncomputable def matching (os : List Offered) (E : Env) (sc : Scan) : List Offered :=
  os.filter fun o => decide (o.Matches sc ∧ ∃ v ∈ E.views sc, o.InView v)

/-- All of them for a range scan, the last one for an instant scan. -/
def picked (sc : Scan) (os : List Offered) : List Offered :=
  match sc.time.range with
  | some _ => os
  | none => os.getLast?.toList

open Classical in
/-- Their payloads of signal `kind`, view by view. -/
noncomputable def payloads (os : List Offered) (kind : Int) (views : List Bytes) : List Data :=
  views.flatMap fun v =>
    (os.filter fun o => decide (o.InView v ∧ o.sample.data.signal = some kind)).map (·.sample.data)

/-- Merging payloads into a result (C33–C36). -/
def merged (E : Env) (ps : List Data) : Result :=
  match Dt.collapse E.P E.resOrder ps with
  | none => .panic
  | some d => .data d

end Verif.St
