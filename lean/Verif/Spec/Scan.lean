import Verif.Spec.Store
/-!
# What a scan returns, exactly

The specification of scans that covers every history: flushes cut off anywhere, restarts, views that do not begin with sample 0, labels
in several shards. `Landed` says, for one flush, which of its transactions were committed.
-/
namespace Verif.St
open Tm Tf
open Bt (shardWidth)
variable {σ : Type}

/-- One flush: its samples, the views whose payloads were committed, the index shards that were committed. -/
structure Landed where
  samples : List Offered
  views : List Bytes
  shards : List Nat

/-- The sample has label number `n` in dictionary `st`. -/
def Offered.Numbered (D : Dict σ) (st : σ) (o : Offered) (n : Nat) : Prop :=
  ∃ l, (Carries o.sample.data l ∨ l = { resource := o.res }) ∧ D.look st l.encode = some n

/-- What is known of a flush: if it succeeded, everything was committed; the index is written after all payloads. -/
structure Landed.Fine (D : Dict σ) (st : σ) (f : Landed) : Prop where
  views : ∀ o ∈ f.samples, o.ok = true → ∀ v, o.InView v → v ∈ f.views
  shards : ∀ o ∈ f.samples, o.ok = true → ∀ n, o.Numbered D st n → n / shardWidth ∈ f.shards
  order : f.shards ≠ [] → ∀ o ∈ f.samples, ∀ v, o.InView v → v ∈ f.views
  known : ∀ o ∈ f.samples, ∀ l, o.Uses l → ∃ n, D.look st l.encode = some n
  used : ∀ v ∈ f.views, ∃ o ∈ f.samples, o.InView v

/-- All samples, in order. -/
def allSamples (L : List Landed) : List Offered := L.flatMap (·.samples)

/-- The index has the labels of the sample that lie in shard `k`. -/
def Indexed (L : List Landed) (k : Nat) (o : Offered) : Prop := ∃ f ∈ L, o ∈ f.samples ∧ k ∈ f.shards

/-- The sample is filed under a view of the scan, its labels in shard `k` are in the index, and it has, for each label asked for whose
number lies in shard `k`, a label with this number (the same label, if no two labels have the same number). -/
def HitIn (D : Dict σ) (st : σ) (L : List Landed) (views : List Bytes) (sc : Scan) (k : Nat) (o : Offered) : Prop :=
  o ∈ allSamples L ∧ (∃ v ∈ views, o.InView v) ∧ Indexed L k o ∧
    ∀ l ∈ sc.asked, ∀ n, D.look st l.encode = some n → n / shardWidth = k → o.Numbered D st n

/-- Shard `k` holds a label the scan asks for. -/
def AsksIn (D : Dict σ) (st : σ) (sc : Scan) (k : Nat) : Prop := ∃ l ∈ sc.asked, ∃ n, D.look st l.encode = some n ∧ n / shardWidth = k

/-- The samples a scan finds: all labels asked for are known, all their shards are open, and the sample has the labels of every shard
*in which anything is found at all* (and in some shard something is found). -/
def Finds (D : Dict σ) (st : σ) (opened : List Nat) (L : List Landed) (views : List Bytes) (sc : Scan) (o : Offered) : Prop :=
  (∀ l ∈ sc.asked, ∃ n, D.look st l.encode = some n ∧ n / shardWidth ∈ opened) ∧
  (∃ k, AsksIn D st sc k ∧ ∃ o', HitIn D st L views sc k o') ∧
  ∀ k, AsksIn D st sc k → (∃ o', HitIn D st L views sc k o') → HitIn D st L views sc k o

/-- The samples of each flush of a history (compare `offered`). -/
def flushes (D : Dict σ) : Store σ → Int → List (Op σ) → List (List Offered)
  | _, _, [] => []
  | s, r, .flush fl :: ops =>
    tag ((saveSamples D s fl).2 == .ok) r fl.samples ::
      flushes D (saveSamples D s fl).1 (fl.samples.foldl (fun r x => x.data.signal.getD r) r) ops
  | s, _, .restart st :: ops => flushes D (step D s (.restart st)) 0 ops

/-- Those of a history that starts with an empty directory. -/
def flushesOf (D : Dict σ) (st : σ) (ops : List (Op σ)) : List (List Offered) :=
  flushes D (Store.start st (fun _ => none) []) 0 ops

open Classical in
/-- In order of ids. -/
noncomputable def foundBy (D : Dict σ) (st : σ) (opened : List Nat) (L : List Landed) (views : List Bytes) (sc : Scan) : List Offered :=
  (allSamples L).filter fun o => decide (Finds D st opened L views sc o)

open Classical in
/-- The samples of each flush that went into view `v`. -/
noncomputable def batchesIn (L : List Landed) (v : Bytes) : List (List Offered) :=
  (L.filter fun f => decide (v ∈ f.views)).map fun f => f.samples.filter fun o => decide (o.InView v)

/-- A payload, if it is of signal `kind`. -/
def ofKind (kind : Int) (d : Data) : Data := if d.signal = some kind then d else .none

/-- The payload found in view `v` at the row of sample `o`: its own, unless it came with the first flush of a view that does not begin
with sample 0. Then it is that of the next sample, if that came with the same flush and has the next id; nothing, if not; and the
row does not exist if nothing was filed later. -/
def rowAt (kind : Int) (o : Offered) : List (List Offered) → Option Data
  | [] => none
  | b :: rest =>
    if (b.map (·.sample.id)).head? = some 0 ∨ ¬ ∃ x ∈ b, x.sample.id = o.sample.id then some (ofKind kind o.sample.data)
    else match b.find? fun x => x.sample.id == o.sample.id + 1 with
      | some x => some (ofKind kind x.sample.data)
      | none => if rest = [] ∧ ∀ x ∈ b, x.sample.id ≤ o.sample.id then none else some .none

open Classical in
/-- Samples `os` that are filed in view `v` with signal `kind`. -/
noncomputable def filedIn (L : List Landed) (kind : Int) (v : Bytes) (os : List Offered) : List Offered :=
  os.filter fun o => decide ((∃ f ∈ L, o ∈ f.samples ∧ v ∈ f.views) ∧ o.InView v ∧ o.sample.data.signal = some kind)

open Classical in
/-- What the scan returns. -/
noncomputable def answer (D : Dict σ) (st : σ) (opened : List Nat) (L : List Landed) (E : Env) (sc : Scan) : Result :=
  let os := foundBy D st opened L (E.views sc) sc
  if os = [] then .data (Dt.zero sc.scope)
  else if sc.scope = Res.metrics ∨ sc.scope = Res.logs ∨ sc.scope = Res.traces then
    if ∀ v ∈ E.views sc, ∀ o ∈ filedIn L sc.scope v (picked sc os), (rowAt sc.scope o (batchesIn L v)).isSome then
      merged E ((E.views sc).flatMap fun v => (filedIn L sc.scope v (picked sc os)).filterMap fun o => rowAt sc.scope o (batchesIn L v))
    else .undefined
  else .err

end Verif.St
