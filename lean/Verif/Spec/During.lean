import Verif.Spec.Scan
import Verif.Spec.Concurrent
/-!
# What a scan made while samples are flushed returns, exactly

`Spec/Scan.lean` with the moments told apart: the `i`-th filter is looked up by the `i`-th transaction, shard `k` of the index is read
by transaction `sh k`, the `p`-th view of the data frame by transaction `fr + p`. `now i` is the store and `L i` the account of what
was committed when transaction `i` begins.
-/
namespace Verif.St
open Tm Tf
open Bt (shardWidth)
variable {σ : Type}

/-- The flushes done or begun at a moment; the last one as far as it is committed. -/
def Moment.done (fls : List Flush) (m : Moment σ) : List Flush :=
  match fls[m.j]?, m.tick with
  | some fl, .committed c => fls.take m.j ++ [{ fl with commits := min c fl.commits }]
  | _, _ => fls.take m.j

/-- What landed stays: flush by flush, the same samples, and at least the same views and shards. -/
def Stays (a b : List Landed) : Prop :=
  ∀ (p : Nat) (f : Landed), a[p]? = some f → ∃ g, b[p]? = some g ∧
    g.samples.map (fun o => (o.res, o.sample)) = f.samples.map (fun o => (o.res, o.sample)) ∧
    (∀ v ∈ f.views, v ∈ g.views) ∧ ∀ k ∈ f.shards, k ∈ g.shards

/-- Every label asked for is known when it is looked up. -/
def KnownWhenAsked (D : Dict σ) (now : Nat → Store σ) (sc : Scan) : Prop :=
  (sc.filters = [] → ∃ n, D.look (now 0).ctx.st (Label.encode { resource := sc.scope }) = some n) ∧
  ∀ (i : Nat) f l, sc.filters[i]? = some f → f.label sc.scope = some l → ∃ n, D.look (now i).ctx.st l.encode = some n

/-- When shard `k` is read, sample `x` is in the index with all labels asked for that lie in shard `k`, in a view of the scan. -/
def HitAt (D : Dict σ) (now : Nat → Store σ) (L : Nat → List Landed) (views : List Bytes) (sc : Scan) (sh : Nat → Nat) (k : Nat) (x : Sample) : Prop :=
  ∃ o, o.sample = x ∧ HitIn D (now (sh k)).ctx.st (L (sh k)) views sc k o

/-- The samples found; the number of a label is that when the lookups are done. -/
def FindsDuring (D : Dict σ) (now : Nat → Store σ) (L : Nat → List Landed) (views : List Bytes) (sc : Scan) (sh : Nat → Nat) (x : Sample) : Prop :=
  KnownWhenAsked D now sc ∧
  (∀ l ∈ sc.asked, ∀ n, D.look (now (sc.filters.length + 1)).ctx.st l.encode = some n → n / shardWidth ∈ (now (sh (n / shardWidth))).idx.opened) ∧
  (∃ k, AsksIn D (now (sc.filters.length + 1)).ctx.st sc k ∧ ∃ x', HitAt D now L views sc sh k x') ∧
  ∀ k, AsksIn D (now (sc.filters.length + 1)).ctx.st sc k → (∃ x', HitAt D now L views sc sh k x') → HitAt D now L views sc sh k x

open Classical in
noncomputable def foundDuring (D : Dict σ) (now : Nat → Store σ) (L : Nat → List Landed) (views : List Bytes) (sc : Scan) (sh : Nat → Nat)
    (all : List Offered) : List Offered :=
  all.filter fun o => decide (FindsDuring D now L views sc sh o.sample)

open Classical in
/-- Samples `os` that are filed in view `v` with signal `kind`, according to account `L`. -/
noncomputable def filedAt (L : List Landed) (kind : Int) (v : Bytes) (os : List Offered) : List Offered :=
  os.filter fun o => decide ((∃ f ∈ L, (∃ o' ∈ f.samples, o'.sample = o.sample) ∧ v ∈ f.views) ∧ o.InView v ∧ o.sample.data.signal = some kind)

open Classical in
/-- What the scan returns; `all` are the samples handed to the store up to the end of the flushes under way. -/
noncomputable def answerDuring (D : Dict σ) (now : Nat → Store σ) (L : Nat → List Landed) (all : List Offered) (sh : Nat → Nat) (fr : Nat)
    (E : Env) (sc : Scan) : Result :=
  let os := foundDuring D now L (E.views sc) sc sh all
  if os = [] then .data (Dt.zero sc.scope)
  else if sc.scope = Res.metrics ∨ sc.scope = Res.logs ∨ sc.scope = Res.traces then
    if ∀ vp ∈ (E.views sc).zipIdx fr, ∀ o ∈ filedAt (L vp.2) sc.scope vp.1 (picked sc os), (rowAt sc.scope o (batchesIn (L vp.2) vp.1)).isSome then
      merged E (((E.views sc).zipIdx fr).flatMap fun vp =>
        (filedAt (L vp.2) sc.scope vp.1 (picked sc os)).filterMap fun o => rowAt sc.scope o (batchesIn (L vp.2) vp.1))
    else .undefined
  else .err

end Verif.St
