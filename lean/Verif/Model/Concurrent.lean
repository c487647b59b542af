import Verif.Model.Store
/-!
# Scanning while samples are flushed

A scan is a sequence of transactions: one lookup in the dictionary per filter, one read of the index per shard, one read of the
data frame per view. Flushes go on in between (internal/commands/serve: one goroutine flushes, each request scans in its own).
`scanDuring` is `Store.scan` with its `i`-th transaction on the store `now i`. A lock is held while the index is read
(shards.go:113-115), which only keeps shards from being opened in that time; this is not modelled, so there are more
executions here than in the code.
-/
namespace Verif.St
open Tm Tf
variable {σ : Type}

/-- scan.go:95-130, the lookup of the `i`-th filter on `now i`. -/
def filterLoopAt (D : Dict σ) (now : Nat → Store σ) (E : Env) (scope : Int) : Nat → List Filter → Bm → Option Bm
  | _, [], r => some r
  | i, f :: fs, r =>
    match f.label scope with
    | none => filterLoopAt D now E scope (i + 1) fs r
    | some l =>
      match find D (now i).ctx.st E l with
      | .fault => none
      | .notFound => some []
      | .col n => filterLoopAt D now E scope (i + 1) fs (r.add n)

/-- scan.go:72-131 `CompileFilters`. -/
def compileFiltersAt (D : Dict σ) (now : Nat → Store σ) (E : Env) (sc : Scan) : Option Bm :=
  if sc.filters = [] then
    match find D (now 0).ctx.st E { resource := sc.scope } with
    | .fault => none
    | .notFound => some []
    | .col n => some [n]
  else filterLoopAt D now E sc.scope 0 sc.filters []

/-- shards.go:113-166 `rows`: one transaction per shard. -/
def rowsLoopAt (now : Nat → Store σ) (views : List Bytes) : Nat → AMap Nat (List Nat) → Option Bm → Option Bm
  | _, [], r => r
  | i, (k, f) :: rest, r =>
    if k ∉ (now i).idx.opened then r.map (fun _ => [])
    else
      let b := Sh.shardRows (now i).idx.disk k views f
      if b = [] then rowsLoopAt now views (i + 1) rest r
      else match r with
        | none => rowsLoopAt now views (i + 1) rest (some b)
        | some r0 => if r0.and b = [] ∧ r0 ≠ [] then some [] else rowsLoopAt now views (i + 1) rest (some (r0.and b))

/-- dataframe.go:56-73 `Unmarshal`, 81-99 `View`: one transaction per view. -/
def unmarshalAt (now : Nat → Store σ) (fault : Bytes → Bool) (kind : Int) (wanted : Bm) : Nat → List Bytes → Df.Read
  | _, [] => .ok []
  | i, v :: vs =>
    match Df.readView (now i).frame fault kind wanted v with
    | .ok l =>
      match unmarshalAt now fault kind wanted (i + 1) vs with
      | .ok l' => .ok (l ++ l')
      | e => e
    | e => e

/-- scan.go:58-69. -/
def readSamplesAt (now : Nat → Store σ) (i : Nat) (E : Env) (sc : Scan) (ids : Bm) : Result :=
  if sc.scope = Res.metrics ∨ sc.scope = Res.logs ∨ sc.scope = Res.traces then
    match unmarshalAt now E.frameFault sc.scope ids i (E.views sc) with
    | .outOfRange => .undefined
    | .err => .data none
    | .ok l =>
      match Dt.collapse E.P E.resOrder (l.map (·.2)) with
      | none => .panic
      | some d => .data d
  else .err

/-- scan.go:20-70 `Scan`, its `i`-th transaction on the store `now i`. The lookups are numbered from 0, the reads of the index
follow, then those of the data frame. -/
def scanDuring (D : Dict σ) (now : Nat → Store σ) (E : Env) (sc : Scan) : Result :=
  match compileFiltersAt D now E sc with
  | none => .err
  | some cols =>
    if cols = [] then .data (Dt.zero sc.scope)
    else if E.rowsFault then .err
    else
      let i := sc.filters.length + 1
      let m := E.colOrder (Sh.groupCols cols)
      match rowsLoopAt now (E.views sc) i m none with
      | none => .data (Dt.zero sc.scope)
      | some ids => if ids = [] then .data (Dt.zero sc.scope) else readSamplesAt now (i + m.length) E sc (chosen sc ids)

/-- How far a flush has got: translating labels, with the dictionary in state `st`, or with `c` transactions committed. -/
inductive Tick (σ : Type) where
  | translating (st : σ)
  | committed (c : Nat)

/-- A moment while the flushes `fls` are made one after the other: in the middle of flush `j`. -/
structure Moment (σ : Type) where
  j : Nat
  tick : Tick σ

/-- The store after flushes. -/
def flushed (D : Dict σ) (s : Store σ) (fls : List Flush) : Store σ := fls.foldl (fun s fl => (saveSamples D s fl).1) s

/-- store.go:78-103: what a scan sees in the middle of a flush. Each label is translated in its own transaction, then each view of
the data frame is written in one, then each shard of the index (which is opened just before). -/
def Moment.store (D : Dict σ) (s : Store σ) (fls : List Flush) (m : Moment σ) : Store σ :=
  let s' := flushed D s (fls.take m.j)
  match fls[m.j]? with
  | none => s'
  | some fl =>
    match m.tick with
    | .translating st => { s' with ctx := { s'.ctx with st := st } }
    | .committed c => (saveSamples D s' { fl with commits := min c fl.commits }).1

end Verif.St
