import Verif.Model.Store
import Verif.Model.Visit
import Verif.Model.Translate
/-!
# Recycled objects

Bitmaps, labels, sample keys, quantized times, visitors, sorters, buffers and column builders are taken from `sync.Pool`s and put back when they are no longer needed. Here the
functions that use them are written down as programs that name every `Get`, every use and every `Put`, and a machine runs any number of them at the same
time on shared pools. What they get from the databases is an answer to a question; any answer is possible.

`sync.Pool`: `Get` gives any member of the pool or a new object; members may be dropped at any time. A slice is what it shows (not what lies behind its length).
-/
namespace Verif.Pl

inductive Kind where
  | bitmap | label | key | qtime | visitor | buffer
  /-- data/metrics.go:91, logs.go:59, trace.go:59, by signal -/
  | sorter (signal : Int)
  /-- dataframe.go:284 -/
  | schema
deriving DecidableEq, Repr

/-- internal/data/sort.go:14-23 `Sorter`. The digest `h` and the buffer `buf` are left out: each use starts with resetting them (sort.go:45, 58, 67, 54, 116). The maps hold
positions of resources, scopes and metrics, as in Model/Collapse.lean. `rs` holds the hashes with their numbers. -/
structure Sorter where
  resource : AMap Nat Nat := []
  scope : AMap Nat (Nat × Nat) := []
  metrics : AMap Nat (Nat × Nat × Nat) := []
  order : AMap Nat Nat := []
  rs : AMap Nat Nat := []
  id : List Nat := []

/-- A recyclable object: internal/bitmaps/bitmaps.go:10-13, internal/labels/labels.go:10-16, internal/keys/keys.go:10-14, internal/batch/time.go:16-18, internal/visit/visit.go:65-79,
`bytes.Buffer`, `Sorter`, and the rows a schema's builder holds. -/
inductive Obj where
  | bitmap (key : Bytes) (bits : Bm)
  | label (l : Label) (buf : Bytes)
  | key (k : SampleKey) (b : Bytes)
  | qtime (ymdh : Bytes)
  | visitor (a : Vs.All)
  | buffer (b : Bytes)
  | sorter (signal : Int) (s : Sorter)
  | schema (rows : List Data)

def Obj.kind : Obj → Kind
  | .bitmap _ _ => .bitmap
  | .label _ _ => .label
  | .key _ _ => .key
  | .qtime _ => .qtime
  | .visitor _ => .visitor
  | .buffer _ => .buffer
  | .sorter s _ => .sorter s
  | .schema _ => .schema

/-- What the `New` functions of the pools make: bitmaps.go:42-44, labels.go:67, keys.go:20-23, time.go:39, visit.go:85, translate.go:119, metrics.go:91-95, dataframe.go:284-290. -/
def fresh : Kind → Obj
  | .bitmap => .bitmap [] []
  | .label => .label {} []
  | .key => .key {} []
  | .qtime => .qtime (List.replicate 10 0)
  | .visitor => .visitor {}
  | .buffer => .buffer []
  | .sorter s => .sorter s {}
  | .schema => .schema []

/-- What is done to an object before it goes back: bitmaps.go:35-40, labels.go:54-65, keys.go:30-40, time.go:24-31, visit.go:124-151, translate.go:114-117, sort.go:25-33,
dataframe.go:280-282 (nothing). -/
def Obj.release : Obj → Obj
  | .bitmap k _ => .bitmap (k.take 0) []
  | .label l buf => .label { l with resource := 0, pfx := 0, key := [], value := [] } (buf.take 0)
  | .key k b => .key { k with resource := 0, id := 0 } (b.take 0)
  | .qtime _ => .qtime (List.replicate 10 0)
  | .visitor a => .visitor { a with
      resourceSchema := [], resourceAttr := [], scopeSchema := [], scopeName := [], scopeVersion := [], scopeAttr := [], attr := [], name := [],
      traceId := [], spanId := [], parentSpanId := [], logLevel := [], start := 0, stop := 0 }
  | .buffer b => .buffer (b.take 0)
  | .sorter g s => .sorter g { s with resource := [], scope := [], metrics := [], order := [], rs := s.rs.take 0, id := s.id.take 0 }
  | .schema rows => .schema rows

/-- A program: takes an object out of a pool, changes one it has taken and sees what it was, puts one back, asks a database, or returns. Objects are numbered in the order in
which the program took them. -/
inductive Prog (Q A α : Type) where
  | done (a : α)
  | get (κ : Kind) (k : Nat → Prog Q A α)
  | act (r : Nat) (f : Obj → Obj) (k : Obj → Prog Q A α)
  | put (r : Nat) (k : Prog Q A α)
  | ask (q : Q) (k : A → Prog Q A α)

namespace Prog
variable {Q A α β : Type}

def bind : Prog Q A α → (α → Prog Q A β) → Prog Q A β
  | done a, g => g a
  | get κ k, g => get κ fun r => bind (k r) g
  | act r f k, g => act r f fun o => bind (k o) g
  | put r k, g => put r (bind k g)
  | ask q k, g => ask q fun a => bind (k a) g

instance : Monad (Prog Q A) where
  pure := done
  bind := bind

end Prog

section
variable {Q A : Type}

def take (κ : Kind) : Prog Q A Nat := .get κ .done
def give (r : Nat) : Prog Q A Unit := .put r (.done ())
/-- Change an object and see what it is now. -/
def use (r : Nat) (f : Obj → Obj) : Prog Q A Obj := .act r f fun o => .done (f o)
def look (r : Nat) : Prog Q A Obj := use r id
def ask (q : Q) : Prog Q A A := .ask q .done
end

/-! ## The machine -/

/-- A goroutine: what it has still to do, where the objects are that it took (it keeps the pointers after it has put them back), and what it asked and was told. -/
structure Thread (Q A α : Type) where
  prog : Prog Q A α
  held : List Nat := []
  log : List (Q × A) := []

/-- All objects there are, those in the pools, and the goroutines. -/
structure World (Q A α : Type) where
  objs : List Obj := []
  free : List Nat := []
  threads : List (Thread Q A α) := []

/-- What happens next: a goroutine is started, one takes a step (`pick`: the member of the pool that `Get` gives, none: a new object; `a`: what the database answers), or the
garbage collector empties a place of a pool. -/
inductive Step (Q A α : Type) where
  | spawn (p : Prog Q A α)
  | go (t : Nat) (pick : Option Nat) (a : A)
  | drop (i : Nat)

variable {Q A α : Type}

/-- One step of a goroutine. -/
def Thread.step (w : World Q A α) (th : Thread Q A α) (pick : Option Nat) (a : A) : Option (List Obj × List Nat × Thread Q A α) :=
  match th.prog with
  | .done _ => none
  | .get κ k =>
    match pick with
    | none => some (w.objs ++ [fresh κ], w.free, { th with prog := k th.held.length, held := th.held ++ [w.objs.length] })
    | some i =>
      match w.free[i]? with
      | none => none
      | some e =>
        match w.objs[e]? with
        | none => none
        | some o => if o.kind = κ then some (w.objs, w.free.eraseIdx i, { th with prog := k th.held.length, held := th.held ++ [e] }) else none
  | .act r f k =>
    match th.held[r]? with
    | none => none
    | some e =>
      match w.objs[e]? with
      | none => none
      | some o => some (w.objs.set e (f o), w.free, { th with prog := k o })
  | .put r k =>
    match th.held[r]? with
    | none => none
    | some e =>
      match w.objs[e]? with
      | none => none
      | some o => some (w.objs.set e o.release, e :: w.free, { th with prog := k })
  | .ask q k => some (w.objs, w.free, { th with prog := k a, log := th.log ++ [(q, a)] })

/-- One step; `none`: this cannot happen. -/
def step (w : World Q A α) : Step Q A α → Option (World Q A α)
  | .spawn p => some { w with threads := w.threads ++ [{ prog := p }] }
  | .go t pick a =>
    match w.threads[t]? with
    | none => none
    | some th =>
      match th.step w pick a with
      | none => none
      | some (objs, free, th) => some { objs := objs, free := free, threads := w.threads.set t th }
  | .drop i => some { w with free := w.free.eraseIdx i }

def run (w : World Q A α) : List (Step Q A α) → Option (World Q A α)
  | [] => some w
  | l :: ls => match step w l with
    | none => none
    | some w => run w ls

end Verif.Pl
