import Verif.Model.Bytes
/-!
# internal/arena: buffers from a pool

Backing arrays live in a heap. `append` writes in place if the capacity suffices, and otherwise copies to a new array with some spare
room, which is up to the runtime. Encoding of messages and compression (internal/compress/zstd.go) are parameters of the operations:
the bytes they append, and whether they fail.
-/
namespace Verif.Ar

/-- internal/arena/arena.go:11-14 `Arena`: `data` is the first `len` bytes of array `arr`. `used`: it is not in the pool. -/
structure Arena where
  arr : Nat
  len : Nat := 0
  off : Nat := 0
  used : Bool := true
deriving DecidableEq, Repr

/-- A slice of array `arr`. -/
structure Slice where
  arr : Nat
  start : Nat
  len : Nat
deriving DecidableEq, Repr

/-- All arrays and all arenas, those in the pool too. -/
structure W where
  heap : List Bytes := []
  arenas : List Arena := []
deriving DecidableEq, Repr

/-- What a slice holds. -/
def W.read (w : W) (s : Slice) : Bytes := (((w.heap[s.arr]?).getD []).drop s.start).take s.len

/-- Operations. `spare`: spare room of a new array. -/
inductive Op where
  /-- `New`, of an arena in the pool, or of a new one -/
  | new (i : Nat)
  | fresh
  | newWriter (i : Nat)
  | write (i : Nat) (p : Bytes) (spare : Nat)
  | bytes (i : Nat)
  | marshal (i : Nat) (p : Bytes) (ok : Bool) (spare : Nat)
  /-- `part`: what a compressor that fails has written -/
  | compress (i : Nat) (p : Bytes) (okM okC : Bool) (part : Bytes) (spare spare' : Nat)
  | release (i : Nat)
deriving DecidableEq, Repr

/-- `append(a.data, p...)`. -/
def append (w : W) (i : Nat) (a : Arena) (p : Bytes) (spare : Nat) : W × Arena :=
  let x := (w.heap[a.arr]?).getD []
  if a.len + p.length ≤ x.length then
    let a' := { a with len := a.len + p.length }
    ({ heap := w.heap.set a.arr (x.take a.len ++ p ++ x.drop (a.len + p.length)), arenas := w.arenas.set i a' }, a')
  else
    let a' := { a with arr := w.heap.length, len := a.len + p.length }
    ({ heap := w.heap ++ [x.take a.len ++ p ++ List.replicate spare 0], arenas := w.arenas.set i a' }, a')

/-- The arena changed. -/
def W.put (w : W) (i : Nat) (a : Arena) : W := { w with arenas := w.arenas.set i a }

/-- internal/arena/arena.go:43-52 `Marshal`: the slice, or nothing if it fails. -/
def marshal (w : W) (i : Nat) (a : Arena) (p : Bytes) (ok : Bool) (spare : Nat) : W × Arena × Option Slice :=
  let r := append w i { a with off := a.len } p spare
  if ok then (r.1, r.2, some { arr := r.2.arr, start := r.2.off, len := r.2.len - r.2.off })
  else (r.1.put i { r.2 with len := r.2.off }, { r.2 with len := r.2.off }, none)

/-- internal/arena/arena.go:30-41 `Compress` after marshalling: `NewWriter`, `compress.To`, which writes `q`, `Bytes`. (That the
compressor writes its output in several pieces makes no difference but for the arrays in between.) -/
def squeeze (w : W) (i : Nat) (a : Arena) (q : Bytes) (ok : Bool) (spare : Nat) : W × Option Slice :=
  let r := append w i { a with off := a.len } q spare
  if ok then (r.1, some { arr := r.2.arr, start := r.2.off, len := r.2.len - r.2.off })
  else (r.1.put i { r.2 with len := r.2.off }, none)

/-- One operation; the slice it returns, if any. `none`: not allowed (an arena that is not in use, or one in use from the pool). `zip`:
what the compressor makes of its input, which is what the slice it is given holds. -/
def step (zip : Bytes → Bytes) (w : W) : Op → Option (W × Option Slice)
  | .fresh => some ({ heap := w.heap ++ [[]], arenas := w.arenas ++ [{ arr := w.heap.length }] }, none)
  | .new i => w.arenas[i]?.bind fun a => if a.used then none else some (w.put i { a with used := true }, none)
  | .newWriter i => w.arenas[i]?.bind fun a => if a.used then some (w.put i { a with off := a.len }, none) else none
  | .write i p spare => w.arenas[i]?.bind fun a => if a.used then some ((append w i a p spare).1, none) else none
  | .bytes i => w.arenas[i]?.bind fun a => if a.used then some (w, some { arr := a.arr, start := a.off, len := a.len - a.off }) else none
  | .marshal i p ok spare => w.arenas[i]?.bind fun a => if a.used then
      some ((marshal w i a p ok spare).1, (marshal w i a p ok spare).2.2) else none
  | .compress i p okM okC part spare spare' => w.arenas[i]?.bind fun a => if a.used then
      some (match marshal w i a p okM spare with
        | (w1, _, none) => (w1, none)
        | (w1, a1, some data) => squeeze w1 i a1 (if okC then zip (w1.read data) else part) okC spare') else none
  | .release i => w.arenas[i]?.bind fun a => if a.used then
      some ({ heap := w.heap.set a.arr (List.replicate a.len 0 ++ ((w.heap[a.arr]?).getD []).drop a.len),
              arenas := w.arenas.set i { a with len := 0, off := 0, used := false } }, none) else none

end Verif.Ar
