import Verif.Model.Translate
import Verif.Model.Labels
/-!
# Lookups that run at the same time

translate.go:122-135 `Find` builds the key it asks for with `append(b.keys, key...)`. If the array of `b.keys` has room, this writes behind `b.keys`, where every other `Find` writes too.
Here `Find` has two steps, the `append` and the `txn.Get`, and any number of lookups run between each other and between the other operations of the dictionary.
-/
namespace Verif.Tr

/-- translate.go:19-28 `New`: the heap after the three appends, and the slice `keys`. Where the append of `keys` makes a new array, this has `extra` bytes more than needed (Go rounds sizes up). -/
def slices (c : Config) (extra : Nat) : Heap × Slice :=
  let h0 : Heap := [c.pfx ++ List.replicate c.spare 0]
  let p : Slice := { arr := 0, len := c.pfx.length }
  let s := goAppend h0 p sSeq
  let k := goAppend s.1 p sKeys
  let i := goAppend k.1 p sIds
  if k.2.arr = 0 then (i.1, k.2) else (i.1.set k.2.arr (i.1.getD k.2.arr [] ++ List.replicate extra 0), k.2)

/-- A lookup that has built its key. -/
structure Lookup where
  tid : Nat
  key : Bytes
  slice : Slice

structure LWorld where
  w : World
  heap : Heap
  keys : Slice
  running : List Lookup := []

inductive LOp where
  /-- translate.go:124: goroutine `t` calls `Find(key)` and builds the key -/
  | append (t : Nat) (key : Bytes)
  /-- translate.go:125-133: it asks for what it has built, and returns -/
  | get (t : Nat)
  /-- another operation of the dictionary -/
  | other (op : Op)

/-- One step. `none`: it cannot happen (a goroutine does one lookup at a time; a lookup is not one step), or a panic. -/
def lstep (c : Config) (extra : Nat) (v : LWorld) : LOp → Option (LWorld × Option Out)
  | .append t key =>
    if v.running.any (fun l => l.tid = t) then none
    else
      let a := goAppend v.heap v.keys key
      some ({ v with heap := a.1, running := v.running ++ [⟨t, key, a.2⟩] }, none)
  | .get t =>
    match v.running.find? (fun l => l.tid = t) with
    | none => none
    | some l =>
      let v' := { v with running := v.running.filter (fun l => l.tid ≠ t) }
      match v.w.db (l.slice.read v.heap) with
      | none => some (v', some (.findMissing l.key))
      | some x =>
        match btou64 x with
        | none => none
        | some n => some (v', some (.found l.key n))
  | .other (.find _) => none
  | .other .reopen =>
    match step c v.w .reopen with
    | none => none
    | some (w, o) => some ({ w := w, heap := (slices c extra).1, keys := (slices c extra).2 }, some o)
  | .other op =>
    match step c v.w op with
    | none => none
    | some (w, o) => some ({ v with w := w }, some o)

def lrun (c : Config) (extra : Nat) : LWorld → List LOp → Option (LWorld × List Out)
  | v, [] => some (v, [])
  | v, op :: ops =>
    match lstep c extra v op with
    | none => none
    | some (v1, o) =>
      match lrun c extra v1 ops with
      | none => none
      | some (v2, os) => some (v2, o.toList ++ os)

/-- History of a database that starts empty. -/
def lhistory (c : Config) (extra : Nat) (ops : List LOp) : Option (LWorld × List Out) :=
  match init c KV.empty with
  | none => none
  | some w => lrun c extra { w := w, heap := (slices c extra).1, keys := (slices c extra).2 } ops

end Verif.Tr
