import Verif.Model.Bytes
/-!
# Go slices and `append`

Backing arrays live in a heap; a slice is an array and a length (all slices here start at offset 0); its capacity is the
length of the array. `append` writes in place when the capacity suffices and otherwise copies to a new array.
Simplification: a new array gets no spare capacity (Go may round it up; nothing here appends to such a slice again
except `Translate.Find`, whose result is a temporary).
-/
namespace Verif

abbrev Heap := List Bytes

structure Slice where
  arr : Nat
  len : Nat
deriving DecidableEq, Repr

def Slice.read (h : Heap) (s : Slice) : Bytes := (h.getD s.arr []).take s.len

/-- Go's `append(s, xs...)`. -/
def goAppend (h : Heap) (s : Slice) (xs : Bytes) : Heap × Slice :=
  let a := h.getD s.arr []
  if s.len + xs.length ≤ a.length then
    (h.set s.arr (a.take s.len ++ xs ++ a.drop (s.len + xs.length)), { s with len := s.len + xs.length })
  else
    (h ++ [a.take s.len ++ xs], { arr := h.length, len := s.len + xs.length })

end Verif
