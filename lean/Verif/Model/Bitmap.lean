/-!
# Bitmaps and Go maps

Roaring bitmaps (external libraries roaring64 and gernest/roaring) are sets of `uint64`, modelled as ascending lists; a Go
map is modelled as a list of entries, its order standing for one possible iteration order.
-/
namespace Verif

/-- Content of a roaring bitmap, ascending. -/
abbrev Bm := List Nat

/-- `Add`, `DirectAdd`. -/
def Bm.add : Bm → Nat → Bm
  | [], x => [x]
  | y :: ys, x => if x < y then x :: y :: ys else if x = y then y :: ys else y :: Bm.add ys x

/-- `Or` (also rbf's `AddRoaring` into a stored bitmap). -/
def Bm.or (a b : Bm) : Bm := b.foldl Bm.add a

/-- `And`. -/
def Bm.and (a b : Bm) : Bm := a.filter (fun x => decide (x ∈ b))

/-- A Go map. -/
abbrev AMap (κ ν : Type) := List (κ × ν)

/-- `v, ok := m[k]`. -/
def AMap.get {κ ν : Type} [DecidableEq κ] : AMap κ ν → κ → Option ν
  | [], _ => none
  | (k', v) :: r, k => if k' = k then some v else AMap.get r k

/-- `m[k] = v`. -/
def AMap.set {κ ν : Type} [DecidableEq κ] : AMap κ ν → κ → ν → AMap κ ν
  | [], k, v => [(k, v)]
  | (k', v') :: r, k, v => if k' = k then (k, v) :: r else (k', v') :: AMap.set r k v

/-- No key twice: what makes a list of entries a map. -/
def AMap.Ok {κ ν : Type} (m : AMap κ ν) : Prop := (m.map (·.1)).Nodup

end Verif
