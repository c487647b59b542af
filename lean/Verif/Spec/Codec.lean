import Verif.Model.Codec
/-! # Codecs without a pool -/
namespace Verif.Cd

/-- What became of operations: the bytes each gave. A panic ends them. -/
def run {σ : Type} (step : σ → Op → Res σ) (w : σ) : List Op → Option (σ × List (Op × Bytes))
  | [] => some (w, [])
  | o :: os => match step w o with
    | .ok w' b => (run step w' os).map fun r => (r.1, (o, b) :: r.2)
    | _ => none

/-- What user `s` of `Compress` has written. -/
def sent (s : Nat) (os : List Op) : Bytes := os.flatMap fun
  | .write t p => if t = s then p else []
  | _ => []

/-- The inputs of the users of `Decompress`. -/
def inputs (os : List Op) : List Bytes := os.filterMap fun
  | .decompress d _ => some d
  | _ => none

/-- What user `r` of `Decompress` has got. -/
def got (r : Nat) (tr : List (Op × Bytes)) : Bytes := tr.flatMap fun
  | (.read t _ _, b) => if t = r then b else []
  | (.writeTo t, b) => if t = r then b else []
  | _ => []

/-- User `r` of `Decompress` was told that it is the end. -/
def ended (r : Nat) (os : List Op) : Prop := .writeTo r ∈ os ∨ ∃ k, .read r k true ∈ os

/-- Users of `Compress` so far. -/
def writers (os : List Op) : Nat := (os.filter fun | .compress _ => true | _ => false).length

end Verif.Cd
