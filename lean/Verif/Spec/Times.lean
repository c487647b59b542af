import Verif.Model.Otlp
/-! # The times of a payload, in order -/
namespace Verif

/-- The records of a payload in order. -/
def allItems {α : Type} (rs : List (ResourceG α)) : List α := rs.flatMap fun r => r.scopes.flatMap fun s => s.items

/-- When the records start: data points of all metrics, log records, spans. -/
def Data.starts : Data → List Nat
  | .metrics rs => (allItems rs).flatMap fun m => match m.data with
    | some d => d.points.map (·.ts)
    | Option.none => []
  | .logs rs => (allItems rs).map (·.ts)
  | .traces rs => (allItems rs).map (·.start)
  | .none => []

/-- What follows the last zero. -/
def afterLastZero (l : List Nat) : List Nat := (l.reverse.takeWhile (· ≠ 0)).reverse

end Verif
