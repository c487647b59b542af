import Verif.Model.Pool
/-!
# Programs without pools

`alone`: a program runs by itself; every object it takes is a new one, and an object that was put back is gone.
-/
namespace Verif.Pl
variable {Q A α β : Type}

/-- The objects a program has: how many it took, and what those are that it has not put back. -/
structure Own where
  n : Nat := 0
  at_ : Nat → Option Obj := fun _ => none

def Own.set (l : Own) (r : Nat) (o : Option Obj) : Own := { l with at_ := fun i => if i = r then o else l.at_ i }
def Own.add (l : Own) (o : Obj) : Own := { n := l.n + 1, at_ := fun i => if i = l.n then some o else l.at_ i }

/-- The result of a program, given who answers its questions. `none`: it used an object that it did not have, or was not answered. -/
def alone {σ : Type} (O : σ → Q → Option (A × σ)) : Prog Q A α → σ → Own → Option (α × σ × Own)
  | .done a, s, l => some (a, s, l)
  | .get κ k, s, l => alone O (k l.n) s (l.add (fresh κ))
  | .act r f k, s, l => match l.at_ r with
    | none => none
    | some o => alone O (k o) s (l.set r (some (f o)))
  | .put r k, s, l => match l.at_ r with
    | none => none
    | some _ => alone O k s (l.set r none)
  | .ask q k, s, l => match O s q with
    | none => none
    | some (a, s) => alone O (k a) s l

/-- Answers as they were written down: each for the question that was asked. -/
def replay [DecidableEq Q] : List (Q × A) → Q → Option (A × List (Q × A))
  | [], _ => none
  | (q', a) :: l, q => if q' = q then some (a, l) else none

/-- As long as the answers are as `R` says (`R s q a s'`: in state `s` the answer to `q` may be `a`, and the state is then `s'`), the program uses only objects that it has taken
and not put back, those it puts back are then as new, and it ends as `Φ` says. -/
def Prog.Ends {σ : Type} (R : σ → Q → A → σ → Prop) : Prog Q A α → σ → Own → (α → σ → Own → Prop) → Prop
  | .done a, s, l, Φ => Φ a s l
  | .get κ k, s, l, Φ => (k l.n).Ends R s (l.add (fresh κ)) Φ
  | .act r f k, s, l, Φ => ∃ o, l.at_ r = some o ∧ (k o).Ends R s (l.set r (some (f o))) Φ
  | .put r k, s, l, Φ => ∃ o, l.at_ r = some o ∧ o.release = fresh o.kind ∧ k.Ends R s (l.set r none) Φ
  | .ask q k, s, l, Φ => ∀ a s', R s q a s' → (k a).Ends R s' l Φ

/-- Whatever is answered. -/
def anything : Unit → Q → A → Unit → Prop := fun _ _ _ _ => True

/-- The program uses its objects properly, whatever is answered. -/
def Prog.Proper (p : Prog Q A α) : Prop := p.Ends anything () {} fun _ _ _ => True

/-- A list of answers is as `R` says, from the first state to the last. -/
def Obeys {σ : Type} (R : σ → Q → A → σ → Prop) : σ → List (Q × A) → σ → Prop
  | s, [], s' => s = s'
  | s, (q, a) :: l, s' => ∃ s1, R s q a s1 ∧ Obeys R s1 l s'

/-- The programs that a schedule starts. -/
def spawned : List (Step Q A α) → List (Prog Q A α)
  | [] => []
  | .spawn p :: ls => p :: spawned ls
  | _ :: ls => spawned ls

end Verif.Pl
