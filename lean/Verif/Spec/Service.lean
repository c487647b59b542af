import Verif.Model.Service
import Verif.Spec.Store
/-!
# What the service promises, in terms of what clients and the store see
-/
namespace Verif.Sv
open St (Flush Outcome)
variable {σ : Type}

/-- The samples the store was handed, in order. -/
def flushedOf (es : List (Event σ)) : List Sample :=
  es.flatMap fun e => match e with
    | .flushed fl _ => fl.samples
    | _ => []

/-- The payloads of the requests answered with success, in order. -/
def ackedOf (es : List (Event σ)) : List Data :=
  es.filterMap fun e => match e with
    | .returned d => some d
    | _ => none

/-- The events since the last start of the process. -/
def lifeOf (es : List (Event σ)) : List (Event σ) :=
  es.foldl (fun acc e => match e with | .restarted _ => [] | e => acc ++ [e]) []

/-- The samples waiting for the next flush. -/
def buffered (s : Svc σ) : List Sample := s.lists s.data

/-- The samples the flush goroutine has taken and not yet handed to the store. -/
def inHand (s : Svc σ) : List Sample :=
  match s.flusher with
  | .swapped ls | .unlocked ls => s.lists ls
  | _ => []

/-- The payload of the call that has stored its sample and has not answered yet. -/
def unanswered (s : Svc σ) : List Data :=
  match s.lock with
  | some (.call t) => (match s.calls t with | .appended d => [d] | _ => [])
  | _ => []

/-- The history of the store (Spec/Store.lean). A flush that ends the process in the translation changes nothing but the
dictionary, which the restart then finds. -/
def opsOf (es : List (Event σ)) : List (St.Op σ) :=
  es.filterMap fun e => match e with
    | .flushed fl o => if o = .exit then none else some (.flush fl)
    | .restarted st => some (.restart st)
    | .returned _ => none

/-- Number of calls of `SampleID` in a schedule. -/
def numbers (ls : List (Label σ)) : Nat := ls.countP fun l => match l with | .number _ => true | _ => false
/-- Number of starts after the first. -/
def restarts (ls : List (Label σ)) : Nat := ls.countP fun l => match l with | .restart _ _ => true | _ => false

/-- The surroundings: maps are iterated in some order, timestamps of payloads are `uint64`, a restart finds at least the entries
of the dictionary there were before. -/
def Sane (D : Dict σ) (bw : Nat) : Svc σ → List (Label σ) → Prop
  | _, [] => True
  | s, l :: ls =>
    (match l with
      | .call _ d => ∀ a b, HasTime d a b → a < 2 ^ 64
      | .save fl => (∀ m, (fl.viewOrder m).Perm m) ∧ (∀ m, (fl.shardOrder m).Perm m) ∧ ∀ m, (fl.bitsOrder m).Perm m
      | .restart st _ => D.Good st ∧ ∀ a n, D.look s.store.ctx.st a = some n → D.look st a = some n
      | _ => True) ∧
    ∀ s' es, step D bw s l = some (s', es) → Sane D bw s' ls

end Verif.Sv
