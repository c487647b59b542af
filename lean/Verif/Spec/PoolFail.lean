import Verif.Spec.PoolJobs
/-! # Accesses to the databases that fail -/
namespace Verif.Pl

/-- The access was answered. That a key, a shard or a view is not there is an answer too; anything that is not an answer to the question is a failure. -/
def Went : Ask → Ans → Bool
  | .find _, .id _ => true
  | .find _, .missing => true
  | .find _, _ => false
  | .shard _, .failed => false
  | .shard _, _ => true
  | .rows .., .bits _ => true
  | .rows .., _ => false
  | .view _, .failed => false
  | .view _, _ => true
  | .ids .., .bits _ => true
  | .ids .., _ => false
  | .table _, .table _ => true
  | .table _, _ => false
  | .translate _, .id _ => true
  | .translate _, _ => false
  | .write .., .found => true
  | .write .., _ => false
  | .index .., .found => true
  | .index .., _ => false

/-- The same for the database of the dictionary: `txn.Get` may find nothing, which `TranslateKey` takes for an answer. -/
def TWent : TAsk → TAns → Bool
  | .get _, .value _ => true
  | .get _, .missing => true
  | .get _, _ => false
  | .next, .id _ => true
  | .next, _ => false
  | .set .., .done => true
  | .set .., _ => false

/-- The database that is asked: the dictionary, the tables of the views, the index of labels. -/
inductive Base where
  | dict | frame | index
deriving DecidableEq

def Ask.base : Ask → Base
  | .find _ | .translate _ => .dict
  | .view _ | .ids .. | .table _ | .write .. => .frame
  | .shard _ | .rows .. | .index .. => .index

/-- Nothing is changed by this. -/
def Ask.reads : Ask → Bool
  | .translate _ | .write .. | .index .. => false
  | _ => true

/-- Every table that is written begins with the rows that were read immediately before, unless there was none. -/
def Kept (log : List (Ask × Ans)) : Prop :=
  ∀ p v r a q, log = p ++ (.write v r, a) :: q →
    (∃ p', p = p' ++ [(.view v, .missing)]) ∨
    (∃ p' x rows m l t, p = p' ++ [(.view v, x), (.table v, .table rows), (.ids Res.metrics v, .bits m), (.ids Res.logs v, .bits l), (.ids Res.traces v, .bits t)] ∧ rows <+: r.rows)

end Verif.Pl
