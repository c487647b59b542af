import Verif.Model.Lookup
/-! # Lookups as they are meant: one step, with the key that was asked for -/
namespace Verif.Tr

/-- The bytes behind `keys` that lookups share. -/
def room (c : Config) (extra : Nat) : Nat := if 4 ≤ c.spare then c.spare - 4 else extra

/-- The same history with every lookup done in one step, at the moment it asks the database. `run`: who is looking up what. -/
def atomic : List (Nat × Bytes) → List LOp → List Op
  | _, [] => []
  | run, .append t key :: ops => atomic (run ++ [(t, key)]) ops
  | run, .get t :: ops =>
    match run.find? (fun l => l.1 = t) with
    | none => atomic run ops
    | some l => .find l.2 :: atomic (run.filter fun l => l.1 ≠ t) ops
  | _, .other .reopen :: ops => .reopen :: atomic [] ops
  | run, .other op :: ops => op :: atomic run ops

/-- The keys that are looked up. -/
def lookedUp : List LOp → List Bytes
  | [] => []
  | .append _ key :: ops => key :: lookedUp ops
  | _ :: ops => lookedUp ops

/-- What becomes of the bytes of a key when others are written over it from its start: each covers as much as it is long. -/
def covered (key : Bytes) (others : List Bytes) : Bytes := others.foldl (fun s k => k.take s.length ++ s.drop k.length) key

/-- What a lookup answers when it asks the database for `k`. -/
def answerOf (db : KV) (key k : Bytes) : Option Out :=
  match db k with
  | none => some (.findMissing key)
  | some x => match btou64 x with
    | none => none
    | some n => some (.found key n)

end Verif.Tr
