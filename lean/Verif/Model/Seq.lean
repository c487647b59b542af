import Verif.Model.Badger
/-!
# internal/seq/seq.go: sample ids
-/
namespace Verif.Sq

/-- seq.go:17-18: eight zero bytes, then little-endian uint32 of `RESOURCE_SAMPLE_ID` = 4. -/
def seqKey : Bytes := [0, 0, 0, 0, 0, 0, 0, 0, 4, 0, 0, 0]

/-- seq.go:20 `1<<20`. -/
def bandwidth : Nat := 2 ^ 20

structure World where
  db : KV
  seq : Sequence

inductive Op where
  /-- seq.go:31-37 `SampleID` (an error of `Next` ends the process) -/
  | sampleID
  /-- seq.go:27-29 `Release` -/
  | release
  /-- crash or exit, then seq.go:15-25 `New` on the same database -/
  | reopen
  /-- any other part of the program writes another database entry -/
  | other (k v : Bytes)

/-- One step; the output is the id returned by `SampleID`. `none` is a panic. -/
def step (bw : Nat) (w : World) : Op → Option (World × Option Nat)
  | .sampleID =>
    match w.seq.nextId w.db with
    | none => none
    | some (n, db, seq) => some ({ db := db, seq := seq }, some n)
  | .release =>
    match w.seq.release w.db with
    | none => none
    | some (_, db, seq) => some ({ db := db, seq := seq }, none)
  | .reopen =>
    match getSequence w.db seqKey bw with
    | none => none
    | some (db, seq) => some ({ db := db, seq := seq }, none)
  | .other k v => some (if k = seqKey then w else { w with db := w.db.set k v }, none)

/-- Ids handed out by a history, in order. -/
def run (bw : Nat) : World → List Op → Option (List Nat)
  | _, [] => some []
  | w, op :: ops =>
    match step bw w op with
    | none => none
    | some (w', o) => (run bw w' ops).map (o.toList ++ ·)

/-- History on a database without a stored sequence. -/
def history (bw : Nat) (db : KV) (ops : List Op) : Option (List Nat) :=
  match getSequence db seqKey bw with
  | none => none
  | some (db', seq) => run bw { db := db', seq := seq } ops

end Verif.Sq
