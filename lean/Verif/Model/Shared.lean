import Verif.Model.Translate
import Verif.Model.Seq
/-!
# One badger database for everything

cmd/rq/main.go:84-120: the dictionary (internal/translate), the sequence of sample ids (internal/seq) and the data frame
(internal/dataframe) are given the same database. Elsewhere they are modelled with a database of their own; here with the
shared one, step by step in any order.
-/
namespace Verif.Shr

/-- A part of the program: what it keeps in memory, and what one operation does to the database. `none` is a panic. -/
structure Comp where
  S : Type
  Op : Type
  Out : Type
  step : KV → S → Op → Option (KV × S × Out)

/-- internal/translate/translate.go, `Tr.step` (Model/Translate.lean). -/
def dict (c : Tr.Config) : Comp where
  S := Tr.Translate × List Tr.Pending
  Op := Tr.Op
  Out := Tr.Out
  step := fun db s op =>
    match Tr.step c { db := db, tr := s.1, pending := s.2 } op with
    | none => none
    | some (w, o) => some (w.db, (w.tr, w.pending), o)

/-- internal/seq/seq.go:15-37 (Model/Seq.lean): `SampleID`, `Release`, `New`. -/
inductive SeqOp where
  | sampleID | release | reopen

def SeqOp.op : SeqOp → Sq.Op
  | .sampleID => .sampleID
  | .release => .release
  | .reopen => .reopen

def seq (bw : Nat) : Comp where
  S := Sequence
  Op := SeqOp
  Out := Option Nat
  step := fun db s op =>
    match Sq.step bw { db := db, seq := s } op.op with
    | none => none
    | some (w, o) => some (w.db, w.seq, o)

/-- dataframe.go:25-27: `"sets_metrics_"`, `"sets_traces_"`, `"sets_logs_"`. -/
def setsMetrics : Bytes := [115, 101, 116, 115, 95, 109, 101, 116, 114, 105, 99, 115, 95]
def setsTraces : Bytes := [115, 101, 116, 115, 95, 116, 114, 97, 99, 101, 115, 95]
def setsLogs : Bytes := [115, 101, 116, 115, 95, 108, 111, 103, 115, 95]

/-- The four values of a view: the table and the three sets, encoded. -/
structure Quad where
  rows : Bytes
  metrics : Bytes
  traces : Bytes
  logs : Bytes

/-- What reading a view gives. -/
inductive Got where
  | absent
  | some (q : Quad)
  /-- a set is missing: `ErrKeyNotFound` is returned -/
  | broken

/-- dataframe.go:195-222 (`appendView`) and 103-119 (`read`, which reads one of the sets). -/
def readAt (db : KV) (v : Bytes) : Got :=
  match db v with
  | none => .absent
  | some r =>
    match db (setsMetrics ++ v), db (setsTraces ++ v), db (setsLogs ++ v) with
    | some m, some t, some l => .some ⟨r, m, t, l⟩
    | _, _, _ => .broken

/-- dataframe.go:251-256: the four writes of the transaction. -/
def writeAt (db : KV) (v : Bytes) (q : Quad) : KV :=
  (((db.set v q.rows).set (setsMetrics ++ v) q.metrics).set (setsTraces ++ v) q.traces).set (setsLogs ++ v) q.logs

/-- Operations of the data frame on the view `v`; `new`: the new values of the view from the old ones (`none` at first). -/
inductive FrameOp where
  /-- dataframe.go:164-258 `appendView`: one transaction -/
  | append (v : Bytes) (new : Option Quad → Quad)
  /-- dataframe.go:101-138 `read` -/
  | read (v : Bytes)

def FrameOp.view : FrameOp → Bytes
  | .append v _ => v
  | .read v => v

def frameStep (db : KV) : FrameOp → KV × Got
  | .append v new =>
    match readAt db v with
    | .absent => (writeAt db v (new none), readAt db v)
    | .some q => (writeAt db v (new (some q)), readAt db v)
    | .broken => (db, .broken)
  | .read v => (db, readAt db v)

/-- The view names of samples and scans start with `std_` (Model/Time.lean `viewPrefix`); operations with other names do not
occur (they do nothing here). -/
def frame : Comp where
  S := Unit
  Op := FrameOp
  Out := Got
  step := fun db _ op => if [115, 116, 100, 95].isPrefixOf op.view then some ((frameStep db op).1, (), (frameStep db op).2) else some (db, (), .absent)

/-- Alone. -/
def Comp.run (C : Comp) (db : KV) (s : C.S) : List C.Op → Option (KV × C.S × List C.Out)
  | [] => some (db, s, [])
  | op :: ops =>
    match C.step db s op with
    | none => none
    | some (db, s, o) =>
      match C.run db s ops with
      | none => none
      | some (db, s, os) => some (db, s, o :: os)

variable {ι : Type} [DecidableEq ι] (C : ι → Comp)

/-- Together, on one database. -/
def run (db : KV) (s : ∀ i, (C i).S) : List ((i : ι) × (C i).Op) → Option (KV × (∀ i, (C i).S) × List ((i : ι) × (C i).Out))
  | [] => some (db, s, [])
  | ⟨i, op⟩ :: ops =>
    match (C i).step db (s i) op with
    | none => none
    | some (db, si, o) =>
      match run db (fun j => if h : j = i then h ▸ si else s j) ops with
      | none => none
      | some (db, s, os) => some (db, s, ⟨i, o⟩ :: os)

/-- The three of them. -/
inductive Part where
  | dict | seq | frame
deriving DecidableEq

def program (c : Tr.Config) (bw : Nat) : Part → Comp
  | .dict => dict c
  | .seq => seq bw
  | .frame => frame

/-- cmd/rq/main.go:89-106: the dictionary is opened, then the sequence. A later restart is the operation `reopen` of both. -/
def boot (c : Tr.Config) (bw : Nat) (db : KV) : Option (KV × ∀ p, (program c bw p).S) :=
  match Tr.new c db with
  | none => none
  | some (db, tr) =>
    match getSequence db Sq.seqKey bw with
    | none => none
    | some (db, sq) => some (db, fun | .dict => (tr, []) | .seq => sq | .frame => ())

/-- The program on a database: outputs of the parts in order, and the final database. -/
def history (c : Tr.Config) (bw : Nat) (db : KV) (ops : List ((p : Part) × (program c bw p).Op)) : Option (KV × List ((p : Part) × (program c bw p).Out)) :=
  match boot c bw db with
  | none => none
  | some (db, s) =>
    match run (program c bw) db s ops with
    | none => none
    | some (db, _, os) => some (db, os)

end Verif.Shr
