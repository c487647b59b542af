import Verif.Model.Seq
import Verif.Model.Store
/-!
# internal/service: accepting and flushing samples

A machine of interleaved steps: any number of export calls (`Save`, one per gRPC request), the flush goroutine, the end of the
process at any moment and its next start. Between two accesses to shared memory any other goroutine may run.

Simplifications: `SaveSamples` is one step (only the flush goroutine calls it, and it reads nothing that others write); the
sample sequence and the store are separate parts of the database (their keys differ, C54); the metric counter is left out.
-/
namespace Verif.Sv
open St (Flush Outcome)
variable {σ : Type}

/-- Where an export call is: service.go:103-111 `Save`. -/
inductive Pc where
  /-- not running -/
  | outside
  /-- before `dataMu.Lock()` -/
  | entered (d : Data)
  /-- holds the lock -/
  | locked (d : Data)
  /-- has the result of `s.seq.SampleID()` -/
  | numbered (d : Data) (id : Nat)
  /-- has appended the sample -/
  | appended (d : Data)

/-- Where the flush goroutine is: service.go:82-101 `start`. Lists are named by numbers. -/
inductive Fpc where
  /-- in the `select` -/
  | waiting
  /-- before `dataMu.Lock()` -/
  | ticked
  /-- holds the lock -/
  | locked
  /-- has put a new list in place of `ls` -/
  | swapped (ls : Nat)
  /-- has released the lock -/
  | unlocked (ls : Nat)
  /-- `SaveSamples` has returned -/
  | saved (ls : Nat)
  /-- has returned -/
  | stopped
deriving DecidableEq

inductive Holder where
  | call (t : Nat)
  | flusher
deriving DecidableEq

/-- The process and what survives it. -/
structure Svc (σ : Type) where
  /-- service.go:35 `dataMu` -/
  lock : Option Holder := none
  /-- contents of the lists ever allocated -/
  lists : Nat → List Sample := fun _ => []
  /-- number of lists ever allocated -/
  count : Nat := 1
  /-- internal/samples/samples.go:22 `pool` -/
  pool : List Nat := []
  /-- service.go:36 `data` -/
  data : Nat := 0
  calls : Nat → Pc := fun _ => .outside
  flusher : Fpc := .waiting
  /-- the context is cancelled -/
  cancelled : Bool := false
  /-- the process has exited -/
  dead : Bool := false
  /-- service.go:37 `seq` -/
  seq : Sq.World
  /-- service.go:34 `store` -/
  store : St.Store σ

/-- What happens next. -/
inductive Label (σ : Type) where
  /-- a request arrives on goroutine `t` -/
  | call (t : Nat) (d : Data)
  | lock (t : Nat)
  | number (t : Nat)
  | append (t : Nat)
  /-- `Unlock` and return -/
  | ret (t : Nat)
  | tick
  | flock
  /-- `pick`: what the pool hands out, if it has it -/
  | swap (pick : Option Nat)
  | funlock
  /-- iteration orders and faults of this flush; its samples are those of the list -/
  | save (fl : Flush)
  | release
  /-- the context is cancelled -/
  | cancel
  /-- the goroutine sees it -/
  | stop
  /-- the process ends here and is started again, with the dictionary in state `st`; `clean`: `seq.Release` was called -/
  | restart (st : σ) (clean : Bool)

/-- What clients and the store see. -/
inductive Event (σ : Type) where
  /-- a request with this payload was answered with success -/
  | returned (d : Data)
  /-- the store was handed these samples -/
  | flushed (fl : Flush) (o : Outcome)
  | restarted (st : σ)

def setCall (s : Svc σ) (t : Nat) (p : Pc) : Svc σ := { s with calls := fun u => if u = t then p else s.calls u }
def setList (s : Svc σ) (n : Nat) (l : List Sample) : Svc σ := { s with lists := fun m => if m = n then l else s.lists m }

/-- internal/samples/samples.go:13-15 `Get`: one of the pooled lists or a new one. -/
def get (s : Svc σ) (pick : Option Nat) : Nat × Svc σ :=
  match pick with
  | some n => if n ∈ s.pool then (n, { s with pool := s.pool.erase n }) else (s.count, setList { s with count := s.count + 1 } s.count [])
  | none => (s.count, setList { s with count := s.count + 1 } s.count [])

/-- internal/samples/samples.go:17-20 `Release`: empties the list; it is not put back into the pool. -/
def release (s : Svc σ) (n : Nat) : Svc σ := setList s n []

variable (D : Dict σ) (bw : Nat)

/-- One step of a living process; `none`: not possible in this state. service.go:82-111. -/
def live (s : Svc σ) : Label σ → Option (Svc σ × List (Event σ))
  | .call t d =>
    match s.calls t with
    | .outside => some (setCall s t (.entered d), [])
    | _ => none
  | .lock t =>
    match s.calls t, s.lock with
    | .entered d, none => some (setCall { s with lock := some (.call t) } t (.locked d), [])
    | _, _ => none
  | .number t =>
    match s.calls t with
    | .locked d =>
      match Sq.step bw s.seq .sampleID with
      | some (w, some n) => some (setCall { s with seq := w } t (.numbered d n), [])
      | _ => some ({ s with dead := true }, [])
    | _ => none
  | .append t =>
    match s.calls t with
    | .numbered d n => some (setCall (setList s s.data (s.lists s.data ++ [{ id := n, data := d }])) t (.appended d), [])
    | _ => none
  | .ret t =>
    match s.calls t with
    | .appended d => some (setCall { s with lock := none } t .outside, [.returned d])
    | _ => none
  | .tick => if s.flusher = .waiting then some ({ s with flusher := .ticked }, []) else none
  | .flock => if s.flusher = .ticked ∧ s.lock = none then some ({ s with flusher := .locked, lock := some .flusher }, []) else none
  | .swap pick =>
    if s.flusher = .locked then
      some ({ (get s pick).2 with data := (get s pick).1, flusher := .swapped s.data }, [])
    else none
  | .funlock =>
    match s.flusher with
    | .swapped ls => some ({ s with flusher := .unlocked ls, lock := none }, [])
    | _ => none
  | .save fl =>
    match s.flusher with
    | .unlocked ls =>
      let fl := { fl with samples := s.lists ls }
      let r := St.saveSamples D s.store fl
      some ({ s with store := r.1, flusher := .saved ls, dead := r.2 == .exit }, [.flushed fl r.2])
    | _ => none
  | .release =>
    match s.flusher with
    | .saved ls => some ({ release s ls with flusher := .waiting }, [])
    | _ => none
  | .cancel => some ({ s with cancelled := true }, [])
  | .stop => if s.flusher = .waiting ∧ s.cancelled then some ({ s with flusher := .stopped }, []) else none
  | .restart _ _ => none

/-- cmd/rq/main.go:71-153 `run` on the same directories: `seq.New`, `NewService`. -/
def start (w : Sq.World) (store : St.Store σ) : Option (Svc σ) :=
  match Sq.step bw w .reopen with
  | some (w, _) => some { seq := w, store := store }
  | none => none

/-- cmd/rq/main.go:106 `defer sequence.Release()`. -/
def atExit (w : Sq.World) (clean : Bool) : Sq.World :=
  if clean then (match Sq.step bw w .release with | some (w, _) => w | none => w) else w

/-- One step. -/
def step (s : Svc σ) : Label σ → Option (Svc σ × List (Event σ))
  | .restart st clean =>
    match start bw (atExit bw s.seq clean) (St.step D s.store (.restart st)) with
    | some s' => some (s', [.restarted st])
    | none => none
  | l => if s.dead then none else live D bw s l

/-- A schedule; `none`: not possible. -/
def run (s : Svc σ) : List (Label σ) → Option (Svc σ × List (Event σ))
  | [] => some (s, [])
  | l :: ls =>
    match step D bw s l with
    | none => none
    | some (s', e) =>
      match run s' ls with
      | none => none
      | some (s'', es) => some (s'', e ++ es)

/-- The first start, with an empty database. -/
def init (st : σ) (db : KV) : Option (Svc σ) :=
  match getSequence db Sq.seqKey bw with
  | some (db, seq) => some { seq := { db := db, seq := seq }, store := St.Store.start st (fun _ => none) [] }
  | none => none

end Verif.Sv
