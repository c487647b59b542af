import Verif.Model.Bitmap
import Verif.Model.Bytes
/-!
# internal/commands/query: running scripts, with a cache of compiled ones in the file system

Any number of `rq query` processes over the same home directory. `comp v` is `compile.Compile` of version `v` of the program
(esbuild and the bundled package), `hash` is xxhash. `os.WriteFile` opens the file with `O_CREATE|O_TRUNC` and then writes; a write
may come in pieces, and stop anywhere.
-/
namespace Verif.Qc

/-- How far a process is. -/
inductive Phase where
  /-- before reading the cache -/
  | start
  /-- the file does not exist -/
  | miss
  /-- compiled, before `WriteFile` -/
  | compiled (out : Bytes)
  /-- inside `WriteFile`, after opening; `off` bytes are written -/
  | writing (out : Bytes) (off : Nat)
  /-- `goja.Compile` and running of this program -/
  | running (prog : Bytes)
  /-- ended by an error, or killed -/
  | dead
deriving DecidableEq, Repr

/-- One `rq query` process. -/
structure Proc where
  version : Nat
  script : Bytes
  phase : Phase := .start
deriving DecidableEq, Repr

/-- The cache directory and the processes. -/
structure St where
  files : AMap Nat Bytes := []
  procs : List Proc := []
deriving DecidableEq, Repr

/-- What may happen. -/
inductive Label where
  | spawn (version : Nat) (script : Bytes)
  | read (i : Nat)
  | compile (i : Nat)
  | open' (i : Nat)
  | write (i k : Nat)
  | finish (i : Nat)
  /-- killed, or an error: a failed write leaves the file as it is -/
  | crash (i : Nat)
deriving DecidableEq, Repr

/-- Bytes `chunk` written at position `off` of a file; a gap is filled with zeros. -/
def put (f : Bytes) (off : Nat) (chunk : Bytes) : Bytes :=
  (f ++ List.replicate (off - f.length) 0).take off ++ chunk ++ f.drop (off + chunk.length)

/-- The process goes on to another phase. -/
def St.goto (s : St) (i : Nat) (ph : Phase) : St := { s with procs := s.procs.modify i (fun p => { p with phase := ph }) }

variable (comp : Nat → Bytes → Option Bytes) (hash : Bytes → Nat)

/-- internal/commands/query/query.go:81: `os.ReadFile(key)`. -/
def readStep (s : St) (i : Nat) (p : Proc) : Phase → Option St
  | .start => match s.files.get (hash p.script) with
    | some c => some (s.goto i (.running c))
    | none => some (s.goto i .miss)
  | _ => none

/-- internal/commands/query/query.go:85-88: `compile.Compile(data)`. -/
def compileStep (s : St) (i : Nat) (p : Proc) : Phase → Option St
  | .miss => match comp p.version p.script with
    | some out => some (s.goto i (.compiled out))
    | none => some (s.goto i .dead)
  | _ => none

/-- internal/commands/query/query.go:89: `os.WriteFile(key, cached, 0600)`, opening. -/
def openStep (s : St) (i : Nat) (p : Proc) : Phase → Option St
  | .compiled out => some ({ s with files := s.files.set (hash p.script) [] }.goto i (.writing out 0))
  | _ => none

/-- internal/commands/query/query.go:89: up to `k` more bytes are written, and at least one. -/
def writeStep (s : St) (i k : Nat) (p : Proc) : Phase → Option St
  | .writing out off => if (out.drop off).take k = [] then none else match s.files.get (hash p.script) with
    | some f => some ({ s with files := s.files.set (hash p.script) (put f off ((out.drop off).take k)) }.goto i (.writing out (min (off + k) out.length)))
    | none => none
  | _ => none

/-- internal/commands/query/query.go:89-99: everything is written; the program runs. -/
def finishStep (s : St) (i : Nat) : Phase → Option St
  | .writing out off => if off = out.length then some (s.goto i (.running out)) else none
  | _ => none

/-- One step; `none`: not possible now. -/
def step (s : St) : Label → Option St
  | .spawn v x => some { s with procs := s.procs ++ [{ version := v, script := x }] }
  | .read i => s.procs[i]?.bind fun p => readStep hash s i p p.phase
  | .compile i => s.procs[i]?.bind fun p => compileStep comp s i p p.phase
  | .open' i => s.procs[i]?.bind fun p => openStep hash s i p p.phase
  | .write i k => s.procs[i]?.bind fun p => writeStep hash s i k p p.phase
  | .finish i => s.procs[i]?.bind fun p => finishStep s i p.phase
  | .crash i => s.procs[i]?.map fun _ => s.goto i .dead

/-- A course of events. -/
def run (s : St) : List Label → Option St
  | [] => some s
  | l :: ls => (step comp hash s l).bind fun s' => run s' ls

end Verif.Qc
