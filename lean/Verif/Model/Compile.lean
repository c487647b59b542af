import Verif.Model.Paths
/-!
# internal/compile/compile.go: bundling a script in a temporary directory

Any number of processes over the same temporary directory; each call of `Compile` is one `Proc`. A directory is its files; it is named by a
number (`os.MkdirTemp` replaces the star of its pattern by one, and tries others while the name is taken). A call of `os.WriteFile` may
fail, and then leaves no file or the first bytes of it; `os.RemoveAll` may fail, and then leaves some of the files, and its error is
ignored. A process may be killed at any point. `esbuild` is a parameter: a function of the version of the program, the aliases and the files of its
working directory. `pkg v` is the table of bundled packages of version `v`; Go goes through it in any order.
-/
namespace Verif.Cp

/-- Files by name; and aliases: paths by name. -/
abbrev Files := Bytes → Option Bytes

/-- A file is written. -/
def Files.put (f : Files) (name content : Bytes) : Files := fun n => if n = name then some content else f n

/-- `index.ts`. -/
def indexTs : Bytes := [105, 110, 100, 101, 120, 46, 116, 115]
/-- `.js`. -/
def dotJs : Bytes := [46, 106, 115]
/-- `./`. -/
def here : Bytes := [46, 47]

/-- `filepath.Base` on Unix: the last part that is not empty. -/
def base (p : Bytes) : Bytes :=
  if p = [] then Pa.dot else match ((Pa.split p).filter (· ≠ [])).getLast? with
    | some c => c
    | none => [Pa.slash]

/-- internal/compile/compile.go:57: the file of a package. -/
def fileName (name : Bytes) : Bytes := base name ++ dotJs

/-- What `esbuild` says. -/
structure Built where
  errors : List Bytes
  outputs : List Bytes
deriving DecidableEq, Repr

/-- What a call of `Compile` comes to. -/
inductive Outcome where
  | ok (out : Bytes)
  /-- the text of an error of `esbuild` -/
  | error (text : Bytes)
  /-- an error of the file system -/
  | io
  /-- an index out of range -/
  | panic
deriving DecidableEq, Repr

/-- internal/compile/compile.go:32-35. -/
def outcome (b : Built) : Outcome :=
  match b.errors with
  | e :: _ => .error e
  | [] => match b.outputs with
    | o :: _ => .ok o
    | [] => .panic

/-- How far a call is. -/
inductive Phase where
  | start
  /-- inside `setup`: packages still to write, and the aliases so far -/
  | setup (dir : Nat) (rest : List (Bytes × Bytes)) (al : Files)
  /-- before the deferred `RemoveAll` -/
  | removing (dir : Nat) (r : Outcome)
  | done (r : Outcome)
  /-- killed -/
  | dead

/-- One call of `Compile`. `order`: how Go goes through the table of packages. -/
structure Proc where
  version : Nat
  script : Bytes
  order : List (Bytes × Bytes)
  phase : Phase := .start

structure St where
  dirs : Nat → Option Files := fun _ => none
  procs : List Proc := []

/-- What may happen. -/
inductive Label where
  | spawn (version : Nat) (script : Bytes) (order : List (Bytes × Bytes))
  | mkdir (i dir : Nat)
  | mkdirFail (i : Nat)
  /-- the next file is written -/
  | write (i : Nat)
  /-- the next file is not written, or only this many bytes of it -/
  | writeFail (i : Nat) (part : Option Nat)
  | build (i : Nat)
  | remove (i : Nat)
  /-- the files that `keep` says are left -/
  | removeFail (i : Nat) (keep : Bytes → Bool)
  | kill (i : Nat)

/-- The process goes on to another phase. -/
def St.goto (s : St) (i : Nat) (ph : Phase) : St := { s with procs := s.procs.modify i (fun p => { p with phase := ph }) }

/-- A directory gets other contents, or goes. -/
def St.setDir (s : St) (d : Nat) (f : Option Files) : St := { s with dirs := fun e => if e = d then f else s.dirs e }

/-- internal/compile/compile.go:39: `os.MkdirTemp`; the directory is new. -/
def mkdirStep (s : St) (i d : Nat) (p : Proc) : Phase → Option St
  | .start => if (s.dirs d).isSome then none else some ((s.setDir d (some fun _ => none)).goto i (.setup d p.order fun _ => none))
  | _ => none

/-- internal/compile/compile.go:40-42, 19-21. -/
def mkdirFailStep (s : St) (i : Nat) : Phase → Option St
  | .start => some (s.goto i (.done .io))
  | _ => none

/-- internal/compile/compile.go:56-64: one package is written and gets its alias. -/
def writeStep (s : St) (i : Nat) : Phase → Option St
  | .setup d ((name, data) :: rest) al => (s.dirs d).map fun f =>
      (s.setDir d (some (f.put (fileName name) data))).goto i (.setup d rest (al.put name (here ++ fileName name)))
  | _ => none

/-- internal/compile/compile.go:47, 23-35: all packages are written, the script is too, and `esbuild` runs. -/
def buildStep (esbuild : Nat → Files → Files → Built) (s : St) (i : Nat) (p : Proc) : Phase → Option St
  | .setup d [] al => (s.dirs d).map fun f =>
      (s.setDir d (some (f.put indexTs p.script))).goto i (.removing d (outcome (esbuild p.version al (f.put indexTs p.script))))
  | _ => none

/-- A file of which only a part is written, or nothing. -/
def torn (f : Files) (name data : Bytes) : Option Nat → Files
  | none => f
  | some n => f.put name (data.take n)

/-- internal/compile/compile.go:59-61 and 43-46; 48-50: the error is returned, with an empty name for the directory; `Compile` returns it at 19-21,
before it defers anything. -/
def writeFailStep (s : St) (i : Nat) (part : Option Nat) (p : Proc) : Phase → Option St
  | .setup d ((name, data) :: _) _ => (s.dirs d).map fun f => (s.setDir d (some (torn f (fileName name) data part))).goto i (.done .io)
  | .setup d [] _ => (s.dirs d).map fun f => (s.setDir d (some (torn f indexTs p.script part))).goto i (.done .io)
  | _ => none

/-- internal/compile/compile.go:22: `defer os.RemoveAll(dir)`. -/
def removeStep (s : St) (i : Nat) : Phase → Option St
  | .removing d r => some ((s.setDir d none).goto i (.done r))
  | _ => none

/-- internal/compile/compile.go:22: the error of `RemoveAll` is ignored. -/
def removeFailStep (s : St) (i : Nat) (keep : Bytes → Bool) : Phase → Option St
  | .removing d r => (s.dirs d).map fun f => (s.setDir d (some fun n => if keep n then f n else none)).goto i (.done r)
  | _ => none

variable (esbuild : Nat → Files → Files → Built) (pkg : Nat → List (Bytes × Bytes))

/-- One step; `none`: not possible now. -/
def step (s : St) : Label → Option St
  | .spawn v x o => if o.isPerm (pkg v) then some { s with procs := s.procs ++ [{ version := v, script := x, order := o }] } else none
  | .mkdir i d => s.procs[i]?.bind fun p => mkdirStep s i d p p.phase
  | .mkdirFail i => s.procs[i]?.bind fun p => mkdirFailStep s i p.phase
  | .write i => s.procs[i]?.bind fun p => writeStep s i p.phase
  | .writeFail i n => s.procs[i]?.bind fun p => writeFailStep s i n p p.phase
  | .build i => s.procs[i]?.bind fun p => buildStep esbuild s i p p.phase
  | .remove i => s.procs[i]?.bind fun p => removeStep s i p.phase
  | .removeFail i k => s.procs[i]?.bind fun p => removeFailStep s i k p.phase
  | .kill i => s.procs[i]?.bind fun p => match p.phase with
    | .done _ => none
    | _ => some (s.goto i .dead)

/-- A course of events. -/
def run (s : St) : List Label → Option St
  | [] => some s
  | l :: ls => (step esbuild pkg s l).bind fun s' => run s' ls

/-- internal/js/bundle/bundle.go:10-14: `@requiemdb/rq`, and its table with one package. -/
def rqName : Bytes := [64, 114, 101, 113, 117, 105, 101, 109, 100, 98, 47, 114, 113]
def bundled (index : Nat → Bytes) (v : Nat) : List (Bytes × Bytes) := [(rqName, index v)]

end Verif.Cp
