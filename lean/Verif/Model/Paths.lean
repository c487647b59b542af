import Verif.Model.Bytes
/-!
# internal/home/homedir.go, internal/commands/home.go: where the files are

Go's `filepath.Clean` and `filepath.Join` (on Unix) are written from their documentation: component by component instead of byte by byte.
Everything but `dir` is about Unix; directories are made with `os.MkdirAll`, whose errors are ignored, so what is modelled is the path.
-/
namespace Verif.Pa

/-- `/`. -/
def slash : UInt8 := 47
def dot : Bytes := [46]
def dotdot : Bytes := [46, 46]

/-- The parts between slashes; there is always one. -/
def split : Bytes → List Bytes
  | [] => [[]]
  | b :: r =>
    if b = slash then [] :: split r
    else match split r with
      | [] => [[b]]
      | c :: cs => (b :: c) :: cs

/-- One part, in `filepath.Clean`: an empty part and `.` are dropped; `..` removes the part before it, and if there is none it is kept, or
dropped at the root. -/
def cleanStep (rooted : Bool) (out : List Bytes) (c : Bytes) : List Bytes :=
  if c = [] ∨ c = dot then out
  else if c = dotdot then
    match out.getLast? with
    | none => if rooted then out else [dotdot]
    | some l => if l = dotdot then out ++ [dotdot] else out.dropLast
  else out ++ [c]

/-- Parts with slashes between them. -/
def glue : List Bytes → Bytes
  | [] => []
  | [c] => c
  | c :: cs => c ++ slash :: glue cs

def rooted (p : Bytes) : Bool := p.head? == some slash

/-- The text of cleaned parts. -/
def text (rooted : Bool) (out : List Bytes) : Bytes :=
  if rooted then slash :: glue out else if out = [] then dot else glue out

/-- `filepath.Clean`. -/
def clean (p : Bytes) : Bytes := text (rooted p) ((split p).foldl (cleanStep (rooted p)) [])

/-- `filepath.Join`: empty elements at the front are left out; nothing at all is the empty path. -/
def join (elems : List Bytes) : Bytes :=
  match elems.dropWhile (· == []) with
  | [] => []
  | es => clean (glue es)

/-- What the operating system says about a path: whether it is a directory, and whether its owner may write there. -/
structure Info where
  isDir : Bool
  writable : Bool

/-- The world `Dir` looks at; a variable that is not set reads as empty. `kube`: there is a `.kube\config` in it. -/
structure World where
  windows : Bool := false
  env : Bytes → Bytes
  stat : Bytes → Option Info := fun _ => none
  kube : Bytes → Bool := fun _ => false

def HOME : Bytes := [72, 79, 77, 69]
def HOMEDRIVE : Bytes := [72, 79, 77, 69, 68, 82, 73, 86, 69]
def HOMEPATH : Bytes := [72, 79, 77, 69, 80, 65, 84, 72]
def USERPROFILE : Bytes := [85, 83, 69, 82, 80, 82, 79, 70, 73, 76, 69]

/-- homedir.go:34-37 `homeDriveHomePath`. -/
def driveAndPath (w : World) : Bytes :=
  if w.env HOMEDRIVE ≠ [] ∧ w.env HOMEPATH ≠ [] then w.env HOMEDRIVE ++ w.env HOMEPATH else []

/-- homedir.go:42-50: the first loop. -/
def kubeLoop (w : World) : List Bytes → Option Bytes
  | [] => none
  | p :: ps => if p = [] then kubeLoop w ps else if w.kube p then some p else kubeLoop w ps

/-- homedir.go:52-76: the second loop, with the two variables it sets, and 79-90. -/
def pickLoop (w : World) : Bytes → Bytes → List Bytes → Bytes
  | firstSet, firstExisting, [] => if firstExisting ≠ [] then firstExisting else if firstSet ≠ [] then firstSet else []
  | firstSet, firstExisting, p :: ps =>
    if p = [] then pickLoop w firstSet firstExisting ps
    else
      let firstSet := if firstSet = [] then p else firstSet
      match w.stat p with
      | none => pickLoop w firstSet firstExisting ps
      | some info =>
        let firstExisting := if firstExisting = [] then p else firstExisting
        if info.isDir && info.writable then p else pickLoop w firstSet firstExisting ps

/-- homedir.go:31-92 `Dir`. -/
def dir (w : World) : Bytes :=
  if w.windows then
    match kubeLoop w [w.env HOME, driveAndPath w, w.env USERPROFILE] with
    | some p => p
    | none => pickLoop w [] [] [w.env HOME, w.env USERPROFILE, driveAndPath w]
  else w.env HOME

def dotRq : Bytes := [46, 114, 113]
def cacheName : Bytes := [99, 97, 99, 104, 101]
def dataName : Bytes := [100, 97, 116, 97]
def dbName : Bytes := [100, 98]
def indexName : Bytes := [105, 110, 100, 101, 120]

/-- commands/home.go:14-21 `Home`. -/
def home (w : World) (base : List Bytes) : Bytes :=
  match base with
  | [] => join [dir w, dotRq]
  | [b] => if b = [] then join [dir w, dotRq] else join [b]
  | bs => join bs

/-- commands/home.go:23-27 `Cache`. -/
def cache (w : World) (base : List Bytes) : Bytes := join [home w base, cacheName]

/-- commands/home.go:29-33 `Data`. -/
def data (w : World) (base : List Bytes) : Bytes := join [home w base, dataName]

/-- commands/home.go:35-39 `DB`. -/
def db (w : World) (base : List Bytes) : Bytes := join [data w base, dbName]

/-- commands/home.go:41-45 `Index`. -/
def index (w : World) (base : List Bytes) : Bytes := join [data w base, indexName]

/-- cmd/rq/main.go:75-76, 95: the two directories of a server; `arg`: the first argument, empty if there is none. -/
def serverDB (w : World) (arg : Bytes) : Bytes := db w [arg]
def serverIndex (w : World) (arg : Bytes) : Bytes := index w [arg]

/-- internal/shards/shards.go:209: the file of a shard. -/
def shardFile (w : World) (arg : Bytes) (shard : UInt64) : Bytes := join [serverIndex w arg, dec shard.toNat]

/-- internal/commands/query/query.go:80: the file of a compiled script. -/
def scriptFile (w : World) (hash : UInt64) : Bytes := join [cache w [], dec hash.toNat]

end Verif.Pa
