import Verif.Model.Bitmap
import Verif.Model.Bytes
/-!
# internal/js/rq.go, internal/snippets: script engines are pooled, compiled programs are cached

An engine is a goja runtime with the fields the host sets. Writers, clocks and scan functions are opaque (`ω`, `ν`, `σ`), as is what a
runtime holds (`γ`: all its globals). Any number of users take engines out of the pool, configure and run them, and put them back, in
any order.
-/
namespace Verif.En

/-- rq.go:23-29 `JS`; output `none`: `io.Discard`. `request` is the last scan (`θ`). -/
structure Engine (γ ω ν σ θ : Type) where
  runtime : γ
  output : Option ω := none
  now : Option ν := none
  scan : Option σ := none
  request : Option θ := none

/-- What a script does when it is run: it sees the runtime, whether and which clock and scan function there are, and the last request,
and leaves a runtime, the texts it printed and the last request it made. -/
structure Program (γ ν σ θ : Type) where
  run : γ → Option ν → Option σ → Option θ → γ × List Bytes × Option θ

/-- The pool, the engines there are, and who has which engine. -/
structure State (γ ω ν σ θ : Type) where
  engines : List (Engine γ ω ν σ θ) := []
  pool : List Nat := []
  held : AMap Nat Nat := []

/-- What a user does; `pick`: the place in the pool that `Get` takes, if there is one. `gc`: the garbage collector drops a
member. `again`: `Release` is called but the engine is used further: the engine is also the object `RQ` of its scripts (70), with all its
methods, so a script can do that, and `reset`. A script that does is split in two runs here. -/
inductive Op (γ ω ν σ θ : Type) where
  | get (u : Nat) (pick : Option Nat)
  | now (u : Nat) (n : ν)
  | scan (u : Nat) (f : σ)
  | output (u : Nat) (w : ω)
  | run (u : Nat) (p : Program γ ν σ θ)
  | reset (u : Nat)
  | release (u : Nat)
  | again (u : Nat)
  | gc (pos : Nat)

/-- Texts that reach a writer. -/
structure Written (ω : Type) where
  to : ω
  texts : List Bytes

variable {γ ω ν σ θ : Type} (fresh : γ)

/-- rq.go:59-74 `newJS`. -/
def newJS : Engine γ ω ν σ θ := { runtime := fresh }

/-- rq.go:40-45 `Reset`: the runtime is kept. -/
def Engine.reset (e : Engine γ ω ν σ θ) : Engine γ ω ν σ θ := { runtime := e.runtime }

/-- rq.go:31-33 `New`, 76 `jsPool`. -/
def get (s : State γ ω ν σ θ) (u : Nat) (pick : Option Nat) : State γ ω ν σ θ :=
  match pick.bind (s.pool[·]?) with
  | some k => { s with pool := s.pool.erase k, held := s.held.set u k }
  | none => { engines := s.engines ++ [newJS fresh], pool := s.pool, held := s.held.set u s.engines.length }

/-- The engine of a user is changed. -/
def change (s : State γ ω ν σ θ) (u : Nat) (f : Engine γ ω ν σ θ → Engine γ ω ν σ θ) : State γ ω ν σ θ :=
  match s.held.get u with
  | none => s
  | some k => { s with engines := s.engines.modify k f }

/-- rq.go:101-104 `Run`, with 122-142 (what is printed goes to the output) and 79 (`Scan` notes the request). -/
def ran (p : Program γ ν σ θ) (e : Engine γ ω ν σ θ) : (γ × List Bytes × Option θ) := p.run e.runtime e.now e.scan e.request

/-- The engine after a run. -/
def Engine.after (p : Program γ ν σ θ) (e : Engine γ ω ν σ θ) : Engine γ ω ν σ θ :=
  { e with runtime := (ran p e).1, request := (ran p e).2.2 }

/-- What reaches a writer in a run. -/
def writes (p : Program γ ν σ θ) (e : Engine γ ω ν σ θ) : List (Written ω) :=
  match e.output with
  | none => []
  | some w => [⟨w, (ran p e).2.1⟩]

/-- rq.go:54-57 `Release`. -/
def release (s : State γ ω ν σ θ) (u : Nat) : State γ ω ν σ θ :=
  match s.held.get u with
  | none => s
  | some k => { engines := s.engines.modify k Engine.reset, pool := s.pool ++ [k], held := s.held.filter fun e => decide (e.1 ≠ u) }

/-- One step, and what was written. rq.go:35-38 `WithNow`, 106-115 `WithData`, `WithScan`, 117-120 `WithOutput`. A user without an engine
does nothing. -/
def step (s : State γ ω ν σ θ) : Op γ ω ν σ θ → State γ ω ν σ θ × List (Written ω)
  | .get u pick => (get fresh s u pick, [])
  | .now u n => (change s u fun e => { e with now := some n }, [])
  | .scan u f => (change s u fun e => { e with scan := some f }, [])
  | .output u w => (change s u fun e => { e with output := some w }, [])
  | .run u p => (change s u (·.after p), match (s.held.get u).bind (s.engines[·]?) with
      | none => []
      | some e => writes p e)
  | .release u => (release s u, [])
  | .reset u => (change s u Engine.reset, [])
  | .again u => (match s.held.get u with
      | none => s
      | some k => { s with engines := s.engines.modify k Engine.reset, pool := s.pool ++ [k] }, [])
  | .gc pos => ({ s with pool := s.pool.eraseIdx pos }, [])

def run (ops : List (Op γ ω ν σ θ)) : State γ ω ν σ θ := ops.foldl (fun s op => (step fresh s op).1) {}

/-! ## internal/snippets -/

/-- snippets.go:29-41 `GetProgramData`: `compile` is goja's, `hash` xxhash; `cache` what the cache still has. The answer, and what the
cache has been told. -/
def getProgram {π ε : Type} (hash : Bytes → Nat) (compile : Bytes → Except ε π) (cache : Nat → Option π) (data : Bytes) :
    Except ε π × (Nat → Option π) :=
  match cache (hash data) with
  | some o => (.ok o, cache)
  | none => match compile data with
    | .error e => (.error e, cache)
    | .ok o => (.ok o, fun h => if h = hash data then some o else cache h)

/-- A history of calls; before each call the cache may have lost anything (`keep`). -/
def programs {π ε : Type} (hash : Bytes → Nat) (compile : Bytes → Except ε π) :
    (Nat → Option π) → List ((Nat → Bool) × Bytes) → List (Except ε π)
  | _, [] => []
  | cache, (keep, data) :: rest =>
    let r := getProgram hash compile (fun h => if keep h then cache h else none) data
    r.1 :: programs hash compile r.2 rest

end Verif.En
