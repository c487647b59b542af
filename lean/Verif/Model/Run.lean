/-!
# The server process

cmd/rq/main.go:71-153 `run`: the parts of the server are made one after the other, each with a deferred function that closes it; then two goroutines are started and `run` waits until it is told to stop. What the parts
are is in the other models; here is when they are there.
-/
namespace Verif.Mn

/-- What `run` opens: the database (main.go:85), the dictionary (90), the index (98), the sequence of sample ids (103), the service (112), the listening socket (119), the gRPC server (125), the telemetry of the server itself (133). -/
inductive Part where
  | database | dictionary | index | sequence | service | listener | server | telemetry
deriving DecidableEq, Repr

/-- What is done if making a part fails: `run` returns the error, or the process exits (main.go:121), or it cannot fail. -/
inductive OnFail where
  | ret | exit | never
deriving DecidableEq, Repr

/-- main.go:85-139, in this order. -/
def stages : List (Part × OnFail) :=
  [(.database, .ret), (.dictionary, .ret), (.index, .never), (.sequence, .ret), (.service, .ret), (.listener, .exit), (.server, .never), (.telemetry, .ret)]

/-- Where `run` is. -/
inductive Phase where
  /-- these are still to be made -/
  | starting (rest : List (Part × OnFail))
  /-- main.go:151 `<-ctx.Done()` -/
  | waiting
  /-- the deferred functions run -/
  | leaving
  | returned
  | exited
deriving DecidableEq, Repr

/-- `defers`: the parts whose closing is deferred, the last one first. `cancelled`: the context is (main.go:72). `ticker`: the goroutine of service.go:80-99 runs; `flushing`: it saves samples. `serving`: the goroutine of main.go:143-150 runs;
`exports`: requests that are in the handler. -/
structure Proc where
  phase : Phase
  defers : List Part := []
  cancelled : Bool := false
  ticker : Bool := false
  flushing : Bool := false
  serving : Bool := false
  exports : Nat := 0

def Proc.init : Proc := { phase := .starting stages }

/-- A step: of `run` (`make`, `wait`, `leave`, `close`, `ret`), from outside (`signal`), of the goroutines. -/
inductive Step where
  /-- the next part is made, or this fails -/
  | make (ok : Bool)
  | wait
  | leave
  | close
  | ret
  /-- an interrupt, main.go:72 -/
  | signal
  /-- `Serve` returns, main.go:146-149 -/
  | served
  /-- service.go:86-87 -/
  | ticked
  /-- service.go:85 -/
  | tickerEnds
  /-- the flush uses this -/
  | flushUse (p : Part)
  | flushEnds
  /-- a request to save data arrives, from outside or from the telemetry of the server itself -/
  | arrive
  /-- its handler takes a sample id, service.go:102-110 -/
  | save
deriving DecidableEq, Repr

/-- What is seen. `used`: by a flush or a request; `isOpen`: it is made and not closed. -/
inductive Event where
  | opened (p : Part)
  | closed (p : Part)
  | used (p : Part) (isOpen : Bool)
  | cancelled
  | failed (p : Part)
deriving DecidableEq, Repr

/-- What a flush uses: store.go:59-69, 78-101. -/
def flushParts : List Part := [.database, .dictionary, .index]

/-- One step; `none`: not possible. Simplification: `run` itself and the goroutines are interleaved at the points that are named here. gRPC's `Stop` (main.go:126) does not wait for handlers, and nobody waits for the flush. What
`self.Setup` exports while it fails is left out. -/
def step (p : Proc) : Step → Option (Proc × List Event)
  | .make ok =>
    match p.phase with
    | .starting ((x, f) :: rest) =>
      if ok then some ({ p with phase := .starting rest, defers := x :: p.defers }, [.opened x])
      else match f with
        | .ret => some ({ p with phase := .leaving }, [.failed x])
        | .exit => some ({ p with phase := .exited }, [.failed x])
        | .never => none
    | _ => none
  | .wait =>
    match p.phase with
    | .starting [] => some ({ p with phase := .waiting, ticker := true, serving := true }, [])
    | _ => none
  | .leave =>
    match p.phase with
    | .waiting => if p.cancelled then some ({ p with phase := .leaving }, []) else none
    | _ => none
  | .close =>
    match p.phase, p.defers with
    | .leaving, x :: l => some ({ p with defers := l }, [.closed x])
    | _, _ => none
  | .ret =>
    match p.phase, p.defers with
    | .leaving, [] => some ({ p with phase := .returned }, [])
    | _, _ => none
  | .signal =>
    match p.phase with
    | .returned | .exited => none
    | _ => some ({ p with cancelled := true }, if p.cancelled then [] else [.cancelled])
  | .served =>
    match p.phase with
    | .returned | .exited => none
    | _ => if p.serving then some ({ p with serving := false, cancelled := true }, if p.cancelled then [] else [.cancelled]) else none
  | .ticked =>
    match p.phase with
    | .returned | .exited => none
    | _ => if p.ticker ∧ ¬ p.flushing then some ({ p with flushing := true }, []) else none
  | .tickerEnds =>
    match p.phase with
    | .returned | .exited => none
    | _ => if p.ticker ∧ ¬ p.flushing ∧ p.cancelled then some ({ p with ticker := false }, []) else none
  | .flushUse x =>
    match p.phase with
    | .returned | .exited => none
    | _ => if p.flushing ∧ x ∈ flushParts then some (p, [.used x (decide (x ∈ p.defers))]) else none
  | .flushEnds =>
    match p.phase with
    | .returned | .exited => none
    | _ => if p.flushing then some ({ p with flushing := false }, []) else none
  | .arrive =>
    match p.phase with
    | .returned | .exited => none
    | _ => if (p.serving ∧ .server ∈ p.defers) ∨ .telemetry ∈ p.defers then some ({ p with exports := p.exports + 1 }, []) else none
  | .save =>
    match p.phase with
    | .returned | .exited => none
    | _ => if p.exports ≠ 0 then some ({ p with exports := p.exports - 1 }, [.used .sequence (decide (.sequence ∈ p.defers))]) else none

/-- A schedule. -/
def run (p : Proc) : List Step → Option (Proc × List Event)
  | [] => some (p, [])
  | s :: ss =>
    match step p s with
    | none => none
    | some (p', e) =>
      match run p' ss with
      | none => none
      | some (p'', es) => some (p'', e ++ es)

end Verif.Mn
