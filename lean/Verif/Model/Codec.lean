import Verif.Model.Bytes
/-!
# internal/compress: pooled zstd encoders and decoders

The zstd library is a parameter: `zip` is what an encoder that was given some bytes has written when it is closed, `unzip` what a decoder
makes of its input. (Encoders write some of it before they are closed; what they write is seen here when they are closed. Errors of the
writer an encoder writes to are not modelled.) `sync.Pool` gives any of its members, or a new one.
-/
namespace Verif.Cd

/-- A pool of encoders or decoders: all there are, those that are free, and what the users hold (`none`: the field was set to nil). -/
structure Pool (α : Type) where
  objs : List α := []
  free : List Nat := []
  held : List (Option Nat) := []
deriving DecidableEq, Repr

/-- internal/compress/zstd.go:52-54, 69-71 `getEncoder`, `getDecoder`, and then `Reset` to state `x`; `pick`: the member of the pool, or a
new one. The user is numbered by the count of users before. -/
def Pool.take {α : Type} (p : Pool α) (x : α) : Option Nat → Option (Pool α)
  | none => some { objs := p.objs ++ [x], free := p.free, held := p.held ++ [some p.objs.length] }
  | some e => if e ∈ p.free then some { objs := p.objs.set e x, free := p.free.erase e, held := p.held ++ [some e] } else none

/-- What a user sees: `none`, there is no such user; `some none`, its field is nil. -/
def Pool.see {α : Type} (p : Pool α) (s : Nat) : Option (Option α) :=
  match p.held[s]? with
  | none => none
  | some none => some none
  | some (some e) => some p.objs[e]?

/-- The object of user `s` changes. -/
def Pool.put {α : Type} (p : Pool α) (s : Nat) (x : α) : Pool α :=
  match p.held[s]? with
  | some (some e) => { p with objs := p.objs.set e x }
  | _ => p

/-- internal/compress/zstd.go:56-59, 73-76 `putEncoder`, `putDecoder`: reset to `blank`, back to the pool; and the field set to nil. -/
def Pool.giveBack {α : Type} (p : Pool α) (s : Nat) (blank : α) : Pool α :=
  match p.held[s]? with
  | some (some e) => { objs := p.objs.set e blank, free := e :: p.free, held := p.held.set s none }
  | _ => p

/-- An encoder: the writer it writes to (that of the user of this number) and what it was given. -/
structure Enc where
  to : Option Nat := none
  acc : Bytes := []
deriving DecidableEq, Repr

/-- All encoders, all decoders (what they have still to give), and what was written to the users' writers. -/
structure W where
  encs : Pool Enc := {}
  decs : Pool Bytes := {}
  sinks : List Bytes := []
deriving DecidableEq, Repr

/-- What users do, in any order. `read`: the decoder gives `k` bytes; `fin`: and the end of the stream, or an error. -/
inductive Op where
  | compress (pick : Option Nat)
  | write (s : Nat) (p : Bytes)
  | close (s : Nat)
  | decompress (d : Bytes) (pick : Option Nat)
  | read (r : Nat) (k : Nat) (fin : Bool)
  | writeTo (r : Nat)
deriving DecidableEq, Repr

/-- What comes of it: the bytes read, or a panic; `no`: this cannot happen. -/
inductive Res (σ : Type) where
  | ok (w : σ) (out : Bytes)
  | panic
  | no
deriving DecidableEq, Repr

/-- What an encoder writes goes to its writer. -/
def emit (sinks : List Bytes) (to : Option Nat) (b : Bytes) : List Bytes :=
  match to with
  | none => sinks
  | some s => sinks.set s (((sinks[s]?).getD []) ++ b)

/-- internal/compress/grpc.go:22-26 `Compress`; 38-44 `writeCodec.Close`, and `Write` of the embedded encoder; 28-32 `Decompress`; 50-58
`readCodec.Read`; 60-66 `WriteTo`. The functions of internal/compress/zstd.go are these in a row: `Compress` (12-26) and `To` (28-37) get an
encoder, write and close it; `Decompress` (39-50) gets a decoder and copies all of it. -/
def step (zip unzip : Bytes → Bytes) (w : W) : Op → Res W
  | .compress pick => match w.encs.take { to := some w.sinks.length } pick with
    | none => .no
    | some e => .ok { w with encs := e, sinks := w.sinks ++ [[]] } []
  | .write s p => match w.encs.see s with
    | none => .no
    | some none => .panic
    | some (some e) => .ok { w with encs := w.encs.put s { e with acc := e.acc ++ p } } []
  | .close s => match w.encs.see s with
    | none => .no
    | some none => .panic
    | some (some e) => .ok { w with encs := w.encs.giveBack s {}, sinks := emit w.sinks e.to (zip e.acc) } []
  | .decompress d pick => match w.decs.take (unzip d) pick with
    | none => .no
    | some e => .ok { w with decs := e } []
  | .read r k fin => match w.decs.see r with
    | none => .no
    | some none => .panic
    | some (some left) =>
      if fin then (if left.length ≤ k then .ok { w with decs := w.decs.giveBack r [] } left else .no)
      else .ok { w with decs := w.decs.put r (left.drop k) } (left.take k)
  | .writeTo r => match w.decs.see r with
    | none => .no
    | some none => .panic
    | some (some left) => .ok { w with decs := w.decs.giveBack r [] } left

end Verif.Cd
