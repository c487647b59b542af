import Verif.Model.WireOtlp
import Verif.Model.Store
/-!
# Scans that are asked for over the network

internal/service/api.go:12-14 `ScanSamples` gets a `v1.Scan` from gRPC; its times are `Timestamp`s and `Duration`s of protobuf, and are converted with
the 64-bit arithmetic of Go's `time` (internal/x/x.go:33-52).
-/
namespace Verif.Rq
open Pb (Val Schema fld opt rep alt Field)
open Tm (ScanTime defaultRange)

/-- proto/rq/v1/scan.proto:9-81. 0: `Scan`, 1: `Filter`, 2: `BaseFilter`, 3: `AttrFilter`, 4: `TimeRange`, 5: `Timestamp` and `Duration` of protobuf (they have the
same fields). -/
def rq : Schema
  | 0 => [fld 1 .enum, opt 2 (.msg 4), rep 3 (.msg 1), fld 4 .uint64, fld 5 .bool, opt 6 (.msg 5), opt 7 (.msg 5)]
  | 1 => [alt 1 (.msg 2), alt 2 (.msg 3)]
  | 2 => [fld 1 .enum, fld 2 .string]
  | 3 => [fld 1 .enum, fld 2 .string, fld 3 .string]
  | 4 => [opt 1 (.msg 5), opt 2 (.msg 5)]
  | 5 => [fld 1 .int64, fld 2 .enum]
  | _ => []

/-- `timestamppb.Timestamp`, `durationpb.Duration` (v1.33.0), for internal/x/x.go:36-45. -/
structure Stamp where
  seconds : Int := 0
  nanos : Int := 0
deriving DecidableEq, Repr

/-- proto/rq/v1/scan.proto:9-37 `Scan`. The ends of a time range may be missing. -/
structure Req where
  scope : Int := 0
  range : Option (Option Stamp × Option Stamp) := none
  filters : List St.Filter := []
  limit : Nat := 0
  reverse : Bool := false
  now : Option Stamp := none
  offset : Option Stamp := none
deriving DecidableEq, Repr

/-! ## As a message -/

/-- A message from its fields in order, and what they are set to. For internal/service/api.go:12. -/
def entries (parts : List (Field × List Val)) : List (Nat × Val) := parts.flatMap fun p => p.2.map fun v => (p.1.num, v)

/-- A number is set if it is not 0. For internal/service/api.go:12. -/
def numVal (n : Nat) : List Val := if n = 0 then [] else [.num n]
/-- A string is set if it is not empty. For internal/service/api.go:12. -/
def txtVal (s : Bytes) : List Val := if s = [] then [] else [.bytes s]
/-- The bits of an int32, an int64, for internal/service/api.go:12. -/
def bits32 (i : Int) : Nat := (i % 2 ^ 32).toNat
def bits64 (i : Int) : Nat := (i % 2 ^ 64).toNat

/-- For internal/service/api.go:12: a `Timestamp` or `Duration`. -/
def ofStamp (s : Stamp) : Val := .msg (entries [(fld 1 .int64, numVal (bits64 s.seconds)), (fld 2 .enum, numVal (bits32 s.nanos))]) []

/-- proto/rq/v1/scan.proto:59-75 `Filter`. -/
def ofFilter : St.Filter → Val
  | .base p v => .msg [(1, .msg (entries [(fld 1 .enum, numVal (bits32 p)), (fld 2 .string, txtVal v)]) [])] []
  | .attr p k v => .msg [(2, .msg (entries [(fld 1 .enum, numVal (bits32 p)), (fld 2 .string, txtVal k), (fld 3 .string, txtVal v)]) [])] []
  | .unset => .msg [] []

/-- proto/rq/v1/scan.proto:77-80 `TimeRange`. -/
def ofRange (p : Option Stamp × Option Stamp) : Val :=
  .msg (entries [(opt 1 (.msg 5), p.1.toList.map ofStamp), (opt 2 (.msg 5), p.2.toList.map ofStamp)]) []

/-- proto/rq/v1/scan.proto:9-37 `Scan`, as a client builds it. -/
def ofReq (r : Req) : Val :=
  .msg (entries [(fld 1 .enum, numVal (bits32 r.scope)), (opt 2 (.msg 4), r.range.toList.map ofRange), (rep 3 (.msg 1), r.filters.map ofFilter),
    (fld 4 .uint64, numVal r.limit), (fld 5 .bool, numVal (if r.reverse then 1 else 0)), (opt 6 (.msg 5), r.now.toList.map ofStamp),
    (opt 7 (.msg 5), r.offset.toList.map ofStamp)]) []

/-! ## What the server sees of a message -/

/-- The values of a field, for internal/service/api.go:12. -/
def vals (n : Nat) : Val → List Val
  | .msg fs _ => (fs.filter fun e => e.1 = n).map (·.2)
  | _ => []

/-- `GetLimit`, …: a number that is not set is 0. For internal/x/x.go:36-45. -/
def getNum (n : Nat) (v : Val) : Nat := match vals n v with | .num k :: _ => k | _ => 0
def getTxt (n : Nat) (v : Val) : Bytes := match vals n v with | .bytes s :: _ => s | _ => []

/-- An int32, an int64 from its bits, for internal/x/x.go:36-45. -/
def int32 (n : Nat) : Int := if n < 2 ^ 31 then n else (n : Int) - 2 ^ 32
def int64 (n : Nat) : Int := if n < 2 ^ 63 then n else (n : Int) - 2 ^ 64

/-- For internal/x/x.go:36-45. -/
def toStamp (v : Val) : Stamp := ⟨int64 (getNum 1 v), int32 (getNum 2 v)⟩

/-- internal/store/scan.go:96-117: the type switch on a filter. -/
def toFilter (v : Val) : St.Filter :=
  match vals 1 v, vals 2 v with
  | b :: _, _ => .base (int32 (getNum 1 b)) (getTxt 2 b)
  | [], a :: _ => .attr (int32 (getNum 1 a)) (getTxt 2 a) (getTxt 3 a)
  | [], [] => .unset

/-- internal/x/x.go:43-45. -/
def toRange (v : Val) : Option Stamp × Option Stamp := ((vals 1 v).head?.map toStamp, (vals 2 v).head?.map toStamp)

/-- internal/service/api.go:12: the request. -/
def toReq (v : Val) : Req where
  scope := int32 (getNum 1 v)
  range := (vals 2 v).head?.map toRange
  filters := (vals 3 v).map toFilter
  limit := getNum 4 v
  reverse := getNum 5 v ≠ 0
  now := (vals 6 v).head?.map toStamp
  offset := (vals 7 v).head?.map toStamp

/-! ## Go's times -/

/-- Arithmetic of int64, for internal/x/x.go:33-52. -/
def wrap (x : Int) : Int := (x + 2 ^ 63) % 2 ^ 64 - 2 ^ 63

/-- Go's `time.Time` without monotonic clock reading (`UTC` removes it, internal/x/x.go:28-30): seconds since the year 1 (`ext`), nanoseconds. -/
structure GoTime where
  sec : Int
  nsec : Int
deriving DecidableEq, Repr

/-- `unixToInternal` of Go's `time`: the seconds from the year 1 to 1970. For internal/x/x.go:36. -/
def unixToInternal : Int := 62135596800

/-- `time.Unix`, for internal/x/x.go:36. -/
def unix (sec nsec : Int) : GoTime :=
  if nsec < 0 ∨ 1000000000 ≤ nsec then
    if nsec - nsec.tdiv 1000000000 * 1000000000 < 0 then
      ⟨wrap (wrap (wrap (sec + nsec.tdiv 1000000000) - 1) + unixToInternal), nsec - nsec.tdiv 1000000000 * 1000000000 + 1000000000⟩
    else ⟨wrap (wrap (sec + nsec.tdiv 1000000000) + unixToInternal), nsec - nsec.tdiv 1000000000 * 1000000000⟩
  else ⟨wrap (sec + unixToInternal), nsec⟩

/-- `Timestamp.AsTime` of timestamppb, for internal/x/x.go:36, 44-45. Of a nil pointer it is the time of an empty one. -/
def asTime (s : Option Stamp) : GoTime := unix (s.getD {}).seconds (s.getD {}).nanos

/-- `Duration.AsDuration` of durationpb, for internal/x/x.go:41. -/
def asDuration (s : Stamp) : Int :=
  if (wrap (s.seconds * 1000000000)).tdiv 1000000000 ≠ s.seconds ∨
      s.seconds < 0 ∧ s.nanos < 0 ∧ wrap (wrap (s.seconds * 1000000000) + s.nanos) > 0 ∨
      s.seconds > 0 ∧ s.nanos > 0 ∧ wrap (wrap (s.seconds * 1000000000) + s.nanos) < 0 then
    if s.seconds < 0 then -2 ^ 63
    else if s.seconds > 0 then 2 ^ 63 - 1
    else wrap (wrap (s.seconds * 1000000000) + s.nanos)
  else wrap (wrap (s.seconds * 1000000000) + s.nanos)

/-- `addSec` of Go's `time`, for internal/x/x.go:41. -/
def addSec (ext d : Int) : Int :=
  if wrap (ext + d) > ext ↔ d > 0 then wrap (ext + d)
  else if d > 0 then 2 ^ 63 - 1
  else -(2 ^ 63 - 1)

/-- `Time.Add`, for internal/x/x.go:41, 47. -/
def GoTime.add (t : GoTime) (d : Int) : GoTime :=
  if 1000000000 ≤ t.nsec + d.tmod 1000000000 then ⟨addSec t.sec (d.tdiv 1000000000 + 1), t.nsec + d.tmod 1000000000 - 1000000000⟩
  else if t.nsec + d.tmod 1000000000 < 0 then ⟨addSec t.sec (d.tdiv 1000000000 - 1), t.nsec + d.tmod 1000000000 + 1000000000⟩
  else ⟨addSec t.sec (d.tdiv 1000000000), t.nsec + d.tmod 1000000000⟩

/-- internal/x/x.go:34-39: the time of the request, or the clock. -/
def baseTime (clock : GoTime) : Option Stamp → GoTime
  | some s => asTime (some s)
  | none => clock

/-- internal/x/x.go:40-42: less the offset. -/
def less (t : GoTime) : Option Stamp → GoTime
  | some o => t.add (wrap (-asDuration o))
  | none => t

/-- internal/x/x.go:33-52 `TimeBounds`, with Go's arithmetic. -/
def goBounds (clock : GoTime) (r : Req) : GoTime × GoTime :=
  match r.range with
  | some (a, b) => (asTime a, asTime b)
  | none => ((less (baseTime clock r.now) r.offset).add (-defaultRange), less (baseTime clock r.now) r.offset)

/-- The time that a `time.Time` is, as Model/Time.lean has it: nanoseconds since 1970. For internal/x/x.go:33-52. -/
def GoTime.unixNano (t : GoTime) : Int := (t.sec - unixToInternal) * 1000000000 + t.nsec

/-- internal/store/scan.go:20-25: the scan with the bounds that `TimeBounds` gives. Simplification: Model/Store.lean has the window of an instant scan begin 15 minutes
before its end, without the limits of 64 bits. -/
def served (clock : GoTime) (r : Req) : St.Scan where
  scope := r.scope
  filters := r.filters
  limit := r.limit
  reverse := r.reverse
  time := match r.range with
    | some _ => { range := some ((goBounds clock r).1.unixNano, (goBounds clock r).2.unixNano) }
    | none => { now := some (goBounds clock r).2.unixNano }

/-- `defaultServerMaxReceiveMessageSize`, `defaultClientMaxReceiveMessageSize` of gRPC v1.63.2 (4 MiB): cmd/rq/main.go:125 and internal/commands/home.go:59 set no other limit. -/
def recvLimit : Nat := 4194304

/-- internal/service/api.go:12-14 `ScanSamples`: the bytes of the request, and the answer; `none`: gRPC refuses them, as they are too many or not a request. -/
def scanSamples {σ : Type} (D : Dict σ) (s : St.Store σ) (E : St.Env) (clock : GoTime) (b : Bytes) : Option St.Result :=
  if recvLimit < b.length then none
  else match Pb.unmarshal rq 0 b with
    | none => none
    | some v => some (St.scan D s E (served clock (toReq v)))

/-- `timestamppb.New`, for internal/js/scan.go:56, 157-158: of a time in nanoseconds. -/
def stampOf (n : Int) : Stamp := ⟨n / 1000000000, n % 1000000000⟩
/-- `durationpb.New`, for internal/js/scan.go:50. -/
def durOf (n : Int) : Stamp := ⟨n.tdiv 1000000000, n - n.tdiv 1000000000 * 1000000000⟩

/-- internal/js/scan.go:17-19 `Scan`: the request that a script builds, whose times Model/Js.lean has in nanoseconds. -/
def reqOf (s : St.Scan) : Req where
  scope := s.scope
  range := s.time.range.map fun p => (some (stampOf p.1), some (stampOf p.2))
  filters := s.filters
  limit := s.limit
  reverse := s.reverse
  now := s.time.now.map stampOf
  offset := s.time.offset.map durOf

end Verif.Rq
