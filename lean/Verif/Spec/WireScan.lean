import Verif.Model.WireScan
import Verif.Spec.Wire
/-!
# What a request for a scan asks for
-/
namespace Verif.Rq
open Pb (Utf8)
open Tm (ScanTime)

/-- The time, or the duration, in nanoseconds. -/
def Stamp.at (s : Stamp) : Int := s.seconds * 10 ^ 9 + s.nanos

/-- The parts are an int64 and an int32. -/
def Stamp.Ok (s : Stamp) : Prop := (-2 ^ 63 ≤ s.seconds ∧ s.seconds < 2 ^ 63) ∧ -2 ^ 31 ≤ s.nanos ∧ s.nanos < 2 ^ 31

/-- Strings are UTF-8 and properties are int32. -/
def FilterOk : St.Filter → Prop
  | .base p v => (-2 ^ 31 ≤ p ∧ p < 2 ^ 31) ∧ Utf8 v
  | .attr p k v => (-2 ^ 31 ≤ p ∧ p < 2 ^ 31) ∧ Utf8 k ∧ Utf8 v
  | .unset => True

/-- A request that can be written. -/
structure Req.Ok (r : Req) : Prop where
  scope : -2 ^ 31 ≤ r.scope ∧ r.scope < 2 ^ 31
  range : ∀ a b, r.range = some (a, b) → (∀ s, a = some s → s.Ok) ∧ ∀ s, b = some s → s.Ok
  filters : ∀ f ∈ r.filters, FilterOk f
  limit : r.limit < 2 ^ 64
  now : ∀ s, r.now = some s → s.Ok
  offset : ∀ s, r.offset = some s → s.Ok

/-- A time less than 140 billion years away. -/
def Stamp.Near (s : Stamp) : Prop := -2 ^ 62 ≤ s.seconds ∧ s.seconds ≤ 2 ^ 62

/-- The nanoseconds of a duration have the sign of the seconds, as protobuf asks. -/
def Stamp.Signed (s : Stamp) : Prop := (0 < s.seconds → 0 ≤ s.nanos) ∧ (s.seconds < 0 → s.nanos ≤ 0)

/-- A `time.Time`. -/
def GoTime.Near (t : GoTime) : Prop := (-2 ^ 62 ≤ t.sec ∧ t.sec ≤ 2 ^ 62) ∧ 0 ≤ t.nsec ∧ t.nsec < 10 ^ 9

/-- The times of the request are near; its duration is as protobuf asks. -/
structure Req.Sane (r : Req) : Prop where
  range : ∀ a b, r.range = some (a, b) → (∀ s, a = some s → s.Near) ∧ ∀ s, b = some s → s.Near
  now : ∀ s, r.now = some s → s.Near
  offset : ∀ s, r.offset = some s → s.Signed

/-- How far an offset goes: 292 years at most, and an offset of 292 years or more into the future goes 292 years into the past. -/
def reach (x : Int) : Int := if x ≤ -2 ^ 63 then 2 ^ 63 else if 2 ^ 63 ≤ x then 2 ^ 63 - 1 else x

/-- What the request asks for; a missing end of a time range is the beginning of 1970. -/
def Req.asks (r : Req) : St.Scan where
  scope := r.scope
  filters := r.filters
  limit := r.limit
  reverse := r.reverse
  time := {
    range := r.range.map fun p => ((p.1.map Stamp.at).getD 0, (p.2.map Stamp.at).getD 0)
    now := r.now.map Stamp.at
    offset := r.offset.map fun s => reach s.at }

/-- The times are less than 140 billion years away, the offset is a `time.Duration`. -/
structure TimesOk (s : ScanTime) : Prop where
  range : ∀ a b, s.range = some (a, b) → (-2 ^ 62 * 10 ^ 9 ≤ a ∧ a ≤ 2 ^ 62 * 10 ^ 9) ∧ -2 ^ 62 * 10 ^ 9 ≤ b ∧ b ≤ 2 ^ 62 * 10 ^ 9
  now : ∀ n, s.now = some n → -2 ^ 62 * 10 ^ 9 ≤ n ∧ n ≤ 2 ^ 62 * 10 ^ 9
  offset : ∀ d, s.offset = some d → -2 ^ 63 ≤ d ∧ d < 2 ^ 63

end Verif.Rq
