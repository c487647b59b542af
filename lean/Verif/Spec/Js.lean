import Verif.Spec.Decimal
import Verif.Model.Js
import Verif.Spec.Calendar
/-!
# What a chain of builder calls means
-/
namespace Verif.Js
open Cal St

/-- Midnight (UTC) at the start of a date, in nanoseconds since 1970. -/
def midnight (t : Date) : Int := 86400000000000 * ((t.dayNo : Int) - epochDay)

/-- What a table of time zone periods is like: offsets are at most a day, and every instant (of the 64-bit seconds that Go has) lies
in its period, whose instants all have that period. -/
def Zone.Ok (z : Zone) : Prop := ∀ t,
  -86400000000000 ≤ (z.period t).off ∧ (z.period t).off ≤ 86400000000000 ∧
  (-2 ^ 63 * 1000000000 ≤ t → t < (2 ^ 63 - 1) * 1000000000 →
    (z.period t).begins ≤ t ∧ t < (z.period t).ends ∧ ∀ u, (z.period t).begins ≤ u → u < (z.period t).ends → z.period u = z.period t)

/-- The clocks of the zone are changed at most once in the 48 hours around the reading `w`. -/
def Zone.Calm (z : Zone) (w : Int) : Prop := ∃ change before after, ∀ t, w - 86400000000000 ≤ t → t ≤ w + 86400000000000 →
  (z.period t).off = if t < change then before else after

/-- The clocks of the zone show `w` at some instant (they do not when a change skips it). -/
def Zone.Shows (z : Zone) (w : Int) : Prop := ∃ t, z.wall t = w

/-- `a` is an instant at which the clocks of the zone show `w`, if there is one. -/
def Zone.IsAt (z : Zone) (w a : Int) : Prop := z.Calm w → z.Shows w → z.wall a = w

/-- The instant a duration before `ts`; there is no opposite of the least duration, -2^63 nanoseconds. -/
def before (ts x : Int) : Int := if x = -2 ^ 63 then ts - 2 ^ 63 else ts - x

/-- The window `a` … `b` that a call made at `ts` in zone `z` asks for. Dates are those of the zone. 1970-01-01 was a Thursday,
so day 3 of the epoch was a Sunday. -/
def Window (parse : Bytes → Option Int) (z : Zone) (ts : Int) : Call → Int → Int → Prop
  | .timeRange x y, a, b => a = x * 1000000 ∧ b = y * 1000000
  | .today, a, b => b = ts ∧ ∃ t h, IsTime (z.wall ts) t h ∧ z.IsAt (midnight t) a
  | .thisWeek, a, b => b = ts ∧ ∃ t h, IsTime (z.wall ts) t h ∧ (z.Calm (midnight t) → z.Shows (midnight t) →
      ∃ k : Int, let w := 86400000000000 * (3 + 7 * k); w ≤ z.wall ts ∧ z.wall ts < w + 7 * 86400000000000 ∧ z.IsAt w a)
  | .thisMonth, a, b => b = ts ∧ ∃ t h, IsTime (z.wall ts) t h ∧ z.IsAt (midnight { t with d := 1 }) a
  | .thisYear, a, b => b = ts ∧ ∃ t h, IsTime (z.wall ts) t h ∧ z.IsAt (midnight { y := t.y, m := 1, d := 1 }) a
  | .ago d, a, b => b = ts ∧ ∃ x, parse d = some x ∧ a = before ts x
  | _, _, _ => False

/-- The call sets a window (a duration that cannot be parsed does not). -/
def setsWindow (parse : Bytes → Option Int) : Call → Bool
  | .timeRange _ _ | .today | .thisWeek | .thisMonth | .thisYear => true
  | .ago d => (parse d).isSome
  | _ => false

/-- The signal a call asks for. -/
def signalOf : Call → Option Int
  | .resource r => if r = ascii "metrics" then some 1 else if r = ascii "logs" then some 3 else if r = ascii "traces" then some 2 else none
  | _ => none

def limitOf : Call → Option Int
  | .limit n => some n
  | _ => none

def offsetOf (parse : Bytes → Option Int) : Call → Option Int
  | .offset d => parse d
  | _ => none

def nowOf : Call → Option Int
  | .now ms => some (ms * 1000000)
  | _ => none

/-- The filter a call asks for. -/
def filterOf : Call → Option Filter
  | .resourceSchema v => some (.base Pfx.resourceSchema v)
  | .scopeSchema v => some (.base Pfx.scopeSchema v)
  | .scopeName v => some (.base Pfx.scopeName v)
  | .scopeVersion v => some (.base Pfx.scopeVersion v)
  | .name v => some (.base Pfx.name v)
  | .traceId v => some (.base Pfx.traceId v)
  | .spanId v => some (.base Pfx.spanId v)
  | .parentSpanId v => some (.base Pfx.parentSpanId v)
  | .logLevel v => some (.base Pfx.logsLevel v)
  | .resourceAttr k v => some (.attr Pfx.resourceAttributes k v)
  | .scopeAttr k v => some (.attr Pfx.scopeAttributes k v)
  | .attr k v => some (.attr Pfx.attributes k v)
  | _ => none

/-- The last call that says something. -/
def lastOf {β : Type} (f : Call → Option β) (cs : List (Int × Call)) : Option β := (cs.filterMap fun c => f c.2).getLast?

end Verif.Js
