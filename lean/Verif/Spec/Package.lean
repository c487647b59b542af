import Verif.Model.Package
import Verif.Spec.Js
/-!
# What a script asks for

Told from the methods that the script calls on a query object, in order.
-/
namespace Verif.Pk
open St (Scan Filter)
open Js (Zone)

/-- The number of the signal of a class (proto/rq/v1 `Scan.SCOPE`). -/
def Class.signal : Class → Int
  | .metrics => 1
  | .trace => 2
  | .logs => 3

/-- The filter a method asks for. -/
def filterOf : Method → Option Filter
  | .resourceSchema v => some (.base Pfx.resourceSchema v)
  | .scopeSchema v => some (.base Pfx.scopeSchema v)
  | .scopeName v => some (.base Pfx.scopeName v)
  | .scopeVersion v => some (.base Pfx.scopeVersion v)
  | .name v => some (.base Pfx.name v)
  | .traceId v => some (.base Pfx.traceId v)
  | .spanId v => some (.base Pfx.spanId v)
  | .parentSpanId v => some (.base Pfx.parentSpanId v)
  | .logLevel v => some (.base Pfx.logsLevel v)
  | .resourceAttr k v => some (.attr Pfx.resourceAttributes k v)
  | .scopeAttr k v => some (.attr Pfx.scopeAttributes k v)
  | .attr k v => some (.attr Pfx.attributes k v)
  | _ => none

/-- The filter of the constructor: the name of a metric, unless it is empty. -/
def nameFilter : Class → Option Bytes → List Filter
  | .metrics, some n => if n = [] then [] else [.base Pfx.name n]
  | _, _ => []

def limitOf : Method → Option Int
  | .limit n => some n
  | _ => none

def offsetOf (parse : Bytes → Option Int) : Method → Option Int
  | .offset d => parse d
  | _ => none

/-- Milliseconds since 1970 are nanoseconds. -/
def nowOf : Method → Option Int
  | .now ms => some (ms * 1000000)
  | _ => none

/-- The method sets a window (a duration that cannot be parsed does not). -/
def setsWindow (parse : Bytes → Option Int) : Method → Bool
  | .latest | .today | .thisWeek | .thisMonth | .thisYear => true
  | .ago d => (parse d).isSome
  | _ => false

/-- The window that a method called at `ts` asks for; see Spec/Js.lean for the calendar. -/
def Window (parse : Bytes → Option Int) (z : Zone) (ts : Int) : Method → Int → Int → Prop
  | .latest, a, b => b = ts ∧ a = ts - 15 * 60 * 1000000000
  | .ago d, a, b => b = ts ∧ ∃ x, parse d = some x ∧ a = Js.before ts x
  | .today, a, b => Js.Window parse z ts .today a b
  | .thisWeek, a, b => Js.Window parse z ts .thisWeek a b
  | .thisMonth, a, b => Js.Window parse z ts .thisMonth a b
  | .thisYear, a, b => Js.Window parse z ts .thisYear a b
  | _, _, _ => False

/-- The last call that says something. -/
def lastOf {β : Type} (f : Method → Option β) (ms : List (Int × Method)) : Option β := (ms.filterMap fun m => f m.2).getLast?

/-- The scan that a query object asks for which was made by `new cls(name)` and on which `ms` were called, in order, at their times. -/
structure Asks (parse : Bytes → Option Int) (z : Zone) (cls : Class) (name : Option Bytes) (ms : List (Int × Method)) (a : Scan) : Prop where
  signal : a.scope = cls.signal
  filters : a.filters = nameFilter cls name ++ ms.filterMap fun m => filterOf m.2
  limit : a.limit = ((lastOf limitOf ms).map fun n => (n % 2 ^ 64).toNat).getD 0
  offset : a.time.offset = lastOf (offsetOf parse) ms
  now : a.time.now = lastOf nowOf ms
  reverse : a.reverse = true ↔ ∃ m ∈ ms, m.2 = .reverse
  window : match (ms.filter fun m => setsWindow parse m.2).getLast? with
    | none => a.time.range = none
    | some m => ∃ x y, a.time.range = some (x, y) ∧ Window parse z m.1 m.2 x y

/-- How many query objects a script has made. -/
def made (ops : List (Int × Op)) : Nat := (ops.filter fun op => match op.2 with | .new _ _ => true | _ => false).length

/-- The methods that a script has called on object `i`. -/
def callsOn (i : Nat) (ops : List (Int × Op)) : List (Int × Method) :=
  ops.filterMap fun op => match op.2 with
    | .call j m => if j = i then some (op.1, m) else none
    | _ => none

/-- A value as the payload that it is. -/
def Value.payload : Value → Data
  | .null => .none
  | .metrics rs => .metrics rs
  | .logs rs => .logs rs
  | .traces rs => .traces rs

end Verif.Pk
