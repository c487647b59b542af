import Verif.Spec.QueryCache
/-!
# What is in a file of the cache, read off the course of events

`r` is the course so far, the latest event first.
-/
namespace Verif.Qc

/-- Version and script of the process started by this event. -/
def Label.spawned : Label → Option (Nat × Bytes)
  | .spawn v x => some (v, x)
  | _ => none

/-- Number of bytes process `i` is to write by this event. -/
def Label.sent (i : Nat) : Label → Nat
  | .write j k => if j = i then k else 0
  | _ => 0

/-- The processes, in the order in which they were started. -/
def started (r : List Label) : List (Nat × Bytes) := (r.filterMap Label.spawned).reverse

/-- How many bytes process `i` has written. -/
def sent (i : Nat) (r : List Label) : Nat := (r.map (Label.sent i)).sum

/-- The key of the script of process `i`. -/
def keyOf (hash : Bytes → Nat) (r : List Label) (i : Nat) : Option Nat := (started r)[i]?.map fun p => hash p.2

/-- What process `i` writes. -/
def outOf (comp : Nat → Bytes → Option Bytes) (r : List Label) (i : Nat) : Bytes := ((started r)[i]?.bind fun p => comp p.1 p.2).getD []

/-- The writes to file `k` since it was last opened, the latest first: where, and what. `none`: it was never opened. -/
def fileAt (comp : Nat → Bytes → Option Bytes) (hash : Bytes → Nat) (k : Nat) : List Label → Option (List (Nat × Bytes))
  | [] => none
  | .open' i :: r => if keyOf hash r i = some k then some [] else fileAt comp hash k r
  | .write i m :: r =>
    if keyOf hash r i = some k then (fileAt comp hash k r).map (fun ws => (sent i r, ((outOf comp r i).drop (sent i r)).take m) :: ws)
    else fileAt comp hash k r
  | _ :: r => fileAt comp hash k r

/-- The byte at position `n` of a file after some writes: that of the latest write there; 0 if there is none but a write behind it. -/
def byteAt (n : Nat) : List (Nat × Bytes) → Option UInt8
  | [] => none
  | (off, ch) :: older =>
    if off ≤ n ∧ n < off + ch.length then ch[n - off]?
    else match byteAt n older with
      | some b => some b
      | none => if n < off ∧ ch ≠ [] then some 0 else none

end Verif.Qc
