import Verif.Props.Parse
import Verif.Props.Package
/-!
# C86: durations in queries

C40 and C85 leave open how a text is read as a duration. With Go's reading of it (Model/Parse.lean): `C86_ago`, `C86_offset`: the window and the
offset that a script asks for; `C86_query`, `C86_throws`: C85 without a premise about reading.
-/
namespace Verif.Un

theorem fifteen : parseDuration (ascii "15m") = some (15 * 60 * 1000000000) := by decide +kernel

/-- **C86**: `ago` with a duration in the range of an `int64`: the window ends at the time of the call and is as long as the text says. -/
theorem C86_ago (z : Js.Zone) (a : St.Scan) (ts : Int) (s : Bytes) (neg : Bool) (ps : List Piece) (h : Spelled s neg ps) :
    ∃ xs, List.Forall₂ Worth ps xs ∧ (xs.sum < 2 ^ 63 → (Js.call parseDuration z a ts (.ago s)).time.range = some (ts - signed neg xs.sum, ts)) ∧
      ((∀ x ∈ xs, x < 2 ^ 63) → 2 ^ 63 < xs.sum → Js.call parseDuration z a ts (.ago s) = a) := by
  obtain ⟨xs, h1, h2, _⟩ := C86_accepts s neg ps h
  refine ⟨xs, h1, fun hs => ?_, fun hx hs => ?_⟩
  · have := h2 fun x hx => Nat.lt_of_le_of_lt (le_sum hx) hs
    rw [if_pos (Or.inl hs)] at this
    simp only [Js.call, this, Js.rangeTS, Js.addNeg]
    rw [if_neg]
    · rfl
    · unfold signed
      cases neg <;> simp only [Bool.false_eq_true, if_false, if_true] <;> omega
  · have := h2 hx
    rw [if_neg (by rintro (h | ⟨_, h⟩) <;> omega)] at this
    simp only [Js.call, this]

/-- **C86**: `offset`. -/
theorem C86_offset (z : Js.Zone) (a : St.Scan) (ts : Int) (s : Bytes) (neg : Bool) (ps : List Piece) (h : Spelled s neg ps) :
    ∃ xs, List.Forall₂ Worth ps xs ∧ (xs.sum < 2 ^ 63 → (Js.call parseDuration z a ts (.offset s)).time.offset = some (signed neg xs.sum)) := by
  obtain ⟨xs, h1, h2, _⟩ := C86_accepts s neg ps h
  refine ⟨xs, h1, fun hs => ?_⟩
  have := h2 fun x hx => Nat.lt_of_le_of_lt (le_sum hx) hs
  rw [if_pos (Or.inl hs)] at this
  simp only [Js.call, this]

/-- **C85** with durations as Go reads them. -/
theorem C86_query {P : Vs.Hashes} {z : Js.Zone} (ok : z.Ok) (pre post : List (Int × Pk.Op)) (ts : Int) (cls : Pk.Class) (name : Option Bytes)
    (hts : ∀ op ∈ (ts, Pk.Op.new cls name) :: post, -2 ^ 63 ≤ z.wall op.1 ∧ z.wall op.1 < 2 ^ 63) :
    ∃ a, Pk.Asks parseDuration z cls name (Pk.callsOn (Pk.made pre) post) a ∧
      ∀ t fn clock, Pk.outcome parseDuration z P (pre ++ (ts, .new cls name) :: post) t (.query (Pk.made pre) fn clock) = Pk.got cls (Js.jsScan P fn clock a) :=
  Pk.C85_query ok fifteen pre post ts cls name hts

/-- **C86**: a script that gives `offset` or `ago` a text which is neither zero nor numbers with units gets an exception, and only then or if it
spells too much. -/
theorem C86_throws {P : Vs.Hashes} {z : Js.Zone} (ops : List (Int × Pk.Op)) (ts : Int) (i : Nat) (hi : i < Pk.made ops) (s : Bytes) (m : Pk.Method)
    (hm : m = .offset s ∨ m = .ago s) :
    (¬Zero s → (∀ neg ps, ¬Spelled s neg ps) → Pk.outcome parseDuration z P ops ts (.call i m) = .thrown) ∧
    (Zero s → Pk.outcome parseDuration z P ops ts (.call i m) = .this) ∧
    (∀ neg ps, Spelled s neg ps → ∃ xs, List.Forall₂ Worth ps xs ∧
      (xs.sum < 2 ^ 63 → Pk.outcome parseDuration z P ops ts (.call i m) = .this) ∧
      ((∀ x ∈ xs, x < 2 ^ 63) → 2 ^ 63 < xs.sum → Pk.outcome parseDuration z P ops ts (.call i m) = .thrown) ∧
      ((∃ x ∈ xs, 2 ^ 63 < x) → Pk.outcome parseDuration z P ops ts (.call i m) = .thrown)) := by
  obtain ⟨h1, h2⟩ := (Pk.C85_throws (P := P) (z := z) fifteen ops ts).1 i m hi
  have hthrow : parseDuration s = none → Pk.outcome parseDuration z P ops ts (.call i m) = .thrown := fun h => h1.2 ⟨s, hm, h⟩
  have hthis : ∀ d, parseDuration s = some d → Pk.outcome parseDuration z P ops ts (.call i m) = .this := by
    intro d hd
    apply h2
    intro ht
    obtain ⟨s', hm', hn⟩ := h1.1 ht
    have : s' = s := by
      rcases hm with rfl | rfl <;> rcases hm' with h | h <;> cases h <;> rfl
    rw [this, hd] at hn
    cases hn
  refine ⟨fun hz hs => ?_, fun hz => hthis 0 (C86_zero s hz), fun neg ps hsp => ?_⟩
  · cases hp : parseDuration s with
    | none => exact hthrow hp
    | some d =>
      rcases C86_reads s d hp with h | ⟨neg, ps, _, h, _⟩
      · exact absurd h.1 hz
      · exact absurd h (hs neg ps)
  · obtain ⟨xs, w, a1, a2⟩ := C86_accepts s neg ps hsp
    refine ⟨xs, w, fun hs => ?_, fun hx hs => ?_, fun h => hthrow (a2 h)⟩
    · have := a1 fun x hx => Nat.lt_of_le_of_lt (le_sum hx) hs
      rw [if_pos (Or.inl hs)] at this
      exact hthis _ this
    · have := a1 hx
      rw [if_neg (by rintro (h | ⟨_, h⟩) <;> omega)] at this
      exact hthrow this

/-- `1h30m` is spelled so, and asks for the last 90 minutes. -/
example : Spelled (ascii "1h30m") false [⟨ascii "1", none, ascii "h"⟩, ⟨ascii "30", none, ascii "m"⟩] :=
  ⟨⟨[], Or.inr ⟨Or.inl rfl, rfl⟩, rfl⟩, by simp, fun p hp => by
    simp only [List.mem_cons, List.not_mem_nil, or_false] at hp
    rcases hp with rfl | rfl
    · exact ⟨3600000000000, by decide, by decide, by decide, by decide⟩
    · exact ⟨60000000000, by decide, by decide, by decide, by decide⟩⟩

example : (Js.call parseDuration Js.Zone.utc { scope := 1 } 1700000000000000000 (.ago (ascii "1h30m"))).time.range = some (1699994600000000000, 1700000000000000000) := by decide +kernel

end Verif.Un
