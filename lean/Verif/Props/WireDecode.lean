import Verif.Lemmas.WireDecode3
import Verif.Props.Wire
/-!
# C95: which bytes are accepted, and what they mean
-/
namespace Verif.Pb
variable {S : Schema}

/-- **C95**: bytes are accepted exactly if they are a message, and they are read as this message. -/
theorem C95_exact (hS : S.Proper) {t : Nat} {b : Bytes} {v : Val} : unmarshal S t b = some v ↔ Decodes S 10000 t b v := by
  rw [← sub_decodes hS]
  unfold unmarshal Sub
  rw [Option.map_eq_some_iff]
  constructor
  · rintro ⟨m, h, rfl⟩; exact ⟨m, h, rfl⟩
  · rintro ⟨m, h, rfl⟩; exact ⟨m, h, rfl⟩

/-- **C95**: bytes are at most one message. -/
theorem C95_one (hS : S.Proper) {t : Nat} {b : Bytes} {v w : Val} (hv : Decodes S 10000 t b v) (hw : Decodes S 10000 t b w) : v = w := by
  have := (C95_exact hS).2 hv
  rw [(C95_exact hS).2 hw] at this
  exact (Option.some.inj this).symm

/-- **C95**: the bytes of two messages, one after the other, are accepted. -/
theorem C95_concat (hS : S.Proper) {t : Nat} {a b : Bytes} {v w : Val} (ha : unmarshal S t a = some v) (hb : unmarshal S t b = some w) :
    ∃ x, unmarshal S t (a ++ b) = some x := by
  unfold unmarshal at ha hb ⊢
  rw [Option.map_eq_some_iff] at ha hb
  obtain ⟨m, hm, -⟩ := ha
  obtain ⟨n, hn, -⟩ := hb
  obtain ⟨y, hy⟩ := ind_all hS _ t {} m b n hn
  exact ⟨_, by rw [read_append hS _ t {} a b m y hm hy]; rfl⟩

/-! ## A message by hand -/

/-- A link of a span: the flags three times (3; 0 in two bytes; 4), the trace ID with a wire type that it does not have. -/
def exLink : Bytes := [53, 3, 0, 0, 0, 8, 7, 53, 0, 0, 0, 0, 53, 4, 0, 0, 0]

theorem exLink_reads : (unmarshal otlp 22 exLink).bind (marshal otlp 22) = some [53, 4, 0, 0, 0, 8, 7] := by decide +kernel

example : ∃ v, Decodes otlp 10000 22 exLink v ∧ marshal otlp 22 v = some [53, 4, 0, 0, 0, 8, 7] := by
  obtain ⟨v, h, h'⟩ := Option.bind_eq_some_iff.1 exLink_reads
  exact ⟨v, (C95_exact otlp_proper).1 h, h'⟩

/-- The same from the definition: the pieces, and what is kept. -/
example : Pieces [⟨6, 5, [3, 0, 0, 0]⟩, ⟨1, 0, [7]⟩, ⟨6, 5, [0, 0, 0, 0]⟩, ⟨6, 5, [4, 0, 0, 0]⟩] exLink := by
  have v : ∀ c : UInt8, c.toNat < 128 → Varint [c] c.toNat := fun c hc => ⟨.last c hc, by simp, by omega⟩
  refine Pieces.cons (p := ⟨6, 5, [3, 0, 0, 0]⟩) (l := [53]) (by decide) (by decide) (v 53 (by decide)) rfl ?_
  refine Pieces.cons (p := ⟨1, 0, [7]⟩) (l := [8]) (by decide) (by decide) (v 8 (by decide)) ⟨7, v 7 (by decide)⟩ ?_
  refine Pieces.cons (p := ⟨6, 5, [0, 0, 0, 0]⟩) (l := [53]) (by decide) (by decide) (v 53 (by decide)) rfl ?_
  exact Pieces.cons (p := ⟨6, 5, [4, 0, 0, 0]⟩) (l := [53]) (by decide) (by decide) (v 53 (by decide)) rfl .nil

/-- A value that is not accepted: its length is too long. -/
example : ¬ ∃ v, Decodes otlp 10000 31 [0x0a, 2, 97] v := by
  rintro ⟨v, h⟩
  have h := (C95_exact otlp_proper).2 h
  have : (unmarshal otlp 31 [0x0a, 2, 97]).isNone = true := by decide +kernel
  rw [h] at this
  cases this

/-- Two values of an attribute, one after the other: two lists become one; of a list and a string the last counts. -/
example : (unmarshal otlp 31 ([0x2a, 4, 0x0a, 2, 0x10, 1] ++ [0x2a, 2, 0x0a, 0])).bind (marshal otlp 31) = some [0x2a, 6, 0x0a, 2, 0x10, 1, 0x0a, 0] := by decide +kernel
example : (unmarshal otlp 31 ([0x2a, 4, 0x0a, 2, 0x10, 1] ++ [0x0a, 1, 97] ++ [0x2a, 2, 0x0a, 0])).bind (marshal otlp 31) = some [0x2a, 2, 0x0a, 0] := by decide +kernel

end Verif.Pb
