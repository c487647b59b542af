import Verif.Lemmas.Decimal
import Verif.Spec.Layout
import Verif.Props.Labels
/-! # C74: the texts of labels and sample keys -/
namespace Verif

/-- The text of a label: numbers in decimal, `:` between, the key, and `=` with the value if there is one. -/
def LabelText (l : Label) (s : Bytes) : Prop := ∃ r p, IntText l.resource r ∧ IntText l.pfx p ∧
  ((l.value = [] ∧ s = r ++ ascii ":" ++ p ++ ascii ":" ++ l.key) ∨ (l.value ≠ [] ∧ s = r ++ ascii ":" ++ p ++ ascii ":" ++ l.key ++ ascii "=" ++ l.value))

/-- **C74.** The text under which a label is kept in the dictionary. -/
theorem C74_label_text (l : Label) (s : Bytes) : l.encode = s ↔ LabelText l s := by
  have e1 : ascii ":" = [colon] := rfl
  have e2 : ascii "=" = [eqSign] := rfl
  unfold LabelText
  simp only [intText_iff, e1, e2, encode_eq_text, labelText]
  constructor
  · rintro rfl
    refine ⟨_, _, rfl, rfl, ?_⟩
    by_cases h : l.value = []
    · exact .inl ⟨h, by simp [h]⟩
    · exact .inr ⟨h, by simp [h]⟩
  · rintro ⟨r, p, rfl, rfl, ⟨h, rfl⟩ | ⟨h, rfl⟩⟩ <;> simp [h]

/-- **C74.** The text of the key of a sample, and of the prefix of the keys of a resource. -/
theorem C74_sample_text (k : SampleKey) (s : Bytes) :
    (k.encode = s ↔ ∃ r i, IntText k.resource r ∧ NatText k.id i ∧ s = r ++ ascii ":" ++ i) ∧
    (k.scanPrefix = s ↔ ∃ r, IntText k.resource r ∧ s = r ++ ascii ":") := by
  have e1 : ascii ":" = [colon] := rfl
  simp only [intText_iff, natText_iff, e1, SampleKey.encode, SampleKey.scanPrefix]
  constructor
  · constructor
    · rintro rfl; exact ⟨_, _, rfl, rfl, by simp⟩
    · rintro ⟨r, i, rfl, rfl, rfl⟩; simp
  · constructor
    · rintro rfl; exact ⟨_, rfl, rfl⟩
    · rintro ⟨r, rfl, rfl⟩; rfl

/-- internal/labels/labels_test.go. -/
example : LabelText { resource := 2, pfx := 3, key := ascii "scope", value := ascii "value" } (ascii "2:3:scope=value") :=
  (C74_label_text _ _).1 (by decide +kernel)

end Verif
