import Verif.Model.Labels
import Verif.Lemmas.Bytes
/-!
# C01–C04: label, key and id encodings
-/
namespace Verif

/-- What a label says after its resource and prefix: the key, and `=value` when there is a value. -/
def labelText (key value : Bytes) : Bytes := if value = [] then key else key ++ [eqSign] ++ value

theorem encode_eq_text (l : Label) :
    l.encode = decInt l.resource ++ colon :: (decInt l.pfx ++ colon :: labelText l.key l.value) := by
  unfold Label.encode labelText
  by_cases h : l.value = [] <;> simp [h]

/-- **C01.** Labels collide exactly when resource and prefix agree and the key/value text is the same. -/
theorem C01_label_encode_eq_iff (a b : Label) :
    a.encode = b.encode ↔
      a.resource = b.resource ∧ a.pfx = b.pfx ∧ labelText a.key a.value = labelText b.key b.value := by
  constructor
  · intro h
    rw [encode_eq_text, encode_eq_text] at h
    obtain ⟨h1, h⟩ := split_sep (decInt_no_colon _) (decInt_no_colon _) h
    obtain ⟨h2, h3⟩ := split_sep (decInt_no_colon _) (decInt_no_colon _) h
    exact ⟨decInt_injective h1, decInt_injective h2, h3⟩
  · rintro ⟨h1, h2, h3⟩
    rw [encode_eq_text, encode_eq_text, h1, h2, h3]

/-- **C01.** Labels of different resources or prefixes never collide. -/
theorem C01_resource_prefix_separated (a b : Label) (h : a.resource ≠ b.resource ∨ a.pfx ≠ b.pfx) :
    a.encode ≠ b.encode := by
  intro e
  obtain ⟨h1, h2, _⟩ := (C01_label_encode_eq_iff a b).1 e
  rcases h with h | h
  · exact h h1
  · exact h h2

/-- Golden value from internal/labels/labels_test.go: `2:3:scope=value`. -/
example : ({ resource := 2, pfx := 3, key := [115, 99, 111, 112, 101], value := [118, 97, 108, 117, 101] } : Label).encode
    = [50, 58, 51, 58, 115, 99, 111, 112, 101, 61, 118, 97, 108, 117, 101] := by
  simp [Label.encode, decInt, dec, decFuel, digit, colon, eqSign]
/-- Golden value from internal/labels/labels_test.go: `0:0:`. -/
example : ({} : Label).encode = [48, 58, 48, 58] := by
  simp [Label.encode, decInt, dec, decFuel, digit, colon]
/-- Resources 1 and 12 with digits that could be confused are separated (hypothesis of the theorem is met). -/
example : ({ resource := 1, pfx := 21 } : Label).resource ≠ ({ resource := 12, pfx := 1 } : Label).resource := by decide

/-- **C02, refuted.** The attribute `a = "b=c"` and the attribute `a=b = "c"` of the same kind have the same encoding, and so
does the valueless label with key `a=b=c`. -/
theorem C02_labels_injective_refuted :
    ¬ (∀ a b : Label, a.encode = b.encode → a = b) := by
  intro h
  have := h { resource := 1, pfx := 7, key := [97], value := [98, 61, 99] }
    { resource := 1, pfx := 7, key := [97, 61, 98], value := [99] }
    ((C01_label_encode_eq_iff _ _).2 ⟨rfl, rfl, by decide⟩)
  exact absurd this (by decide)

/-- **C02, what holds.** Labels whose keys do not contain `=` have distinct encodings. Missing for the full statement:
keys that contain `=`, for which the statement is false. -/
theorem C02_labels_injective_partial (a b : Label) (ha : eqSign ∉ a.key) (hb : eqSign ∉ b.key)
    (h : a.encode = b.encode) : a = b := by
  obtain ⟨h1, h2, h3⟩ := (C01_label_encode_eq_iff a b).1 h
  have ha' : ∀ c ∈ a.key, c ≠ eqSign := fun c hc e => ha (e ▸ hc)
  have hb' : ∀ c ∈ b.key, c ≠ eqSign := fun c hc e => hb (e ▸ hc)
  obtain ⟨ar, ap, ak, av⟩ := a
  obtain ⟨br, bp, bk, bv⟩ := b
  simp only [labelText] at *
  subst h1 h2
  by_cases h4 : av = [] <;> by_cases h5 : bv = [] <;> simp only [h4, h5, if_true, if_false] at h3
  · simp [h3, h4, h5]
  · exact absurd (h3 ▸ (by simp : eqSign ∈ bk ++ [eqSign] ++ bv)) ha
  · exact absurd (h3 ▸ (by simp : eqSign ∈ ak ++ [eqSign] ++ av)) hb
  · simp only [List.append_assoc, List.singleton_append] at h3
    obtain ⟨h6, h7⟩ := split_sep ha' hb' h3
    simp [h6, h7]

/-- The hypotheses are met by ordinary attribute labels (here `k="v="`; only the key is restricted). -/
example : eqSign ∉ ({ resource := 3, pfx := 7, key := [107], value := [118, 61] } : Label).key := by decide

/-- **C03.** The key of a sample determines its resource and id. -/
theorem C03_sample_key_injective (a b : SampleKey) (h : a.encode = b.encode) : a = b := by
  obtain ⟨ar, ai⟩ := a
  obtain ⟨br, bi⟩ := b
  simp only [SampleKey.encode] at h
  obtain ⟨h1, h2⟩ := split_sep (decInt_no_colon _) (decInt_no_colon _) h
  rw [decInt_injective h1, dec_injective h2]

/-- **C03.** The scan prefix of a resource is a prefix of exactly the keys of that resource. -/
theorem C03_prefix_selects_resource (p k : SampleKey) :
    p.scanPrefix <+: k.encode ↔ p.resource = k.resource := by
  constructor
  · rintro ⟨t, ht⟩
    simp only [SampleKey.scanPrefix, SampleKey.encode, List.append_assoc, List.singleton_append] at ht
    exact decInt_injective (split_sep (decInt_no_colon _) (decInt_no_colon _) ht).1
  · intro h
    exact ⟨dec k.id, by simp [SampleKey.scanPrefix, SampleKey.encode, h]⟩

/-- Resource 1's prefix does not select resource 12's keys, although `1` is a prefix of `12`. -/
example : ¬ ({ resource := 1 } : SampleKey).scanPrefix <+: ({ resource := 12, id := 7 } : SampleKey).encode := by
  rw [C03_prefix_selects_resource]; decide

/-- **C04.** Decoding an encoded 64-bit id gives it back, from exactly eight bytes. -/
theorem C04_id_roundtrip (v : Nat) (h : v < 2 ^ 64) :
    btou64 (u64tob v) = some v ∧ (u64tob v).length = 8 :=
  ⟨by rw [btou64_u64tob, Nat.mod_eq_of_lt h], u64tob_length v⟩

/-- **C04.** Encoding is injective on 64-bit ids. -/
theorem C04_id_injective (a b : Nat) (ha : a < 2 ^ 64) (hb : b < 2 ^ 64) (h : u64tob a = u64tob b) : a = b :=
  u64tob_inj ha hb h

/-- Lexicographic order of byte strings. -/
def bytesLt : Bytes → Bytes → Prop
  | [], [] => False
  | [], _ :: _ => True
  | _ :: _, [] => False
  | a :: as, b :: bs => a.toNat < b.toNat ∨ (a.toNat = b.toNat ∧ bytesLt as bs)

/-- Helper: the `n` low bytes, most significant first. -/
def beBytes : Nat → Nat → Bytes
  | 0, _ => []
  | n + 1, v => byteAt v n :: beBytes n v

theorem beBytes_order (n a b : Nat) : bytesLt (beBytes n a) (beBytes n b) ↔ a % 256 ^ n < b % 256 ^ n := by
  induction n with
  | zero => simp [beBytes, bytesLt, Nat.mod_one]
  | succ n ih =>
    simp only [beBytes, bytesLt, byteAt_toNat, ih, Nat.mod_pow_succ]
    have hp : 0 < 256 ^ n := Nat.pow_pos (by decide)
    have h1 := Nat.mod_lt a hp
    have h2 := Nat.mod_lt b hp
    generalize a / 256 ^ n % 256 = x
    generalize b / 256 ^ n % 256 = y
    generalize a % 256 ^ n = u at *
    generalize b % 256 ^ n = v at *
    generalize 256 ^ n = p at *
    constructor
    · rintro (h | ⟨rfl, h⟩)
      · have : p * (x + 1) ≤ p * y := Nat.mul_le_mul_left p h
        rw [Nat.mul_add] at this; omega
      · omega
    · intro h
      rcases Nat.lt_trichotomy x y with hxy | hxy | hxy
      · exact Or.inl hxy
      · subst hxy; exact Or.inr ⟨rfl, by omega⟩
      · have : p * (y + 1) ≤ p * x := Nat.mul_le_mul_left p hxy
        rw [Nat.mul_add] at this; omega

/-- **C04.** Byte order of encoded ids is numeric order of ids. -/
theorem C04_id_order (a b : Nat) (ha : a < 2 ^ 64) (hb : b < 2 ^ 64) :
    bytesLt (u64tob a) (u64tob b) ↔ a < b := by
  have h := beBytes_order 8 a b
  have e : (256 : Nat) ^ 8 = 2 ^ 64 := by decide
  rw [e, Nat.mod_eq_of_lt ha, Nat.mod_eq_of_lt hb] at h
  exact h

/-- A value that uses all eight bytes. -/
example : (0xFF00000000000001 : Nat) < 2 ^ 64 ∧
    u64tob 0xFF00000000000001 = [255, 0, 0, 0, 0, 0, 0, 1] := by decide

end Verif
