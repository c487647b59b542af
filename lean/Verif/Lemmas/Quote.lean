import Verif.Model.Quote
import Verif.Spec.Quote
/-! # UTF-8: the decoder and the encoder against Lean's -/
namespace Verif.Qt
open Rd (hexDigit)

theorem char_range (c : Char) : c.toNat < 0xD800 ∨ (0xDFFF < c.toNat ∧ c.toNat < 0x110000) := c.valid

theorem char_of (n : Nat) (h : n < 0xD800 ∨ (0xDFFF < n ∧ n < 0x110000)) : ∃ c : Char, c.toNat = n := by
  have hv : n.isValidChar := h
  refine ⟨Char.ofNatAux n hv, ?_⟩
  simp [Char.ofNatAux, Char.toNat]

theorem u8 {b : UInt8} {n : Nat} (h : n = b.toNat) : UInt8.ofNat n = b := by subst h; simp

theorem encodeRune_char (c : Char) : encodeRune c.toNat = String.utf8EncodeChar c := by
  have hc := char_range c
  unfold encodeRune String.utf8EncodeChar
  rw [show c.val.toNat = c.toNat from rfl]
  generalize c.toNat = n at hc
  dsimp only
  by_cases h1 : n ≤ 0x7F
  · rw [if_pos h1, if_pos h1]
  by_cases h2 : n ≤ 0x7FF
  · rw [if_neg h1, if_neg h1, if_pos h2, if_pos h2]
    rw [show 0xC0 + n / 64 = n / 64 % 0x20 + 0xc0 by omega, show 0x80 + n % 64 = n % 0x40 + 0x80 by omega]
  have h3 : ¬ ((n > 0x10FFFF || (0xD800 ≤ n && n ≤ 0xDFFF)) = true) := by simp; omega
  by_cases h4 : n ≤ 0xFFFF
  · rw [if_neg h1, if_neg h1, if_neg h2, if_neg h2, if_neg h3, if_pos h4, if_pos h4]
    rw [show 0xE0 + n / 4096 = n / 4096 % 0x10 + 0xe0 by omega, show 0x80 + n % 64 = n % 0x40 + 0x80 by omega, show 0x80 + n / 64 % 64 = n / 64 % 64 + 0x80 by omega]
  · rw [if_neg h1, if_neg h1, if_neg h2, if_neg h2, if_neg h3, if_neg h4, if_neg h4]
    rw [show 0xF0 + n / 262144 = n / 262144 % 0x08 + 0xf0 by omega, show 0x80 + n % 64 = n % 0x40 + 0x80 by omega,
      show 0x80 + n / 64 % 64 = n / 64 % 64 + 0x80 by omega, show 0x80 + n / 4096 % 64 = n / 4096 % 64 + 0x80 by omega]

/-- What the table says, in words. -/
theorem first_spec {b : Nat} {x : Nat × Nat × Nat} (hb : b < 256) (h : first b = some x) :
    (x.1 = 2 ∧ 0xC2 ≤ b ∧ b < 0xE0 ∧ x.2.1 = 0x80 ∧ x.2.2 = 0xBF) ∨
    (x.1 = 3 ∧ 0xE0 ≤ b ∧ b < 0xF0 ∧ x.2.1 = (if b = 0xE0 then 0xA0 else 0x80) ∧ x.2.2 = (if b = 0xED then 0x9F else 0xBF)) ∨
    (x.1 = 4 ∧ 0xF0 ≤ b ∧ b < 0xF5 ∧ x.2.1 = (if b = 0xF0 then 0x90 else 0x80) ∧ x.2.2 = (if b = 0xF4 then 0x8F else 0xBF)) := by
  unfold first at h
  split at h; · cases h
  split at h; · cases h; left; simp; omega
  split at h; · cases h; right; left; simp; omega
  split at h; · cases h; right; left; subst b; simp
  split at h; · cases h; right; left; refine ⟨rfl, by omega, by omega, ?_, ?_⟩ <;> rw [if_neg (by omega)]
  split at h; · cases h; right; right; subst b; simp
  split at h; · cases h; right; right; refine ⟨rfl, by omega, by omega, ?_, ?_⟩ <;> rw [if_neg (by omega)]
  split at h; · cases h; right; right; subst b; simp
  cases h

theorem first_two {b : Nat} (h : 0xC2 ≤ b) (h' : b < 0xE0) : first b = some (2, 0x80, 0xBF) := by
  unfold first; rw [if_neg (by omega), if_pos h']

theorem first_three {b : Nat} (h : 0xE0 ≤ b) (h' : b < 0xF0) : first b = some (3, if b = 0xE0 then 0xA0 else 0x80, if b = 0xED then 0x9F else 0xBF) := by
  unfold first; rw [if_neg (by omega), if_neg (by omega)]
  split; · subst b; rfl
  split; · rfl
  first | rfl | rw [if_pos h']

theorem first_four {b : Nat} (h : 0xF0 ≤ b) (h' : b < 0xF5) : first b = some (4, if b = 0xF0 then 0x90 else 0x80, if b = 0xF4 then 0x8F else 0xBF) := by
  unfold first; rw [if_neg (by omega), if_neg (by omega), if_neg (by omega), if_neg (by omega), if_neg (by omega)]
  split; · subst b; rfl
  by_cases h4 : b = 0xF4
  · subst b; rfl
  · rw [if_pos (by omega), if_neg h4]

theorem isCont_iff (b : Nat) : isCont b = true ↔ 0x80 ≤ b ∧ b ≤ 0xBF := by simp [isCont]

/-- A character is read as itself. -/
theorem front_char (c : Char) (s : Bytes) : ∃ b t, String.utf8EncodeChar c = b :: t ∧ front b (t ++ s) = (c.toNat, t.length + 1) := by
  rw [← encodeRune_char]
  have hc := char_range c
  generalize c.toNat = n at hc
  unfold encodeRune
  by_cases h1 : n ≤ 0x7F
  · rw [if_pos h1]
    refine ⟨_, [], rfl, ?_⟩
    have : (UInt8.ofNat n).toNat = n := by rw [UInt8.toNat_ofNat']; omega
    unfold front
    rw [this, if_pos (by omega)]; rfl
  by_cases h2 : n ≤ 0x7FF
  · rw [if_neg h1, if_pos h2]
    refine ⟨_, _, rfl, ?_⟩
    have e0 : (UInt8.ofNat (0xC0 + n / 64)).toNat = 0xC0 + n / 64 := by rw [UInt8.toNat_ofNat']; omega
    have e1 : (UInt8.ofNat (0x80 + n % 64)).toNat = 0x80 + n % 64 := by rw [UInt8.toNat_ofNat']; omega
    unfold front decodeRune
    rw [e0, if_neg (by omega), first_two (by omega) (by omega)]
    simp only [List.cons_append, List.nil_append, List.length_cons, List.getD_cons_zero, e1]
    rw [if_neg (by omega), if_neg (by simp; omega), if_pos (by omega)]
    simp; omega
  have h3 : ¬ ((n > 0x10FFFF || (0xD800 ≤ n && n ≤ 0xDFFF)) = true) := by simp; omega
  by_cases h4 : n ≤ 0xFFFF
  · rw [if_neg h1, if_neg h2, if_neg h3, if_pos h4]
    refine ⟨_, _, rfl, ?_⟩
    have e0 : (UInt8.ofNat (0xE0 + n / 4096)).toNat = 0xE0 + n / 4096 := by rw [UInt8.toNat_ofNat']; omega
    have e1 : (UInt8.ofNat (0x80 + n / 64 % 64)).toNat = 0x80 + n / 64 % 64 := by rw [UInt8.toNat_ofNat']; omega
    have e2 : (UInt8.ofNat (0x80 + n % 64)).toNat = 0x80 + n % 64 := by rw [UInt8.toNat_ofNat']; omega
    unfold front decodeRune
    rw [e0, if_neg (by omega), first_three (by omega) (by omega)]
    simp only [List.cons_append, List.nil_append, List.length_cons, List.getD_cons_zero, List.getD_cons_succ, e1, e2]
    rw [if_neg (by omega), if_neg ?_, if_neg (by omega), if_neg ?_, if_pos (by omega)]
    · simp; omega
    · simp [isCont]; omega
    · simp only [Bool.or_eq_true, decide_eq_true_eq]; split <;> split <;> omega
  · rw [if_neg h1, if_neg h2, if_neg h3, if_neg h4]
    refine ⟨_, _, rfl, ?_⟩
    have e0 : (UInt8.ofNat (0xF0 + n / 262144)).toNat = 0xF0 + n / 262144 := by rw [UInt8.toNat_ofNat']; omega
    have e1 : (UInt8.ofNat (0x80 + n / 4096 % 64)).toNat = 0x80 + n / 4096 % 64 := by rw [UInt8.toNat_ofNat']; omega
    have e2 : (UInt8.ofNat (0x80 + n / 64 % 64)).toNat = 0x80 + n / 64 % 64 := by rw [UInt8.toNat_ofNat']; omega
    have e3 : (UInt8.ofNat (0x80 + n % 64)).toNat = 0x80 + n % 64 := by rw [UInt8.toNat_ofNat']; omega
    unfold front decodeRune
    rw [e0, if_neg (by omega), first_four (by omega) (by omega)]
    simp only [List.cons_append, List.nil_append, List.length_cons, List.getD_cons_zero, List.getD_cons_succ, e1, e2, e3]
    rw [if_neg (by omega), if_neg ?_, if_neg (by omega), if_neg ?_, if_neg (by omega), if_neg ?_]
    · simp; omega
    · simp [isCont]; omega
    · simp [isCont]; omega
    · simp only [Bool.or_eq_true, decide_eq_true_eq]; split <;> split <;> omega

/-- A rune with the bytes of its encoding. -/
theorem char_enc {n : Nat} {l : Bytes} (h : n < 0xD800 ∨ (0xDFFF < n ∧ n < 0x110000)) (e : encodeRune n = l) :
    ∃ c : Char, c.toNat = n ∧ String.utf8EncodeChar c = l := by
  obtain ⟨c, hc⟩ := char_of n h
  exact ⟨c, hc, by rw [← encodeRune_char, hc, e]⟩

/-- Either a character is read, whose UTF-8 the string starts with, or a byte that is not one of ASCII is found to be invalid. -/
theorem front_cases (b : UInt8) (s : Bytes) : (front b s = (runeError, 1) ∧ 0x80 ≤ b.toNat) ∨
    ∃ c t, b :: s = String.utf8EncodeChar c ++ t ∧ front b s = (c.toNat, (String.utf8EncodeChar c).length) := by
  have hb := b.toNat_lt
  unfold front
  by_cases h0 : b.toNat < 0x80
  · right
    rw [if_pos h0]
    obtain ⟨c, h1, h2⟩ := char_enc (n := b.toNat) (l := [b]) (by omega) (by unfold encodeRune; rw [if_pos (by omega), u8 rfl])
    exact ⟨c, s, by rw [h2]; rfl, by rw [h2, h1]; rfl⟩
  rw [if_neg h0]
  unfold decodeRune
  cases hf : first b.toNat with
  | none => left; exact ⟨rfl, by omega⟩
  | some x =>
    have hx := first_spec hb hf
    obtain ⟨sz, lo, hi⟩ := x
    dsimp only at hx ⊢
    by_cases hl : s.length + 1 < sz
    · rw [if_pos hl]; left; exact ⟨rfl, by omega⟩
    rw [if_neg hl]
    cases s with
    | nil => simp at hl; omega
    | cons s1 s =>
    have hs1 := s1.toNat_lt
    simp only [List.getD_cons_zero, List.getD_cons_succ]
    by_cases ha : (s1.toNat < lo || hi < s1.toNat) = true
    · rw [if_pos ha]; left; exact ⟨rfl, by omega⟩
    rw [if_neg ha]
    simp only [Bool.or_eq_true, decide_eq_true_eq, not_or, Nat.not_lt] at ha
    by_cases h2 : sz ≤ 2
    · rw [if_pos h2]
      right
      have hx : 0xC2 ≤ b.toNat ∧ b.toNat < 0xE0 ∧ lo = 0x80 ∧ hi = 0xBF := by omega
      obtain ⟨c, e1, e2⟩ := char_enc (n := b.toNat % 32 * 64 + s1.toNat % 64) (l := [b, s1]) (by omega) (by
        unfold encodeRune
        rw [if_neg (by omega), if_pos (by omega), u8 (b := b) (by omega), u8 (b := s1) (by omega)])
      exact ⟨c, s, by rw [e2]; rfl, by rw [e2, e1]; rfl⟩
    rw [if_neg h2]
    cases s with
    | nil => simp at hl; omega
    | cons s2 s =>
    have hs2 := s2.toNat_lt
    simp only [List.getD_cons_zero, List.getD_cons_succ]
    by_cases hc2 : ¬ isCont s2.toNat = true
    · rw [if_pos (by simpa using hc2)]; left; exact ⟨rfl, by omega⟩
    rw [if_neg (by simpa using hc2)]
    rw [Decidable.not_not, isCont_iff] at hc2
    by_cases h3 : sz ≤ 3
    · rw [if_pos h3]
      right
      have hx : 0xE0 ≤ b.toNat ∧ b.toNat < 0xF0 ∧ lo = (if b.toNat = 0xE0 then 0xA0 else 0x80) ∧ hi = (if b.toNat = 0xED then 0x9F else 0xBF) := by omega
      obtain ⟨x1, x2, x3, x4⟩ := hx
      have y3 : 0x80 ≤ s1.toNat ∧ (b.toNat = 0xE0 → 0xA0 ≤ s1.toNat) := by split at x3 <;> omega
      have y4 : s1.toNat ≤ 0xBF ∧ (b.toNat = 0xED → s1.toNat ≤ 0x9F) := by split at x4 <;> omega
      obtain ⟨c, e1, e2⟩ := char_enc (n := b.toNat % 16 * 4096 + s1.toNat % 64 * 64 + s2.toNat % 64) (l := [b, s1, s2]) (by omega) (by
        unfold encodeRune
        rw [if_neg (by omega), if_neg (by omega), if_neg (by simp; omega), if_pos (by omega), u8 (b := b) (by omega), u8 (b := s1) (by omega), u8 (b := s2) (by omega)])
      exact ⟨c, s, by rw [e2]; rfl, by rw [e2, e1]; rfl⟩
    rw [if_neg h3]
    cases s with
    | nil => simp at hl; omega
    | cons s3 s =>
    have hs3 := s3.toNat_lt
    simp only [List.getD_cons_zero]
    by_cases hc3 : ¬ isCont s3.toNat = true
    · rw [if_pos (by simpa using hc3)]; left; exact ⟨rfl, by omega⟩
    rw [if_neg (by simpa using hc3)]
    rw [Decidable.not_not, isCont_iff] at hc3
    right
    have hx : 0xF0 ≤ b.toNat ∧ b.toNat < 0xF5 ∧ lo = (if b.toNat = 0xF0 then 0x90 else 0x80) ∧ hi = (if b.toNat = 0xF4 then 0x8F else 0xBF) := by omega
    obtain ⟨x1, x2, x3, x4⟩ := hx
    have y3 : 0x80 ≤ s1.toNat ∧ (b.toNat = 0xF0 → 0x90 ≤ s1.toNat) := by split at x3 <;> omega
    have y4 : s1.toNat ≤ 0xBF ∧ (b.toNat = 0xF4 → s1.toNat ≤ 0x8F) := by split at x4 <;> omega
    obtain ⟨c, e1, e2⟩ := char_enc (n := b.toNat % 8 * 262144 + s1.toNat % 64 * 4096 + s2.toNat % 64 * 64 + s3.toNat % 64) (l := [b, s1, s2, s3]) (by omega) (by
      unfold encodeRune
      rw [if_neg (by omega), if_neg (by omega), if_neg (by simp; omega), if_neg (by omega), u8 (b := b) (by omega), u8 (b := s1) (by omega), u8 (b := s2) (by omega),
        u8 (b := s3) (by omega)])
    exact ⟨c, s, by rw [e2]; rfl, by rw [e2, e1]; rfl⟩

/-- The bytes of the UTF-8 of a character: one below 0x80, or several from 0x80 to 0xF4. -/
theorem utf8_bytes (c : Char) : (c.toNat < 0x80 ∧ String.utf8EncodeChar c = [UInt8.ofNat c.toNat]) ∨
    (0x80 ≤ c.toNat ∧ 1 < (String.utf8EncodeChar c).length ∧ ∀ b ∈ String.utf8EncodeChar c, 0x80 ≤ b.toNat ∧ b.toNat < 0xF5) := by
  rw [← encodeRune_char]
  have hc := char_range c
  generalize c.toNat = n at hc
  unfold encodeRune
  by_cases h1 : n ≤ 0x7F
  · rw [if_pos h1]; left; exact ⟨by omega, rfl⟩
  right
  refine ⟨by omega, ?_⟩
  by_cases h2 : n ≤ 0x7FF
  · rw [if_neg h1, if_pos h2]
    refine ⟨by simp, ?_⟩
    simp only [List.forall_mem_cons, UInt8.toNat_ofNat']; simp; omega
  have h3 : ¬ ((n > 0x10FFFF || (0xD800 ≤ n && n ≤ 0xDFFF)) = true) := by simp; omega
  by_cases h4 : n ≤ 0xFFFF
  · rw [if_neg h1, if_neg h2, if_neg h3, if_pos h4]
    refine ⟨by simp, ?_⟩
    simp only [List.forall_mem_cons, UInt8.toNat_ofNat']; simp; omega
  · rw [if_neg h1, if_neg h2, if_neg h3, if_neg h4]
    refine ⟨by simp, ?_⟩
    simp only [List.forall_mem_cons, UInt8.toNat_ofNat']; simp; omega

/-- An invalid byte starts no character. -/
theorem front_bad {b : UInt8} {s : Bytes} (h : front b s = (runeError, 1)) (c : Char) : ¬ String.utf8EncodeChar c <+: b :: s := by
  rintro ⟨t, ht⟩
  obtain ⟨b', t', e, hf⟩ := front_char c t
  rw [e] at ht
  simp only [List.cons_append, List.cons.injEq] at ht
  obtain ⟨rfl, rfl⟩ := ht
  rw [h] at hf
  simp only [Prod.mk.injEq] at hf
  have hl : t'.length = 0 := by omega
  rcases utf8_bytes c with ⟨h1, -⟩ | ⟨-, h1, -⟩
  · rw [← hf.1] at h1; unfold runeError at h1; omega
  · rw [e, List.length_cons] at h1; omega

/-- What is read is what is there. -/
theorem reading (s : Bytes) : ∃ l, Reading s l := by
  generalize hn : s.length = n
  induction n using Nat.strongRecOn generalizing s with
  | _ n ih =>
  cases s with
  | nil => exact ⟨_, .nil⟩
  | cons b s =>
    rcases front_cases b s with ⟨h, -⟩ | ⟨c, t, e, -⟩
    · obtain ⟨l, hl⟩ := ih s.length (by simp at hn; omega) s rfl
      exact ⟨_, .bad (front_bad h) hl⟩
    · have : t.length < n := by
        rcases utf8_bytes c with ⟨-, h⟩ | ⟨-, h, -⟩ <;> have := congrArg List.length e <;> simp_all <;> omega
      obtain ⟨l, hl⟩ := ih t.length this t rfl
      rw [e]
      exact ⟨_, .char hl⟩

end Verif.Qt
