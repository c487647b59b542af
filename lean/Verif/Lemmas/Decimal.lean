import Verif.Spec.Decimal
import Verif.Lemmas.Bytes
namespace Verif

theorem digitsValue_snoc (s : Bytes) (c : UInt8) : digitsValue (s ++ [c]) = 10 * digitsValue s + (c.toNat - 48) := by
  simp [digitsValue, List.foldl_append]

theorem natText_dec (n : Nat) : NatText n (dec n) := by
  induction n using Nat.strongRecOn with
  | _ n ih =>
    rw [dec_eq]
    by_cases h : n < 10
    · rw [if_pos h]
      refine ⟨by simp, ?_, fun _ => ?_, ?_⟩
      · intro c hc
        rw [List.mem_singleton] at hc; subst hc
        rw [digit_toNat h]; omega
      · rename_i h0
        simp only [List.head?_cons, Option.some.injEq] at h0
        rw [h0]
      · simp [digitsValue, digit_toNat h]
    · rw [if_neg h]
      obtain ⟨h1, h2, h3, h4⟩ := ih (n / 10) (by omega)
      refine ⟨by simp, ?_, ?_, ?_⟩
      · intro c hc
        rcases List.mem_append.1 hc with hc | hc
        · exact h2 c hc
        · rw [List.mem_singleton] at hc; subst hc
          rw [digit_toNat (by omega)]; omega
      · intro h0
        cases hd : dec (n / 10) with
        | nil => exact absurd hd h1
        | cons a l =>
          rw [hd] at h0 h3 h4
          have := h3 (by simpa using h0)
          rw [this] at h4
          simp [digitsValue] at h4
          omega
      · rw [digitsValue_snoc, h4, digit_toNat (by omega)]; omega

/-- A number has one decimal text. -/
theorem natText_unique {n : Nat} {s t : Bytes} (hs : NatText n s) (ht : NatText n t) : s = t := by
  have key : ∀ (n : Nat) (s : Bytes), NatText n s → s = dec n := by
    intro n
    induction n using Nat.strongRecOn with
    | _ n ih =>
      rintro s ⟨h1, h2, h3, h4⟩
      obtain ⟨r, c, rfl⟩ : ∃ r c, s = r ++ [c] := ⟨s.dropLast, s.getLast h1, (List.dropLast_concat_getLast h1).symm⟩
      rw [digitsValue_snoc] at h4
      have hc := h2 c (by simp)
      have hc' : digit (c.toNat - 48) = c := by
        apply UInt8.toNat_inj.1; rw [digit_toNat (by omega)]; omega
      rw [dec_eq]
      by_cases hr : r = []
      · subst hr
        simp only [digitsValue, List.foldl_nil] at h4
        rw [if_pos (by omega)]
        simp only [List.nil_append]
        rw [show n = c.toNat - 48 by omega, hc']
      · have hpos : digitsValue r ≠ 0 := by
          intro h0
          have hall : ∀ (l : Bytes) (a : Nat), l.foldl (fun a c => 10 * a + (c.toNat - 48)) a = 0 → a = 0 := by
            intro l
            induction l with
            | nil => intro a h; exact h
            | cons x l ih => intro a h; have := ih (10 * a + (x.toNat - 48)) h; omega
          cases r with
          | nil => exact hr rfl
          | cons a l =>
            have := hall l (10 * 0 + (a.toNat - 48)) h0
            have ha := h2 a (by simp)
            have : a = 48 := by apply UInt8.toNat_inj.1; show a.toNat = 48; omega
            subst this
            have := h3 rfl
            simp at this
        rw [if_neg (by omega)]
        have e1 : digitsValue r = n / 10 := by omega
        rw [← ih (n / 10) (by omega) r ⟨hr, fun c hc => h2 c (by simp [hc]), ?_, e1⟩]
        · rw [show n % 10 = c.toNat - 48 by omega, hc']
        · intro h0
          cases r with
          | nil => exact absurd rfl hr
          | cons a l =>
            have := h3 (by simpa using h0)
            simp at this
  rw [key n s hs, key n t ht]

theorem intText_decInt (i : Int) : IntText i (decInt i) := by
  cases i with
  | ofNat n => exact .inl ⟨Int.natCast_nonneg n, natText_dec n⟩
  | negSucc n => exact .inr ⟨Int.negSucc_lt_zero n, _, rfl, natText_dec (n + 1)⟩

theorem intText_unique {i : Int} {s t : Bytes} (hs : IntText i s) (ht : IntText i t) : s = t := by
  rcases hs with ⟨h, hs⟩ | ⟨h, a, rfl, hs⟩ <;> rcases ht with ⟨h', ht⟩ | ⟨h', b, rfl, ht⟩
  · exact natText_unique hs ht
  · omega
  · omega
  · rw [natText_unique hs ht]

theorem intText_iff (i : Int) (s : Bytes) : IntText i s ↔ decInt i = s :=
  ⟨fun h => intText_unique (intText_decInt i) h, fun h => h ▸ intText_decInt i⟩

theorem natText_iff (n : Nat) (s : Bytes) : NatText n s ↔ dec n = s :=
  ⟨fun h => natText_unique (natText_dec n) h, fun h => h ▸ natText_dec n⟩

example : IntText (-17) [45, 49, 55] := .inr ⟨by decide, _, rfl, by simp [NatText, digitsValue]⟩

end Verif
