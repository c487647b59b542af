import Verif.Spec.Json
import Mathlib.Tactic.Ring
/-!
# Bytes in base64
-/
namespace Verif.Jn

theorem fromDigits_foldl (base : Nat) (l : List Nat) : ∀ a, l.foldl (fun a x => base * a + x) a = a * base ^ l.length + fromDigits base l := by
  induction l with
  | nil => intro a; simp [fromDigits]
  | cons x l ih =>
    intro a
    simp only [fromDigits, List.foldl_cons, List.length_cons] at ih ⊢
    rw [ih, ih (base * 0 + x)]
    ring

theorem fromDigits_append (base : Nat) (l m : List Nat) : fromDigits base (l ++ m) = fromDigits base l * base ^ m.length + fromDigits base m := by
  rw [fromDigits, List.foldl_append, fromDigits_foldl]
  rfl

theorem letter_alphabet : ∀ n : Fin 64, alphabet[n.1]? = some (letter n.1) := by decide

theorem letters_alphabet {l : List Nat} (h : ∀ n ∈ l, n < 64) : l.map (alphabet[·]?) = (l.map letter).map some := by
  rw [List.map_map]
  exact List.map_congr_left fun n hn => letter_alphabet ⟨n, h n hn⟩

theorem base64_text (b : Bytes) : Base64 b (base64 b) := by
  induction b using base64.induct with
  | case1 => exact ⟨[], [], 0, rfl, rfl, by decide, rfl, by decide, by decide, rfl⟩
  | case2 a =>
    have := a.toNat_lt
    refine ⟨[a.toNat / 4, a.toNat % 4 * 16], _, 2, letters_alphabet ?_, rfl, by decide, by simp [base64], by simp, by simp, ?_⟩
    · intro n hn
      simp only [List.mem_cons, List.not_mem_nil, or_false] at hn
      omega
    · simp [fromDigits]
      omega
  | case3 a b =>
    have := a.toNat_lt
    have := b.toNat_lt
    refine ⟨[a.toNat / 4, a.toNat % 4 * 16 + b.toNat / 16, b.toNat % 16 * 4], _, 1, letters_alphabet ?_, rfl, by decide, by simp [base64], by simp, by simp, ?_⟩
    · intro n hn
      simp only [List.mem_cons, List.not_mem_nil, or_false] at hn
      omega
    · simp [fromDigits]
      omega
  | case4 a b c r ih =>
    have := a.toNat_lt
    have := b.toNat_lt
    have := c.toNat_lt
    obtain ⟨groups, letters, k, h1, h2, h3, h4, h5, h6, h7⟩ := ih
    have hg : ∀ n ∈ [a.toNat / 4, a.toNat % 4 * 16 + b.toNat / 16, b.toNat % 16 * 4 + c.toNat / 64, c.toNat % 64], n < 64 := by
      intro n hn
      simp only [List.mem_cons, List.not_mem_nil, or_false] at hn
      omega
    refine ⟨[a.toNat / 4, a.toNat % 4 * 16 + b.toNat / 16, b.toNat % 16 * 4 + c.toNat / 64, c.toNat % 64] ++ groups,
      [a.toNat / 4, a.toNat % 4 * 16 + b.toNat / 16, b.toNat % 16 * 4 + c.toNat / 64, c.toNat % 64].map letter ++ letters, k, ?_, ?_, h3, ?_, ?_, ?_, ?_⟩
    · rw [List.map_append, List.map_append, letters_alphabet hg, h1]
    · rw [base64, h2]
      rfl
    · rw [base64]
      simp only [List.length_cons]
      omega
    · simp only [List.length_append, List.length_cons, List.length_nil]
      omega
    · simp only [List.length_append, List.length_cons, List.length_nil]
      omega
    · rw [fromDigits_append, h7, show (a :: b :: c :: r).map UInt8.toNat = [a.toNat, b.toNat, c.toNat] ++ r.map UInt8.toNat from rfl, fromDigits_append]
      have e : fromDigits 64 [a.toNat / 4, a.toNat % 4 * 16 + b.toNat / 16, b.toNat % 16 * 4 + c.toNat / 64, c.toNat % 64] = fromDigits 256 [a.toNat, b.toNat, c.toNat] := by
        simp only [fromDigits, List.foldl_cons, List.foldl_nil]
        omega
      rw [e, List.length_map]
      simp only [List.length_append, List.length_cons, List.length_nil]
      have e1 : 6 * (0 + 1 + 1 + 1 + 1 + groups.length) - 8 * (r.length + 1 + 1 + 1) = 6 * groups.length - 8 * r.length := by omega
      have e2 : (64 : Nat) ^ groups.length = 256 ^ r.length * 2 ^ (6 * groups.length - 8 * r.length) := by
        rw [show (64 : Nat) = 2 ^ 6 from rfl, show (256 : Nat) = 2 ^ 8 from rfl, ← pow_mul, ← pow_mul, ← pow_add]
        congr 1
        omega
      rw [e1, e2]
      ring

end Verif.Jn
