import Verif.Spec.Humanize
import Verif.Props.Float
import Mathlib.Data.Nat.Log
/-!
# C91: numbers of bytes
-/
namespace Verif.Hu
open Un
set_option maxRecDepth 20000

theorem roundEven_near {a b k : ℕ} (h1 : 2 * a < (2 * k + 1) * b) (h2 : 2 * k * b < 2 * a + b) : roundEven a b = k := by
  unfold roundEven
  have hd := Nat.div_add_mod a b
  have hb : 0 < b := by
    rcases Nat.eq_zero_or_pos b with rfl | h
    · simp at h1
    · exact h
  have hm := Nat.mod_lt a hb
  generalize a % b = r at *
  generalize a / b = q at *
  rw [Nat.mul_comm] at hd
  subst hd
  split
  · rename_i hc
    have hc : b ≤ 2 * r := by omega
    -- `k = q + 1`
    have u1 : 2 * (q + 1) * b < (2 * k + 1) * b + b := by
      have : 2 * (q + 1) * b = 2 * (q * b) + 2 * b := by ring
      have : (2 * k + 1) * b + b = 2 * (k * b) + 2 * b := by ring
      have : (2 * k + 1) * b = 2 * (k * b) + b := by ring
      omega
    have u2 : 2 * k * b < (2 * (q + 1) + 1) * b := by
      have : (2 * (q + 1) + 1) * b = 2 * (q * b) + 3 * b := by ring
      omega
    have v1 := Nat.lt_of_mul_lt_mul_right (a := b) (show 2 * (q + 1) * b < (2 * k + 2) * b by
      have : (2 * k + 2) * b = (2 * k + 1) * b + b := by ring
      omega)
    have v2 := Nat.lt_of_mul_lt_mul_right u2
    omega
  · rename_i hc
    have hc : 2 * r ≤ b := by omega
    have u1 : 2 * q * b < (2 * k + 1) * b := by
      have : 2 * q * b = 2 * (q * b) := by ring
      omega
    have u2 : 2 * k * b < (2 * q + 2) * b := by
      have : (2 * q + 2) * b = 2 * (q * b) + 2 * b := by ring
      omega
    have v1 := Nat.lt_of_mul_lt_mul_right u1
    have v2 := Nat.lt_of_mul_lt_mul_right u2
    omega

theorem roundEven_tie (k c : ℕ) (hc : 0 < c) : roundEven ((2 * k + 1) * c) (2 * c) = if k % 2 = 0 then k else k + 1 := by
  unfold roundEven
  have e : (2 * k + 1) * c = c + 2 * c * k := by ring
  have h1 : (2 * k + 1) * c / (2 * c) = k := by rw [e, Nat.add_mul_div_left _ _ (by omega), Nat.div_eq_of_lt (by omega)]; omega
  have h2 : (2 * k + 1) * c % (2 * c) = c := by rw [e, Nat.add_mul_mod_self_left, Nat.mod_eq_of_lt (by omega)]
  rw [h1, h2]
  by_cases hk : k % 2 = 0
  · rw [if_neg (by omega), if_pos hk]
  · rw [if_pos (by omega), if_neg hk]

theorem scale_eq : scale = 2 ^ 69 := by decide +kernel
theorem quoE_10 : quoE 10 = 68 := by decide +kernel

theorem quo_bounds {n : ℕ} (h : n ≤ 10240) : 8 * (quoM n 10 * 10) ≤ (8 * n + 1) * 2 ^ 69 ∧ 8 * n * 2 ^ 69 ≤ 8 * (quoM n 10 * 10) + 2 ^ 69 := by
  have e : quoM n 10 = round53 (quo0 n 10) := rfl
  obtain ⟨a, b⟩ := quo0_bounds n 10 (by norm_num)
  obtain ⟨c, d⟩ := round_bounds (quo0 n 10)
  rw [e]
  rw [quoE_10] at a b
  generalize round53 (quo0 n 10) = R at *
  generalize quo0 n 10 = Q at *
  norm_num at a b c d ⊢
  constructor <;> linarith

theorem quo_half (k : ℕ) (h : k < 10240) : quoM (10 * k + 5) 10 = (2 * k + 1) * 2 ^ 68 := by
  have e : quoM (10 * k + 5) 10 = round53 (quo0 (10 * k + 5) 10) := rfl
  have e2 : quo0 (10 * k + 5) 10 = (2 * k + 1) * 2 ^ 68 := by
    unfold quo0
    rw [quoE_10]
    have : (10 * k + 5) * 2 ^ 68 = 10 * ((2 * k + 1) * 2 ^ 67) := by ring
    rw [this, Nat.mul_div_cancel_left _ (by norm_num), Nat.mul_mod_right, if_pos rfl]
    ring
  rw [e, e2, round_shift (by omega)]

/-- What is printed of a number of tenths. -/
theorem valText_eq {n : ℕ} (h : n ≤ 10240) : valText n = shown n := by
  obtain ⟨b1, b2⟩ := quo_bounds h
  unfold valText shown
  simp only
  by_cases hn : n < 100
  · rw [if_pos hn, if_pos (by rw [scale_eq]; omega)]
    rw [roundEven_near (k := n) (by rw [scale_eq]; omega) (by rw [scale_eq]; omega), List.append_assoc]
    rfl
  · rw [if_neg hn]
    obtain ⟨k, j, hj, rfl⟩ : ∃ k j, j < 10 ∧ n = 10 * k + j := ⟨n / 10, n % 10, by omega, by omega⟩
    have hk : (10 * k + j) / 10 = k := by omega
    have hm : (10 * k + j) % 10 = j := by omega
    rw [hk, hm]
    have hge : 10 * scale ≤ quoM (10 * k + j) 10 := by
      rw [scale_eq]
      by_cases h0 : k = 10 ∧ j = 0
      · obtain ⟨rfl, rfl⟩ := h0; decide +kernel
      · have h101 : 101 ≤ 10 * k + j := by omega
        generalize 10 * k + j = n at *
        norm_num at b2 ⊢
        linarith
    rw [if_neg (by omega)]
    congr 1
    rcases Nat.lt_trichotomy j 5 with h5 | rfl | h5
    · rw [if_pos (by omega)]
      exact roundEven_near (by rw [scale_eq]; omega) (by rw [scale_eq]; omega)
    · rw [quo_half k (by omega), scale_eq, show (2 : ℕ) ^ 69 = 2 * 2 ^ 68 by norm_num, roundEven_tie _ _ (by positivity)]
      by_cases hk2 : k % 2 = 0 <;> simp [hk2]
    · rw [if_neg (by omega)]
      exact roundEven_near (by rw [scale_eq]; omega) (by rw [scale_eq]; omega)

/-! ## Which number of tenths -/

theorem tenths_bounds {r s U : ℕ} (h1 : r * 2 ^ 53 ≤ s * (2 ^ 53 + 1)) (h2 : s * (2 ^ 53 - 1) ≤ r * 2 ^ 53) (hU : 0 < U) (h3 : r * (2 ^ 40 - 1) < 1024 * U * 2 ^ 40) :
    let n := round53 (2 * round53 (r * 10) + U) / (2 * U)
    2 * (n * U) * 2 ^ 30 ≤ 20 * s * 2 ^ 30 + U * (2 ^ 30 + 1) ∧ 20 * s * 2 ^ 30 ≤ 2 * (n * U) * 2 ^ 30 + U * (2 ^ 30 + 1) ∧ n ≤ 10240 := by
  intro n
  obtain ⟨a1, a2⟩ := round_bounds (r * 10)
  obtain ⟨b1, b2⟩ := round_bounds (2 * round53 (r * 10) + U)
  have hd := Nat.div_add_mod (round53 (2 * round53 (r * 10) + U)) (2 * U)
  have hm := Nat.mod_lt (round53 (2 * round53 (r * 10) + U)) (show 0 < 2 * U by omega)
  change 2 * U * n + _ = _ at hd
  generalize round53 (2 * round53 (r * 10) + U) % (2 * U) = x at *
  generalize round53 (2 * round53 (r * 10) + U) = B at *
  generalize round53 (r * 10) = A at *
  clear_value n
  have e : 2 * U * n = 2 * (n * U) := by ring
  rw [e] at hd
  have hn : n * U < 10241 * U := by generalize n * U = w at *; norm_num at h1 h2 h3 a1 a2 b1 b2 ⊢; linarith
  have := Nat.lt_of_mul_lt_mul_right hn
  generalize n * U = w at *
  norm_num at h1 h2 h3 a1 a2 b1 b2 ⊢
  refine ⟨by linarith, by linarith, by omega⟩

theorem sizes_eq {e : ℕ} (h : e ≤ 6) : sizes[e]? = some (unitName e) := by
  have : e = 0 ∨ e = 1 ∨ e = 2 ∨ e = 3 ∨ e = 4 ∨ e = 5 ∨ e = 6 := by omega
  rcases this with rfl | rfl | rfl | rfl | rfl | rfl | rfl <;> rfl

theorem pow_1024 (e : ℕ) : (1024 : ℕ) ^ e = 2 ^ (10 * e) := by rw [Nat.pow_mul]

theorem log_le {log : ℕ → ℕ} (h : Near log) {n : ℕ} (h1 : 10 ≤ n) (h2 : n < 2 ^ 65) : log n ≤ 6 := by
  have h := (h n h1).1
  by_contra hlt
  have : (1024 : ℕ) ^ 7 ≤ 1024 ^ log n := Nat.pow_le_pow_right (by norm_num) (by omega)
  omega

theorem round_range {s : ℕ} (h1 : 10 ≤ s) (h2 : s < 2 ^ 64) : 10 ≤ round53 s ∧ round53 s < 2 ^ 65 := by
  obtain ⟨a, b⟩ := round_bounds s
  generalize round53 s = r at *
  constructor <;> omega

theorem exactly {log : ℕ → ℕ} (h : Near log) {s : ℕ} (h1 : 10 ≤ s) (h2 : s < 2 ^ 64) :
    text log s = some (shown (tenths (round53 s) (log (round53 s))) ++ ascii " " ++ unitName (log (round53 s))) ∧ log (round53 s) ≤ 6 ∧
    (2 * (tenths (round53 s) (log (round53 s)) * 1024 ^ log (round53 s)) * 2 ^ 30 ≤ 20 * s * 2 ^ 30 + 1024 ^ log (round53 s) * (2 ^ 30 + 1) ∧
     20 * s * 2 ^ 30 ≤ 2 * (tenths (round53 s) (log (round53 s)) * 1024 ^ log (round53 s)) * 2 ^ 30 + 1024 ^ log (round53 s) * (2 ^ 30 + 1) ∧
     tenths (round53 s) (log (round53 s)) ≤ 10240) := by
  obtain ⟨r1, r2⟩ := round_range h1 h2
  have hlog := log_le h r1 r2
  obtain ⟨a, b⟩ := round_bounds s
  have hn := h _ r1
  have hb := tenths_bounds (r := round53 s) (s := s) (U := 1024 ^ log (round53 s)) a b (by positivity)
    (by have := hn.2; rw [Nat.pow_succ 1024, Nat.mul_comm (1024 ^ log (round53 s)) 1024] at this; exact this)
  have ht : tenths (round53 s) (log (round53 s)) = round53 (2 * round53 (round53 s * 10) + 1024 ^ log (round53 s)) / (2 * 1024 ^ log (round53 s)) := by
    unfold tenths
    rw [pow_1024, Nat.pow_succ, Nat.mul_comm (2 ^ (10 * log (round53 s))) 2]
  dsimp only at hb
  rw [← ht] at hb
  refine ⟨?_, hlog, hb⟩
  unfold text
  rw [if_neg (by omega), sizes_eq hlog]
  dsimp only
  rw [valText_eq hb.2.2, List.append_assoc]
  rfl

/-- **C91.** Ten bytes or more: a number of tenths of a unit, the nearest one but for roundings of floating point arithmetic (a part in 2^30 of a unit), with its last digit below 10 and without it (halves to even)
above; the unit is the right one, but for numbers next to a power of 1024. -/
theorem C91_shows {log : ℕ → ℕ} (h : Near log) {s : ℕ} (h1 : 10 ≤ s) (h2 : s < 2 ^ 64) :
    ∃ e n, text log s = some (shown n ++ ascii " " ++ unitName e) ∧ e ≤ 6 ∧ n ≤ 10240 ∧
      |(n : ℚ) * 1024 ^ e - 10 * s| ≤ (1 / 2 + 1 / 2 ^ 31) * 1024 ^ e ∧ (1024 : ℚ) ^ e * (1 - 1 / 2 ^ 39) ≤ s ∧ s * (1 - 1 / 2 ^ 39) < (1024 : ℚ) ^ (e + 1) := by
  obtain ⟨r1, -⟩ := round_range h1 h2
  obtain ⟨a, b⟩ := round_bounds s
  have hn := h _ r1
  obtain ⟨ht, he, hb1, hb2, hb3⟩ := exactly h h1 h2
  refine ⟨_, _, ht, he, hb3, ?_, ?_, ?_⟩
  all_goals clear ht
  all_goals generalize log (round53 s) = e at *
  · generalize tenths (round53 s) e = n at *
    have hb1 : (2 * (n * 1024 ^ e) * 2 ^ 30 : ℚ) ≤ 20 * s * 2 ^ 30 + 1024 ^ e * (2 ^ 30 + 1) := by exact_mod_cast hb1
    have hb2 : (20 * s * 2 ^ 30 : ℚ) ≤ 2 * (n * 1024 ^ e) * 2 ^ 30 + 1024 ^ e * (2 ^ 30 + 1) := by exact_mod_cast hb2
    generalize (n : ℚ) * 1024 ^ e = w at *
    generalize (1024 : ℚ) ^ e = U at *
    rw [abs_le]
    norm_num at hb1 hb2 ⊢
    constructor <;> linarith
  · have h1 : (1024 : ℕ) ^ e * (2 ^ 39 - 1) ≤ s * 2 ^ 39 := by
      have := hn.1
      generalize (1024 : ℕ) ^ e = U at *
      generalize round53 s = r at *
      clear hb1 hb2 hb3
      norm_num at *
      linarith
    have h1 : (1024 : ℚ) ^ e * (2 ^ 39 - 1) ≤ s * 2 ^ 39 := by
      have : ((1024 ^ e * (2 ^ 39 - 1) : ℕ) : ℚ) ≤ ((s * 2 ^ 39 : ℕ) : ℚ) := by exact_mod_cast h1
      push_cast at this
      norm_num at this ⊢
      linarith
    norm_num at h1 ⊢
    linarith
  · have h1 : s * (2 ^ 39 - 1) < (1024 : ℕ) ^ (e + 1) * 2 ^ 39 := by
      have := hn.2
      generalize (1024 : ℕ) ^ (e + 1) = U at *
      generalize round53 s = r at *
      clear hb1 hb2 hb3 hn
      norm_num at *
      linarith
    have h1 : s * (2 ^ 39 - 1) < (1024 : ℚ) ^ (e + 1) * 2 ^ 39 := by
      have : ((s * (2 ^ 39 - 1) : ℕ) : ℚ) < ((1024 ^ (e + 1) * 2 ^ 39 : ℕ) : ℚ) := by exact_mod_cast h1
      push_cast at this
      norm_num at this ⊢
      linarith
    norm_num at h1 ⊢
    linarith

/-- **C91.** Less than 1024 bytes are shown exactly. -/
theorem C91_small {log : ℕ → ℕ} (h : Near log) {s : ℕ} (hs : s < 1024) : ∃ t, NatText s t ∧ text log s = some (t ++ ascii " B") := by
  refine ⟨dec s, (natText_iff _ _).2 rfl, ?_⟩
  by_cases h1 : s < 10
  · rw [text, if_pos h1]; rfl
  · have hr : round53 s = s := round_small (by omega)
    obtain ⟨ht, -⟩ := exactly h (s := s) (by omega) (by omega)
    have he : log s = 0 := by
      have := (h s (by omega)).1
      by_contra h0
      have h2 : (1024 : ℕ) ^ 1 ≤ 1024 ^ log s := Nat.pow_le_pow_right (by norm_num) (by omega)
      omega
    have hten : tenths s 0 = 10 * s := by
      unfold tenths
      rw [round_small (n := s * 10) (by omega), round_small (by omega)]
      omega
    rw [hr, he, hten] at ht
    rw [ht]
    have : shown (10 * s) = dec s := by
      unfold shown
      rw [if_neg (by omega)]
      have a : 10 * s % 10 = 0 := by omega
      have b : 10 * s / 10 = s := by omega
      rw [a, b, if_pos (by omega)]
    rw [this, List.append_assoc]
    rfl

/-! ## Reading it -/

theorem isDig_dec (n : ℕ) : ∀ b ∈ dec n, isDig b = true := fun b hb => isDig_of (dec_digits n b hb)

/-- The number that is shown. -/
def shownValue (n : ℕ) : ℚ := if n < 100 then n / 10 else if n % 10 < 5 ∨ (n % 10 = 5 ∧ n / 10 % 2 = 0) then (n / 10 : ℕ) else (n / 10 + 1 : ℕ)

theorem shownValue_near (n : ℕ) : |shownValue n - n / 10| ≤ if n < 100 then 0 else 1 / 2 := by
  unfold shownValue
  by_cases hn : n < 100
  · rw [if_pos hn, if_pos hn]; simp
  · rw [if_neg hn, if_neg hn]
    have e : (n : ℚ) = 10 * (n / 10 : ℕ) + (n % 10 : ℕ) := by exact_mod_cast (Nat.div_add_mod n 10).symm
    rw [e]
    have hm : n % 10 < 10 := Nat.mod_lt _ (by norm_num)
    generalize n % 10 = j at *
    generalize n / 10 = k at *
    split
    · have : j ≤ 5 := by omega
      have : (j : ℚ) ≤ 5 := by exact_mod_cast this
      have : (0 : ℚ) ≤ j := by positivity
      rw [abs_le]; constructor <;> linarith
    · have : 5 ≤ j := by omega
      have : (5 : ℚ) ≤ j := by exact_mod_cast this
      have : (j : ℚ) < 10 := by exact_mod_cast hm
      push_cast
      rw [abs_le]; constructor <;> linarith

theorem dec_small {n : ℕ} (h : n < 10) : dec n = [digit n] := by rw [dec_eq, if_pos h]

theorem readAbs_dec (n : ℕ) : Fp.readAbs (dec n) = some (n : ℚ) := by
  have := Fp.readAbs_parts (w := dec n) (f := []) (r := []) (isDig_dec _) (dec_ne_nil _) (by simp) (x := 0) rfl (by simp)
  simpa [dv_dec] using this

theorem readAbs_shown (n : ℕ) : Fp.readAbs (shown n) = some (shownValue n) := by
  unfold shown shownValue
  by_cases hn : n < 100
  · rw [if_pos hn, if_pos hn]
    have := Fp.readAbs_parts (w := dec (n / 10)) (f := dec (n % 10)) (r := []) (isDig_dec _) (dec_ne_nil _) (isDig_dec _) (x := 0) rfl (by simp)
    rw [if_neg (dec_ne_nil _), List.append_nil] at this
    rw [List.append_assoc]
    refine this.trans ?_
    rw [dv_append, dv_dec, dv_dec, dec_small (n := n % 10) (by omega)]
    have e : (n : ℚ) = 10 * (n / 10 : ℕ) + (n % 10 : ℕ) := by exact_mod_cast (Nat.div_add_mod n 10).symm
    rw [e]
    simp only [List.length_singleton, zero_sub, Nat.cast_one, zpow_neg, zpow_one, pow_one]
    push_cast
    congr 1
    ring
  · rw [if_neg hn, if_neg hn, readAbs_dec]
    split <;> rfl

theorem shown_bytes (n : ℕ) : ∀ b ∈ shown n, isDig b = true ∨ b = 46 := by
  intro b hb
  unfold shown at hb
  split at hb
  · rcases List.mem_append.1 hb with hb | hb
    · rcases List.mem_append.1 hb with hb | hb
      · exact .inl (isDig_dec _ b hb)
      · exact .inr (List.mem_singleton.1 hb)
    · exact .inl (isDig_dec _ b hb)
  · exact .inl (isDig_dec _ b hb)

theorem no_space {b : UInt8} (h : isDig b = true ∨ b = 46) : (b != 32) = true := by
  rcases h with h | rfl
  · rw [bne_iff_ne]; rintro rfl; exact absurd h (by decide)
  · decide

theorem unit_found {e : ℕ} (h : e ≤ 6) : (List.range 7).find? (fun x => unitName x == unitName e) = some e := by
  have : e = 0 ∨ e = 1 ∨ e = 2 ∨ e = 3 ∨ e = 4 ∨ e = 5 ∨ e = 6 := by omega
  rcases this with rfl | rfl | rfl | rfl | rfl | rfl | rfl <;> decide +kernel

theorem readSize_of {t : Bytes} (ht : ∀ b ∈ t, (b != 32) = true) {q : ℚ} (hq : Fp.readAbs t = some q) {e : ℕ} (he : e ≤ 6) :
    readSize (t ++ ascii " " ++ unitName e) = some (q * 1024 ^ e) := by
  have h := takeWhile_app (p := (· != (32 : UInt8))) (a := t) (r := 32 :: unitName e) ht (by simp)
  have e1 : t ++ ascii " " ++ unitName e = t ++ 32 :: unitName e := by rw [List.append_assoc]; rfl
  rw [e1]
  unfold readSize
  rw [h.1, h.2]
  simp only [unit_found he, hq, Option.map_some]

/-- **C91.** Any number of bytes is shown, and what is shown is off by at most 5.6 %. -/
theorem C91_close {log : ℕ → ℕ} (h : Near log) {s : ℕ} (hs : s < 2 ^ 64) :
    ∃ t q, text log s = some t ∧ readSize t = some q ∧ |q - s| ≤ s * (56 / 1000) := by
  by_cases h1 : s < 10
  · refine ⟨dec s ++ [32, 66], s, by rw [text, if_pos h1], ?_, ?_⟩
    · have := readSize_of (t := dec s) (fun b hb => no_space (.inl (isDig_dec _ b hb))) (readAbs_dec s) (e := 0) (by norm_num)
      rw [List.append_assoc, pow_zero, mul_one] at this
      exact this
    · simp
  · obtain ⟨e, n, ht, he, -, hn, hlo, -⟩ := C91_shows h (s := s) (by omega) hs
    refine ⟨_, _, ht, readSize_of (fun b hb => no_space (shown_bytes n b hb)) (readAbs_shown n) he, ?_⟩
    have hsn := shownValue_near n
    have hU : (0 : ℚ) < 1024 ^ e := by positivity
    generalize (1024 : ℚ) ^ e = U at *
    generalize shownValue n = w at *
    have hsn : |w * U - n * U / 10| ≤ (if n < 100 then 0 else 1 / 2) * U := by
      have e : w * U - n * U / 10 = (w - n / 10) * U := by ring
      rw [e, abs_mul, abs_of_pos hU]
      exact mul_le_mul_of_nonneg_right hsn (le_of_lt hU)
    obtain ⟨a1, a2⟩ := abs_le.1 hsn
    obtain ⟨b1, b2⟩ := abs_le.1 hn
    rw [abs_le]
    by_cases h100 : n < 100
    · rw [if_pos h100] at a1 a2
      norm_num at *
      constructor <;> linarith
    · rw [if_neg h100] at a1 a2
      have : (100 : ℚ) * U ≤ n * U := by
        have : (100 : ℚ) ≤ n := by exact_mod_cast (not_lt.1 h100)
        exact mul_le_mul_of_nonneg_right this (le_of_lt hU)
      norm_num at *
      constructor <;> linarith

theorem toUint64_lt (P : Open) (v : Except ℕ Double) : toUint64 P v < 2 ^ 64 := by
  unfold toUint64
  split
  · split
    · omega
    · exact Nat.mod_lt _ (by norm_num)
  · exact Nat.mod_lt _ (by norm_num)

/-- The text of a number of bytes is one of digits, a point, a space and the letters of the units. -/
theorem text_letters {log : ℕ → ℕ} (h : Near log) {s : ℕ} (hs : s < 2 ^ 64) {t : Bytes} (ht : text log s = some t) :
    t.length ≤ 8 ∧ ∀ b ∈ t, isDig b = true ∨ b = 46 ∨ b = 32 ∨ b ∈ ascii "BKMGTPEi" := by
  have hunit : ∀ e, (unitName e).length ≤ 3 ∧ ∀ b ∈ unitName e, b ∈ ascii "BKMGTPEi" := by
    intro e
    have : e = 0 ∨ e = 1 ∨ e = 2 ∨ e = 3 ∨ e = 4 ∨ e = 5 ∨ ∃ k, e = k + 6 := by
      by_cases h : e < 6
      · omega
      · exact .inr (.inr (.inr (.inr (.inr (.inr ⟨e - 6, by omega⟩)))))
    rcases this with rfl | rfl | rfl | rfl | rfl | rfl | ⟨k, rfl⟩
    any_goals decide +kernel
    have : unitName (k + 6) = ascii "EiB" := by rw [unitName] <;> omega
    rw [this]; decide +kernel
  have hdec : ∀ n, n < 10000 → (dec n).length ≤ 4 := by
    intro n hn
    rw [dec_eq]; split
    · simp
    · rw [dec_eq]; split
      · simp
      · rw [dec_eq]; split
        · simp
        · rw [dec_small (by omega)]; simp
  by_cases h1 : s < 10
  · rw [text, if_pos h1] at ht
    cases ht
    refine ⟨by rw [dec_small h1]; simp, ?_⟩
    intro b hb
    rcases List.mem_append.1 hb with hb | hb
    · exact .inl (isDig_dec _ b hb)
    · simp only [List.mem_cons, List.not_mem_nil, or_false] at hb
      rcases hb with rfl | rfl
      · exact .inr (.inr (.inl rfl))
      · exact .inr (.inr (.inr (by decide)))
  · obtain ⟨e, n, ht', he, hn, -⟩ := C91_shows h (s := s) (by omega) hs
    rw [ht] at ht'
    cases ht'
    constructor
    · have hl : (shown n).length ≤ 4 := by
        unfold shown
        split
        · rw [dec_small (by omega), dec_small (by omega)]
          have : (ascii ".").length = 1 := rfl
          simp [this]
        · exact hdec _ (by split <;> omega)
      have := (hunit e).1
      simp only [List.length_append]
      have : (ascii " ").length = 1 := rfl
      omega
    · intro b hb
      rcases List.mem_append.1 hb with hb | hb
      · rcases List.mem_append.1 hb with hb | hb
        · rcases shown_bytes n b hb with h | h
          · exact .inl h
          · exact .inr (.inl h)
        · exact .inr (.inr (.inl (List.mem_singleton.1 hb)))
      · exact .inr (.inr (.inr ((hunit e).2 b hb)))

/-- **C91.** Whatever the value, negative and infinite ones among them, some number of bytes is printed, in at most 8 bytes, and never with a minus sign. -/
theorem C91_total (P : Open) (h : Near P.log) (v : Except ℕ Double) :
    ∃ t, iBytes P v = some t ∧ t.length ≤ 8 ∧ (45 : UInt8) ∉ t ∧ Tw.Clean t := by
  obtain ⟨t, q, ht, -, -⟩ := C91_close h (toUint64_lt P v)
  obtain ⟨h1, h2⟩ := text_letters h (toUint64_lt P v) ht
  refine ⟨t, ht, h1, ?_, ?_⟩
  · intro hm
    have := h2 _ hm
    revert this; decide +kernel
  · refine Tw.Visible.clean fun b hb => ?_
    rcases h2 b hb with h | rfl | rfl | h
    · simp only [isDig, Bool.and_eq_true, decide_eq_true_eq] at h; omega
    · decide
    · decide
    · have : ∀ b ∈ ascii "BKMGTPEi", 32 ≤ b.toNat ∧ b.toNat < 255 := by decide +kernel
      exact this b h

/-- The printing of numbers, with what is left open. -/
def env (E : Un.Env) (shortest : ℕ → ℤ → Fp.Dec) (P : Open) : Un.Env := { E with sprint := Fp.sprint shortest, iBytes := fun v => (iBytes P v).getD [] }

theorem env_iBytes (E : Un.Env) (shortest : ℕ → ℤ → Fp.Dec) (P : Open) (v : Except ℕ Double) : (env E shortest P).iBytes v = (iBytes P v).getD [] := rfl

/-- **C91.** A value that is a whole number and not negative, of a metric with unit `By`: what is shown is off by at most 5.6 %, and is exact below 1024. -/
theorem C91_cell (E : Un.Env) (shortest : ℕ → ℤ → Fp.Dec) (P : Open) (h : Near P.log) (i : ℕ) (hi : i < 2 ^ 63) :
    (∃ q, readSize (cell (env E shortest P) (.int i) (ascii "By")) = some q ∧ |q - i| ≤ i * (561 / 10000)) ∧
    (i < 1024 → ∃ t, NatText i t ∧ cell (env E shortest P) (.int i) (ascii "By") = t ++ ascii " B") := by
  have hr := round_bounds i
  have hlt : round53 i < 2 ^ 64 := by generalize round53 i = r at *; omega
  have htrunc : (⟨decide ((i : ℤ) < 0), round53 (i : ℤ).natAbs, 0⟩ : Double).trunc = (round53 i : ℤ) := by
    unfold Double.trunc
    simp
  have hu : toUint64 P (value (.int i)) = round53 i := by
    unfold toUint64 value
    simp only
    rw [htrunc, if_pos (by omega)]
    simp
  have hcell : cell (env E shortest P) (.int i) (ascii "By") = (text P.log (round53 i)).getD [] := by
    have : cell (env E shortest P) (.int i) (ascii "By") = (iBytes P (value (.int i))).getD [] := by
      rw [C82_other (env E shortest P) (.int i) (ascii "By") (by decide), if_pos rfl, env_iBytes]
    rw [this, iBytes, hu]
  rw [hcell]
  constructor
  · obtain ⟨t, q, ht, hq, hle⟩ := C91_close h hlt
    refine ⟨q, by rw [ht]; exact hq, ?_⟩
    obtain ⟨r1, r2⟩ := hr
    have r1 : (round53 i : ℚ) * 2 ^ 53 ≤ i * (2 ^ 53 + 1) := by
      have : ((round53 i * 2 ^ 53 : ℕ) : ℚ) ≤ ((i * (2 ^ 53 + 1) : ℕ) : ℚ) := Nat.cast_le.2 r1
      push_cast at this
      norm_num at this ⊢
      linarith
    have r2 : (i : ℚ) * (2 ^ 53 - 1) ≤ round53 i * 2 ^ 53 := by
      have : ((i * (2 ^ 53 - 1) : ℕ) : ℚ) ≤ ((round53 i * 2 ^ 53 : ℕ) : ℚ) := Nat.cast_le.2 r2
      push_cast at this
      norm_num at this ⊢
      linarith
    have hi0 : (0 : ℚ) ≤ i := Nat.cast_nonneg i
    obtain ⟨a, b⟩ := abs_le.1 hle
    generalize (round53 i : ℚ) = r at *
    rw [abs_le]
    norm_num at *
    constructor <;> linarith
  · intro h1024
    rw [round_small (lt_trans h1024 (by norm_num))]
    obtain ⟨t, ht, he⟩ := C91_small h h1024
    exact ⟨t, ht, by rw [he]; rfl⟩

/-- **C91.** Any other value that is not negative and below 2^64: the same of its whole part. -/
theorem C91_value (E : Un.Env) (shortest : ℕ → ℤ → Fp.Dec) (P : Open) (h : Near P.log) (d : Double) (n : ℕ) (hd : d.trunc = n) (hn : n < 2 ^ 64) :
    ∃ q, readSize (cell (env E shortest P) (.double d) (ascii "By")) = some q ∧ |q - n| ≤ n * (56 / 1000) := by
  have hu : toUint64 P (value (.double d)) = n := by
    unfold toUint64 value
    simp only
    rw [hd, if_pos (by omega)]
    simp
  rw [C82_other (env E shortest P) (.double d) (ascii "By") (by decide), if_pos rfl, env_iBytes, iBytes, hu]
  obtain ⟨t, q, ht, hq, hle⟩ := C91_close h hn
  exact ⟨q, by rw [ht]; exact hq, hle⟩

/-- **C91.** With that, all numbers in a table are clean: C88 holds of the pages as they are printed. -/
theorem C91_numbers {shortest : ℕ → ℤ → Fp.Dec} (S : Fp.Right shortest) (E : Un.Env) (P : Open) (h : Near P.log) :
    Tw.CleanNumbers (Fp.double shortest) (env E shortest P) := by
  refine Fp.cleanNumbers S (env E shortest P) fun v => ?_
  obtain ⟨t, ht, -, -, hc⟩ := C91_total P h v
  show Tw.Clean ((iBytes P v).getD [])
  rw [ht]; exact hc

/-! ## Examples -/

/-- The true logarithm is near enough. -/
theorem near_log : Near (Nat.log 1024) := by
  intro n hn
  have h1 : 1024 ^ Nat.log 1024 n ≤ n := Nat.pow_log_le_self 1024 (by omega)
  have h2 : n < 1024 ^ (Nat.log 1024 n + 1) := Nat.lt_pow_succ_log_self (by norm_num) n
  generalize 1024 ^ Nat.log 1024 n = a at *
  generalize 1024 ^ (Nat.log 1024 n + 1) = b at *
  constructor <;> omega

/-- 82854982 is the example of the library: 79 MiB. -/
example : text (Nat.log 1024) 82854982 = some (ascii "79 MiB") := by decide +kernel
example : text (Nat.log 1024) 1536 = some (ascii "1.5 KiB") ∧ text (Nat.log 1024) 7 = some (ascii "7 B") ∧ text (Nat.log 1024) (2 ^ 64 - 1) = some (ascii "16 EiB") := by decide +kernel
/-- The largest error: 10.549 KiB is shown as 10 KiB. -/
example : text (Nat.log 1024) 10803 = some (ascii "10 KiB") := by decide +kernel

end Verif.Hu
