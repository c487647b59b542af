import Verif.Spec.Float
import Mathlib.Tactic.Linarith
import Mathlib.Tactic.NormNum
import Mathlib.Tactic.Positivity
import Mathlib.Tactic.FieldSimp
import Mathlib.Tactic.Ring
import Mathlib.Tactic.Push
/-! # Doubles among the rational numbers -/
namespace Verif.Fp

theorem two_pos' (e : ℤ) : (0 : ℚ) < 2 ^ e := by positivity
theorem ten_pos' (e : ℤ) : (0 : ℚ) < 10 ^ e := by positivity

/-- An even double in its normal form. -/
theorem canon_even (k : ℕ) : ∀ (m : ℕ) (e : ℤ), 2 * m < 2 ^ 53 → e = -1074 + k →
    ∃ (n : ℕ) (f : ℤ), 2 * n < 2 ^ 53 ∧ -1074 ≤ f ∧ ((2 * m : ℕ) : ℚ) * 2 ^ e = (2 * n : ℕ) * 2 ^ f ∧ (2 ^ 52 ≤ 2 * n ∨ f = -1074) := by
  induction k with
  | zero => intro m e hm he; exact ⟨m, e, hm, by omega, rfl, .inr (by omega)⟩
  | succ k ih =>
    intro m e hm he
    by_cases h : 2 ^ 52 ≤ 2 * m
    · exact ⟨m, e, hm, by omega, rfl, .inl h⟩
    · obtain ⟨n, f, h1, h2, h3, h4⟩ := ih (2 * m) (e - 1) (by omega) (by push_cast at he ⊢; omega)
      refine ⟨n, f, h1, h2, ?_, h4⟩
      rw [← h3, zpow_sub_one₀ (by norm_num : (2 : ℚ) ≠ 0)]
      push_cast
      ring

/-- A positive double in its normal form. -/
theorem canon (k : ℕ) : ∀ (m : ℕ) (e : ℤ), m < 2 ^ 53 → e = -1074 + k →
    ∃ (n : ℕ) (f : ℤ), n < 2 ^ 53 ∧ -1074 ≤ f ∧ (m : ℚ) * 2 ^ e = n * 2 ^ f ∧ (2 ^ 52 ≤ n ∨ f = -1074) := by
  induction k with
  | zero => intro m e hm he; exact ⟨m, e, hm, by omega, rfl, .inr (by omega)⟩
  | succ k ih =>
    intro m e hm he
    by_cases h : 2 ^ 52 ≤ m
    · exact ⟨m, e, hm, by omega, rfl, .inl h⟩
    · obtain ⟨n, f, h1, h2, h3, h4⟩ := ih (2 * m) (e - 1) (by omega) (by push_cast at he ⊢; omega)
      refine ⟨n, f, h1, h2, ?_, h4⟩
      rw [← h3, zpow_sub_one₀ (by norm_num : (2 : ℚ) ≠ 0)]
      push_cast
      ring

theorem zpow_split (e f : ℤ) (h : e ≤ f) : (2 : ℚ) ^ f = (2 ^ (f - e).toNat : ℕ) * 2 ^ e := by
  have : f = ((f - e).toNat : ℤ) + e := by omega
  conv => lhs; rw [this]
  rw [zpow_add₀ (by norm_num : (2 : ℚ) ≠ 0), zpow_natCast]
  push_cast
  ring

/-- Between two even doubles there is another one. -/
theorem between {v w : ℚ} (hv : IsEven v) (hw : IsEven w) (h : v < w) : ∃ u, IsDouble u ∧ v < u ∧ u < w := by
  obtain ⟨m0, e0, hm0, he0, rfl⟩ := hv
  obtain ⟨m, e, hm, he, hval, hc⟩ := canon_even (e0 + 1074).toNat m0 e0 hm0 (by omega)
  rw [hval] at h ⊢
  obtain ⟨n, f, hn, hf, rfl⟩ := hw
  refine ⟨((2 * m + 1 : ℕ) : ℚ) * 2 ^ e, ⟨2 * m + 1, e, by omega, he, rfl⟩, ?_, ?_⟩
  · have := two_pos' e
    push_cast
    nlinarith
  · by_cases hef : e ≤ f
    · rw [zpow_split e f hef, ← mul_assoc] at h ⊢
      have := two_pos' e
      rw [mul_lt_mul_iff_left₀ this] at h ⊢
      have h : 2 * m < 2 * n * 2 ^ (f - e).toNat := by exact_mod_cast h
      have h' : 2 * m + 1 < 2 * n * 2 ^ (f - e).toNat := by
        rw [Nat.mul_assoc] at h ⊢
        omega
      exact_mod_cast h'
    · exfalso
      have hfe : f + 1 ≤ e := by omega
      have h2 : 2 ^ 52 ≤ 2 * m := hc.resolve_right (by omega)
      rw [zpow_split f e (by omega), ← mul_assoc, mul_lt_mul_iff_left₀ (two_pos' f)] at h
      have h : 2 * m * 2 ^ (e - f).toNat < 2 * n := by exact_mod_cast h
      have : 2 ^ 1 ≤ 2 ^ (e - f).toNat := Nat.pow_le_pow_right (by omega) (by omega)
      have : 2 ^ 52 * 2 ≤ 2 * m * 2 ^ (e - f).toNat := Nat.mul_le_mul h2 (by omega)
      omega

/-- A number is read as one double only. -/
theorem reads_unique {q v w : ℚ} (hv : Reads q v) (hw : Reads q w) : v = w := by
  by_contra hne
  have main : ∀ {v w : ℚ}, Reads q v → Reads q w → v < w → False := by
    intro v w hv hw hlt
    have h1 := hv.2 w hw.1 (ne_of_gt hlt)
    have h2 := hw.2 v hv.1 (ne_of_lt hlt)
    have hE : |q - v| = |q - w| ∧ IsEven v ∧ IsEven w := by
      rcases h1 with h1 | h1 <;> rcases h2 with h2 | h2
      · linarith
      · linarith [h2.1]
      · linarith [h1.1]
      · exact ⟨h1.1, h1.2, h2.2⟩
    obtain ⟨heq, he1, he2⟩ := hE
    obtain ⟨u, hu, hvu, huw⟩ := between he1 he2 hlt
    have hmid : q = (v + w) / 2 := by
      rcases abs_eq_abs.1 heq with h | h <;> linarith
    have h3 : |q - u| < |q - v| := by
      rw [hmid, abs_lt, abs_of_pos (by linarith)]
      constructor <;> linarith
    rcases hv.2 u hu (ne_of_gt hvu) with h | h
    · linarith
    · linarith [h.1]
  rcases lt_or_gt_of_ne hne with h | h
  · exact main hv hw h
  · exact main hw hv h

theorem reads_self {v : ℚ} (h : IsDouble v) : Reads v v :=
  ⟨h, fun w _ hne => .inl (by rw [sub_self, abs_zero, abs_pos]; exact sub_ne_zero.2 (Ne.symm hne))⟩

theorem isDouble_zero : IsDouble 0 := ⟨0, 0, by norm_num, by norm_num, by norm_num⟩

theorem isDouble_twice {v : ℚ} (h : IsDouble v) : IsDouble (2 * v) := by
  obtain ⟨m, e, hm, he, rfl⟩ := h
  refine ⟨m, e + 1, hm, by omega, ?_⟩
  rw [zpow_add_one₀ (by norm_num : (2 : ℚ) ≠ 0)]
  ring

/-- What is read as a positive double is not much smaller or larger. -/
theorem reads_bounds {q v : ℚ} (hv : 0 < v) (h : Reads q v) : v ≤ 2 * q ∧ 2 * q ≤ 3 * v := by
  have h0 := h.2 0 isDouble_zero (ne_of_lt hv)
  have h2 := h.2 (2 * v) (isDouble_twice h.1) (ne_of_gt (by linarith))
  have h0 : |q - v| ≤ |q - 0| := by rcases h0 with h | h; exacts [le_of_lt h, le_of_eq h.1]
  have h2 : |q - v| ≤ |q - 2 * v| := by rcases h2 with h | h; exacts [le_of_lt h, le_of_eq h.1]
  rw [← sq_le_sq] at h0 h2
  constructor <;> nlinarith

/-- What is read as a double is within half a unit of its last place. -/
theorem reads_near {q : ℚ} {m : ℕ} {e : ℤ} (h : Reads q (m * 2 ^ e)) (h1 : 2 ^ 52 ≤ m) (h2 : m < 2 ^ 53) (he : -1074 ≤ e) :
    |q - m * 2 ^ e| ≤ 2 ^ e / 2 := by
  have hp := two_pos' e
  have up : IsDouble (((m + 1 : ℕ) : ℚ) * 2 ^ e) := by
    by_cases hm : m + 1 < 2 ^ 53
    · exact ⟨m + 1, e, hm, he, rfl⟩
    · have : m + 1 = 2 ^ 52 * 2 := by omega
      refine ⟨2 ^ 52, e + 1, by norm_num, by omega, ?_⟩
      rw [this, zpow_add_one₀ (by norm_num : (2 : ℚ) ≠ 0)]
      push_cast
      ring
  have down : IsDouble (((m - 1 : ℕ) : ℚ) * 2 ^ e) := ⟨m - 1, e, by omega, he, rfl⟩
  have cast : ((m - 1 : ℕ) : ℚ) = m - 1 := by
    rw [Nat.cast_sub (by omega)]; norm_num
  rw [cast] at down
  push_cast at up
  have hu := h.2 _ up (by intro e; nlinarith)
  have hd := h.2 _ down (by intro e; nlinarith)
  have hu : |q - m * 2 ^ e| ≤ |q - (m + 1) * 2 ^ e| := by rcases hu with h | h; exacts [le_of_lt h, le_of_eq h.1]
  have hd : |q - m * 2 ^ e| ≤ |q - (m - 1) * 2 ^ e| := by rcases hd with h | h; exacts [le_of_lt h, le_of_eq h.1]
  generalize (2 : ℚ) ^ e = u at *
  rw [← sq_le_sq] at hu hd
  rw [abs_le]
  generalize hx : (m : ℚ) * u = v at *
  have eu : (m + 1) * u = v + u := by rw [← hx]; ring
  have ed : (m - 1) * u = v - u := by rw [← hx]; ring
  rw [eu] at hu
  rw [ed] at hd
  constructor <;> nlinarith

/-- Mantissa and exponent are determined by the value. -/
theorem canon_unique {m n : ℕ} {e f : ℤ} (hm : m < 2 ^ 53) (hn : n < 2 ^ 53) (he : -1074 ≤ e) (hf : -1074 ≤ f) (h1 : 2 ^ 52 ≤ m ∨ e = -1074)
    (h2 : 2 ^ 52 ≤ n ∨ f = -1074) (h : (m : ℚ) * 2 ^ e = n * 2 ^ f) : m = n ∧ e = f := by
  have main : ∀ {m n : ℕ} {e f : ℤ}, m < 2 ^ 53 → -1074 ≤ e → (2 ^ 52 ≤ n ∨ f = -1074) → (m : ℚ) * 2 ^ e = n * 2 ^ f → ¬ e < f := by
    intro m n e f hm he h2 h hlt
    have h2 : 2 ^ 52 ≤ n := h2.resolve_right (by omega)
    rw [zpow_split e f (by omega), ← mul_assoc, mul_left_inj' (ne_of_gt (two_pos' e))] at h
    have h : m = n * 2 ^ (f - e).toNat := by exact_mod_cast h
    have : 2 ^ 1 ≤ 2 ^ (f - e).toNat := Nat.pow_le_pow_right (by omega) (by omega)
    have : 2 ^ 52 * 2 ≤ n * 2 ^ (f - e).toNat := Nat.mul_le_mul h2 (by omega)
    omega
  have hef : e = f := by
    have a := main hm he h2 h
    have b := main hn hf h1 h.symm
    omega
  subst hef
  rw [mul_left_inj' (ne_of_gt (two_pos' e))] at h
  exact ⟨by exact_mod_cast h, rfl⟩

theorem mantissa_lt (bits : ℕ) : mantissa bits < 2 ^ 53 := by
  have : fracBits bits < 2 ^ 52 := Nat.mod_lt _ (by norm_num)
  unfold mantissa
  split <;> omega

theorem exponent_ge (bits : ℕ) : -1074 ≤ exponent bits := by
  unfold exponent
  split <;> omega

theorem mantissa_canon (bits : ℕ) : 2 ^ 52 ≤ mantissa bits ∨ exponent bits = -1074 := by
  unfold mantissa exponent
  split
  · exact .inr (by norm_num)
  · exact .inl (by omega)

theorem negative_eq (bits : ℕ) : signBit bits = negative bits := by
  unfold signBit negative
  rw [Bool.eq_iff_iff, beq_iff_eq, decide_eq_true_eq]
  omega

theorem expBits_eq (bits : ℕ) : expBits bits = ieeeExp bits := by unfold expBits ieeeExp; norm_num

theorem fracBits_eq (bits : ℕ) : fracBits bits = ieeeFrac bits := rfl

theorem absValue_eq (bits : ℕ) : absValue bits = (mantissa bits : ℚ) * 2 ^ exponent bits := by
  unfold absValue mantissa exponent
  rw [expBits_eq, fracBits_eq]
  split
  · have : ((1 : ℤ) - 1075) = -1022 - (52 : ℕ) := by norm_num
    rw [this, zpow_sub₀ (by norm_num : (2 : ℚ) ≠ 0), zpow_natCast]
    ring
  · have : ((ieeeExp bits : ℤ) - 1075) = (ieeeExp bits : ℤ) - 1023 - (52 : ℕ) := by push_cast; ring
    rw [this, zpow_sub₀ (by norm_num : (2 : ℚ) ≠ 0) _ ((52 : ℕ) : ℤ), zpow_natCast]
    push_cast
    field_simp
    norm_num

theorem finite_iff (bits : ℕ) : Finite bits ↔ expBits bits ≠ 2047 := by rw [expBits_eq]; rfl

theorem isDouble_bits (bits : ℕ) : IsDouble (absValue bits) := ⟨_, _, mantissa_lt bits, exponent_ge bits, absValue_eq bits⟩

theorem bits_lt (bits : ℕ) (h : Finite bits) : absValue bits < 2 ^ 1024 := by
  have hx : expBits bits < 2 ^ 11 := Nat.mod_lt _ (by norm_num)
  have hx : expBits bits ≤ 2046 := by unfold Finite at h; rw [← expBits_eq] at h; omega
  have he : exponent bits ≤ 971 := by unfold exponent; split <;> omega
  have hm : (mantissa bits : ℚ) < 2 ^ 53 := by exact_mod_cast mantissa_lt bits
  have h2 : (2 : ℚ) ^ exponent bits ≤ 2 ^ (971 : ℤ) := zpow_le_zpow_right₀ (by norm_num) he
  have hp := two_pos' (exponent bits)
  calc absValue bits < 2 ^ 53 * 2 ^ (exponent bits) := by rw [absValue_eq]; exact mul_lt_mul_of_pos_right hm hp
    _ ≤ 2 ^ 53 * 2 ^ (971 : ℤ) := mul_le_mul_of_nonneg_left h2 (by positivity)
    _ = 2 ^ 1024 := by
      rw [show (971 : ℤ) = ((971 : ℕ) : ℤ) from rfl, zpow_natCast, ← pow_add]

/-- A double is determined by its sign and value. -/
theorem bits_unique {a b : ℕ} (ha : a < 2 ^ 64) (hb : b < 2 ^ 64) (hs : signBit a = signBit b) (h : absValue a = absValue b) : a = b := by
  obtain ⟨hm, he⟩ := canon_unique (mantissa_lt a) (mantissa_lt b) (exponent_ge a) (exponent_ge b) (mantissa_canon a) (mantissa_canon b) (by rw [← absValue_eq, ← absValue_eq]; exact h)
  have fa : fracBits a < 2 ^ 52 := Nat.mod_lt _ (by norm_num)
  have fb : fracBits b < 2 ^ 52 := Nat.mod_lt _ (by norm_num)
  have hx : expBits a = expBits b ∧ fracBits a = fracBits b := by
    unfold mantissa at hm
    unfold exponent at he
    split at hm <;> split at hm <;> first | (simp_all; done) | (simp_all; omega)
  have hs : a / 2 ^ 63 % 2 = b / 2 ^ 63 % 2 := by
    unfold signBit at hs
    rcases Nat.mod_two_eq_zero_or_one (a / 2 ^ 63) with h | h <;> rcases Nat.mod_two_eq_zero_or_one (b / 2 ^ 63) with h' | h' <;> simp_all
  unfold expBits fracBits at hx
  omega

theorem fraction_unique {a b : ℕ} (ha : a < 2 ^ 64) (hb : b < 2 ^ 64) (hs : signBit a = signBit b) (hx : expBits a = expBits b) (hf : fracBits a = fracBits b) : a = b := by
  have hs : a / 2 ^ 63 % 2 = b / 2 ^ 63 % 2 := by
    unfold signBit at hs
    rcases Nat.mod_two_eq_zero_or_one (a / 2 ^ 63) with h | h <;> rcases Nat.mod_two_eq_zero_or_one (b / 2 ^ 63) with h' | h' <;> simp_all
  unfold expBits at hx
  unfold fracBits at hf
  omega

end Verif.Fp
