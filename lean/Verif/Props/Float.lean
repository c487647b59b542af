import Verif.Lemmas.Float
import Verif.Lemmas.Decimal
import Verif.Props.Parse
import Verif.Props.TablePage
import Verif.Props.Quote
import Mathlib.Algebra.Order.Archimedean.Basic
import Mathlib.Algebra.Order.Floor.Semiring
/-!
# C90: printing doubles
-/
namespace Verif.Fp
open Un

/-! ## Reading what is written -/

theorem dv_zeros (k : ℕ) : digitsValue (List.replicate k 48) = 0 := by
  induction k with
  | zero => rfl
  | succ k ih => rw [List.replicate_succ', dv_append, ih]; rfl

theorem dig_digit {n : ℕ} (h : n < 10) : isDig (digit n) = true := by
  simp only [isDig, digit_toNat h, Bool.and_eq_true, decide_eq_true_eq]; omega

theorem dv_digit {n : ℕ} (h : n < 10) : digitsValue [digit n] = n := by simp [digitsValue, digit_toNat h]

/-- The digits of an exponent. -/
def expDigits (n : ℕ) : Bytes :=
  if n < 10 then [48, digit n] else if n < 100 then [digit (n / 10), digit (n % 10)] else [digit (n / 100 % 10), digit (n / 10 % 10), digit (n % 10)]

theorem expText_eq (x : ℤ) : expText x = (if x < 0 then 45 else 43) :: expDigits x.natAbs := rfl

theorem expDigits_ne (n : ℕ) : expDigits n ≠ [] := by
  unfold expDigits
  split
  · simp
  · split <;> simp

theorem expDigits_dig (n : ℕ) : ∀ b ∈ expDigits n, isDig b = true := by
  unfold expDigits
  split
  · rename_i h; intro b hb; simp only [List.mem_cons, List.not_mem_nil, or_false] at hb
    rcases hb with rfl | rfl
    · decide
    · exact dig_digit h
  · split
    · rename_i h; intro b hb; simp only [List.mem_cons, List.not_mem_nil, or_false] at hb
      rcases hb with rfl | rfl <;> exact dig_digit (by omega)
    · intro b hb; simp only [List.mem_cons, List.not_mem_nil, or_false] at hb
      rcases hb with rfl | rfl | rfl <;> exact dig_digit (by omega)

theorem dv_expDigits {n : ℕ} (h : n < 1000) : digitsValue (expDigits n) = n := by
  unfold expDigits
  split
  · rename_i h; simp [digitsValue, digit_toNat h]
  · split
    · rename_i h
      simp [digitsValue, digit_toNat (show n / 10 < 10 by omega), digit_toNat (show n % 10 < 10 by omega)]; omega
    · simp [digitsValue, digit_toNat (show n / 100 % 10 < 10 by omega), digit_toNat (show n / 10 % 10 < 10 by omega), digit_toNat (show n % 10 < 10 by omega)]
      omega

theorem readExp_text {x : ℤ} (h : x.natAbs < 1000) : readExp (101 :: expText x) = some x := by
  rw [expText_eq]
  have h1 : expDigits x.natAbs ≠ [] ∧ (expDigits x.natAbs).all isDig = true := ⟨expDigits_ne _, List.all_eq_true.2 (expDigits_dig _)⟩
  simp only [readExp, if_true]
  rw [if_pos h1, dv_expDigits h]
  by_cases hx : x < 0
  · simp only [hx, if_true]
    rw [if_neg (by decide)]
    simp only [Option.some.injEq]; omega
  · simp only [hx, if_false, if_true, Option.some.injEq]; omega

/-- Reading digits, a point with digits if there are any, and an exponent. -/
theorem readAbs_parts {w f r : Bytes} (hw : ∀ b ∈ w, isDig b = true) (hw0 : w ≠ []) (hf : ∀ b ∈ f, isDig b = true) {x : ℤ} (hr : readExp r = some x)
    (hr0 : ∀ b, r.head? = some b → isDig b = false ∧ b ≠ 46) :
    readAbs (w ++ ((if f = [] then [] else 46 :: f) ++ r)) = some ((digitsValue (w ++ f) : ℚ) * 10 ^ (x - (f.length : ℤ))) := by
  have hd : isDig 46 = false := by decide
  have h1 := takeWhile_app (p := isDig) (a := w) (r := (if f = [] then [] else 46 :: f) ++ r) hw (by
    intro b hb
    by_cases hf0 : f = []
    · rw [if_pos hf0, List.nil_append] at hb; exact (hr0 b hb).1
    · rw [if_neg hf0] at hb
      simp only [List.cons_append, List.head?_cons, Option.some.injEq] at hb
      rw [← hb]; exact hd)
  unfold readAbs
  simp only [h1.1, h1.2, if_neg hw0]
  by_cases hf0 : f = []
  · subst hf0
    have : afterPoint r = ([], r) := by
      cases r with
      | nil => rfl
      | cons b r => simp only [afterPoint]; rw [if_neg (hr0 b rfl).2]
    simp [this, hr]
  · have h2 := takeWhile_app (p := isDig) (a := f) (r := r) hf (fun b hb => (hr0 b hb).1)
    have : afterPoint ((if f = [] then [] else 46 :: f) ++ r) = (f, r) := by
      rw [if_neg hf0]
      simp only [List.cons_append, afterPoint, if_true, h2.1, h2.2]
    simp [this, hr]

theorem read_fmtE {d : Dec} (hd : ∀ b ∈ d.digits, isDig b = true) (h0 : d.digits ≠ []) (hx : (d.dp - 1).natAbs < 1000) :
    readAbs (fmtE d) = some d.value := by
  obtain ⟨ds, dp⟩ := d
  cases ds with
  | nil => exact absurd rfl h0
  | cons c ds =>
    have e : fmtE ⟨c :: ds, dp⟩ = [c] ++ ((if ds = [] then [] else 46 :: ds) ++ (101 :: expText (dp - 1))) := by
      cases ds <;> simp [fmtE]
    rw [e, readAbs_parts (fun b hb => hd b (by simp at hb; simp [hb])) (by simp) (fun b hb => hd b (by simp [hb])) (readExp_text hx) (by
      intro b hb; simp only [List.head?_cons, Option.some.injEq] at hb; subst hb; decide)]
    simp only [Dec.value, List.length_cons, List.singleton_append]
    have : dp - 1 - (ds.length : ℤ) = dp - ((ds.length + 1 : ℕ) : ℤ) := by push_cast; ring
    rw [this]

/-- The digits after the point. -/
theorem fracs_eq (d : Dec) : (List.range ((d.digits.length : ℤ) - d.dp).toNat).map (fracDigit d) =
    List.replicate (min (-d.dp).toNat ((d.digits.length : ℤ) - d.dp).toNat) 48 ++ d.digits.drop d.dp.toNat := by
  apply List.ext_getElem
  · simp only [List.length_map, List.length_range, List.length_append, List.length_replicate, List.length_drop]; omega
  · intro i h1 h2
    simp only [List.length_map, List.length_range] at h1
    simp only [List.getElem_map, List.getElem_range, fracDigit]
    by_cases hi : i < (-d.dp).toNat
    · rw [if_neg (by omega), List.getElem_append_left (by simp; omega)]
      simp
    · rw [if_pos (by omega), List.getElem_append_right (by simp; omega)]
      simp only [List.length_replicate, List.getElem_drop, List.getD_eq_getElem?_getD]
      rw [List.getElem?_eq_getElem (by omega)]
      simp only [Option.getD_some]
      congr 1
      omega

theorem read_fmtF {d : Dec} (hd : ∀ b ∈ d.digits, isDig b = true) (h0 : d.digits ≠ [] ∨ d.dp = 0) : readAbs (fmtF d) = some d.value := by
  have hz : ∀ k, ∀ b ∈ List.replicate k (48 : UInt8), isDig b = true := fun k b hb => by rw [List.eq_of_mem_replicate hb]; decide
  have hnil : readExp [] = some 0 := rfl
  have hnil0 : ∀ b, ([] : Bytes).head? = some b → isDig b = false ∧ b ≠ 46 := nofun
  have ht : ∀ k, ∀ b ∈ d.digits.take k, isDig b = true := fun k b hb => hd b (List.mem_of_mem_take hb)
  have hdr : ∀ k, ∀ b ∈ d.digits.drop k, isDig b = true := fun k b hb => hd b (List.mem_of_mem_drop hb)
  have hlen : d.digits ≠ [] → 0 < d.digits.length := fun h => List.length_pos_iff.2 h
  by_cases hdp : 0 < d.dp
  · have h0 : d.digits ≠ [] := h0.resolve_right (by omega)
    have hl := hlen h0
    by_cases hin : d.dp < d.digits.length
    · have e : fmtF d = d.digits.take d.dp.toNat ++ ((if d.digits.drop d.dp.toNat = [] then [] else 46 :: d.digits.drop d.dp.toNat) ++ []) := by
        have hne : d.digits.drop d.dp.toNat ≠ [] := by rw [Ne, List.drop_eq_nil_iff]; omega
        simp only [fmtF, if_pos hdp, fracs_eq, if_neg hne, List.append_nil]
        rw [if_pos (by omega)]
        have a1 : d.dp.toNat - d.digits.length = 0 := by omega
        have a2 : (-d.dp).toNat = 0 := by omega
        rw [a1, a2]; simp
      rw [e, readAbs_parts (ht _) (by rw [Ne, List.take_eq_nil_iff]; rintro (h | h); exacts [by omega, h0 h]) (hdr _) hnil hnil0, List.take_append_drop, Dec.value]
      congr 3
      simp only [List.length_drop]
      omega
    · have e : fmtF d = (d.digits ++ List.replicate (d.dp.toNat - d.digits.length) 48) ++ ((if ([] : Bytes) = [] then [] else 46 :: []) ++ []) := by
        simp only [fmtF, if_pos hdp, if_true, List.append_nil]
        rw [if_neg (by omega), List.append_nil, List.take_of_length_le (by omega)]
      have hw : ∀ b ∈ d.digits ++ List.replicate (d.dp.toNat - d.digits.length) 48, isDig b = true :=
        fun b hb => (List.mem_append.1 hb).elim (hd b) (hz _ b)
      rw [e, readAbs_parts hw (by simp [h0]) (f := []) (by simp) hnil hnil0, List.append_nil, dv_append, dv_zeros, List.length_replicate, Dec.value]
      have ex : d.dp - (d.digits.length : ℤ) = ((d.dp.toNat - d.digits.length : ℕ) : ℤ) := by omega
      rw [ex, zpow_natCast]
      push_cast
      simp
  · have e : fmtF d = [48] ++ ((if List.replicate (-d.dp).toNat 48 ++ d.digits = [] then [] else 46 :: (List.replicate (-d.dp).toNat 48 ++ d.digits)) ++ []) := by
      have a1 : d.dp.toNat = 0 := by omega
      have a2 : min (-d.dp).toNat ((d.digits.length : ℤ) - d.dp).toNat = (-d.dp).toNat := by omega
      simp only [fmtF, if_neg hdp, fracs_eq, List.append_nil]
      rw [a1, a2, List.drop_zero]
      by_cases hp : 0 < ((d.digits.length : ℤ) - d.dp).toNat
      · rw [if_pos hp, if_neg]
        rcases h0 with h | h
        · simp [h]
        · have : d.digits ≠ [] := by rintro h'; rw [h', h] at hp; simp at hp
          simp [this]
      · have : d.digits = [] := List.eq_nil_of_length_eq_zero (by omega)
        rw [if_neg hp, if_pos]
        rw [this, show (-d.dp).toNat = 0 by omega]; rfl
    have hw : ∀ b ∈ List.replicate (-d.dp).toNat 48 ++ d.digits, isDig b = true := fun b hb => (List.mem_append.1 hb).elim (hz _ b) (hd b)
    rw [e, readAbs_parts (by decide) (by simp) hw hnil hnil0, dv_append, dv_append, dv_zeros, Dec.value]
    have a : digitsValue [48] = 0 := rfl
    rw [a]
    simp only [List.length_append, List.length_replicate, Nat.zero_mul, Nat.zero_add]
    congr 3
    push_cast
    omega

/-! ## What shortest digits look like -/

theorem dv_cons (c : UInt8) (ds : Bytes) : digitsValue (c :: ds) = (c.toNat - 48) * 10 ^ ds.length + digitsValue ds := by
  have := dv_append [c] ds
  simpa [digitsValue] using this

theorem least_pos {v : ℚ} (hv : 0 < v) {d : Dec} (h : Shortest v d) : d.digits ≠ [] := by
  intro e
  have hb := (reads_bounds hv h.reads).1
  have : d.value = 0 := by simp [Dec.value, e, digitsValue]
  linarith

theorem least_head {v : ℚ} {d : Dec} (h : Shortest v d) : d.digits.head? ≠ some 48 := by
  intro e
  obtain ⟨ds, dp⟩ := d
  cases ds with
  | nil => exact nomatch e
  | cons c ds =>
    simp only [List.head?_cons, Option.some.injEq] at e
    subst e
    have hval : (⟨48 :: ds, dp⟩ : Dec).value = (digitsValue ds : ℚ) * 10 ^ (dp - ((ds.length + 1 : ℕ) : ℤ)) := by
      simp only [Dec.value, dv_cons, List.length_cons]
      simp
    have hr := h.reads
    rw [hval] at hr
    have := h.least _ _ ds.length (dv_lt ds fun b hb => h.digits b (by simp [hb])) hr
    simp at this

theorem least_last {v : ℚ} {d : Dec} (h : Shortest v d) : ¬ (d.digits ≠ [] ∧ 10 ∣ digitsValue d.digits) := by
  rintro ⟨h0, k, hk⟩
  have hlen : 0 < d.digits.length := List.length_pos_iff.2 h0
  have hlt := dv_lt d.digits h.digits
  have e : 10 ^ d.digits.length = 10 * 10 ^ (d.digits.length - 1) := by
    conv => lhs; rw [show d.digits.length = (d.digits.length - 1) + 1 by omega]
    rw [Nat.pow_succ, Nat.mul_comm]
  have hr := h.reads
  have hval : d.value = (k : ℚ) * 10 ^ (d.dp - (d.digits.length : ℤ) + 1) := by
    rw [Dec.value, hk, zpow_add_one₀ (by norm_num : (10 : ℚ) ≠ 0)]
    push_cast
    ring
  rw [hval] at hr
  have := h.least k _ (d.digits.length - 1) (by omega) hr
  omega

theorem value_bounds {d : Dec} (hd : ∀ b ∈ d.digits, isDig b = true) (h0 : d.digits ≠ []) (h1 : d.digits.head? ≠ some 48) :
    (10 : ℚ) ^ (d.dp - 1) ≤ d.value ∧ d.value < 10 ^ d.dp := by
  have hp := ten_pos' (d.dp - (d.digits.length : ℤ))
  have hlen : 0 < d.digits.length := List.length_pos_iff.2 h0
  have hge : 10 ^ (d.digits.length - 1) ≤ digitsValue d.digits := by
    cases hds : d.digits with
    | nil => exact absurd hds h0
    | cons c ds =>
      rw [hds] at h1 hd
      have hc := hd c (by simp)
      simp only [isDig, Bool.and_eq_true, decide_eq_true_eq] at hc
      have hne : c.toNat ≠ 48 := by
        intro e
        apply h1
        simp only [List.head?_cons, Option.some.injEq]
        exact UInt8.toNat_inj.1 e
      rw [dv_cons]
      have : 1 * 10 ^ ds.length ≤ (c.toNat - 48) * 10 ^ ds.length := Nat.mul_le_mul_right _ (by omega)
      simp only [List.length_cons, Nat.add_sub_cancel]
      omega
  have hge : ((10 : ℚ) ^ (d.digits.length - 1)) ≤ digitsValue d.digits := by exact_mod_cast hge
  have hlt : (digitsValue d.digits : ℚ) < 10 ^ d.digits.length := by exact_mod_cast dv_lt d.digits hd
  constructor
  · have e : (10 : ℚ) ^ (d.dp - 1) = 10 ^ (d.digits.length - 1) * 10 ^ (d.dp - (d.digits.length : ℤ)) := by
      rw [← zpow_natCast, ← zpow_add₀ (by norm_num : (10 : ℚ) ≠ 0)]
      congr 1
      omega
    rw [e, Dec.value]
    exact mul_le_mul_of_nonneg_right hge (le_of_lt hp)
  · have e : (10 : ℚ) ^ d.dp = 10 ^ d.digits.length * 10 ^ (d.dp - (d.digits.length : ℤ)) := by
      rw [← zpow_natCast, ← zpow_add₀ (by norm_num : (10 : ℚ) ≠ 0)]
      congr 1
      omega
    rw [e, Dec.value]
    exact mul_lt_mul_of_pos_right hlt hp

theorem double_ge {v : ℚ} (hv : 0 < v) (h : IsDouble v) : (2 : ℚ) ^ (-1074 : ℤ) ≤ v := by
  obtain ⟨m, e, -, he, rfl⟩ := h
  have hm : (1 : ℚ) ≤ m := by
    rcases Nat.eq_zero_or_pos m with rfl | h
    · simp at hv
    · exact_mod_cast h
  have h2 : (2 : ℚ) ^ (-1074 : ℤ) ≤ 2 ^ e := zpow_le_zpow_right₀ (by norm_num) he
  have := two_pos' e
  nlinarith

theorem large_bound : (2 : ℚ) ^ 1024 * 3 < 2 * 10 ^ (309 : ℤ) := by
  have h : 2 ^ 1024 * 3 < 2 * 10 ^ 309 := by decide +kernel
  rw [show (309 : ℤ) = ((309 : ℕ) : ℤ) from rfl, zpow_natCast]
  exact_mod_cast h

theorem small_bound : (10 : ℚ) ^ (-324 : ℤ) * 2 < 2 ^ (-1074 : ℤ) := by
  have h : 2 * 2 ^ 1074 < 10 ^ 324 := by decide +kernel
  have h : (2 : ℚ) * 2 ^ 1074 < 10 ^ 324 := by exact_mod_cast h
  rw [zpow_neg, zpow_neg, show (324 : ℤ) = ((324 : ℕ) : ℤ) from rfl, show (1074 : ℤ) = ((1074 : ℕ) : ℤ) from rfl, zpow_natCast, zpow_natCast]
  have h1 : (0 : ℚ) < 10 ^ 324 := by positivity
  have h2 : (0 : ℚ) < 2 ^ 1074 := by positivity
  generalize (10 : ℚ) ^ 324 = X at *
  generalize (2 : ℚ) ^ 1074 = Y at *
  rw [inv_mul_lt_iff₀ h1, mul_comm, ← div_eq_inv_mul, lt_div_iff₀ h2]
  linarith

/-- The exponents of doubles have at most three digits. -/
theorem exp_bound {v : ℚ} (hv : 0 < v) (hlt : v < 2 ^ 1024) {d : Dec} (h : Shortest v d) : -324 < d.dp ∧ d.dp < 310 := by
  obtain ⟨b1, b2⟩ := value_bounds h.digits (least_pos hv h) (least_head h)
  obtain ⟨r1, r2⟩ := reads_bounds hv h.reads
  constructor
  · have h1 : (10 : ℚ) ^ (-324 : ℤ) < 10 ^ d.dp := by
      have := double_ge hv h.reads.1
      have c := small_bound
      generalize (10 : ℚ) ^ (-324 : ℤ) = X at *
      generalize (2 : ℚ) ^ (-1074 : ℤ) = Y at *
      linarith
    exact (zpow_lt_zpow_iff_right₀ (by norm_num)).1 h1
  · have h1 : (10 : ℚ) ^ (d.dp - 1) < 10 ^ (309 : ℤ) := by
      have c := large_bound
      generalize (10 : ℚ) ^ (309 : ℤ) = X at *
      generalize (2 : ℚ) ^ 1024 = Y at *
      linarith
    have := (zpow_lt_zpow_iff_right₀ (by norm_num : (1 : ℚ) < 10)).1 h1
    omega

theorem read_formatG {v : ℚ} (hv : 0 < v) (hlt : v < 2 ^ 1024) {d : Dec} (h : Shortest v d) : readAbs (formatG d) = some d.value := by
  have hx := exp_bound hv hlt h
  unfold formatG
  split
  · exact read_fmtE h.digits (least_pos hv h) (by omega)
  · exact read_fmtF h.digits (.inl (least_pos hv h))

theorem readAbs_head {t : Bytes} {q : ℚ} (h : readAbs t = some q) : ∃ b r, t = b :: r ∧ isDig b = true := by
  cases t with
  | nil => simp [readAbs] at h
  | cons b r =>
    refine ⟨b, r, rfl, ?_⟩
    by_contra hb
    simp [readAbs, hb] at h

theorem readNumber_sign {t : Bytes} {q : ℚ} (h : readAbs t = some q) (neg : Bool) : readNumber ((if neg then [45] else []) ++ t) = some (neg, q) := by
  cases neg with
  | true => simp [readNumber, h]
  | false =>
    obtain ⟨b, r, rfl, hb⟩ := readAbs_head h
    have : b ≠ 45 := by rintro rfl; exact absurd hb (by decide)
    simp [readNumber, this, h]

variable {shortest : Nat → Int → Dec}

/-- The number that is printed. -/
theorem finite_reads (S : Right shortest) (neg : Bool) (m : ℕ) (e : ℤ) (hd : IsDouble (m * 2 ^ e)) (hlt : (m * 2 ^ e : ℚ) < 2 ^ 1024) :
    ∃ q, readNumber (finite shortest neg m e) = some (neg, q) ∧ Reads q (m * 2 ^ e) := by
  unfold finite digitsOf
  by_cases hm : m = 0
  · subst hm
    refine ⟨0, readNumber_sign ?_ neg, by simpa using reads_self isDouble_zero⟩
    rw [if_pos rfl]
    have : readAbs (fmtF ⟨[], 0⟩) = some (⟨[], 0⟩ : Dec).value := read_fmtF (by simp) (.inr rfl)
    simpa [formatG, Dec.value, digitsValue] using this
  · have hv : (0 : ℚ) < m * 2 ^ e := mul_pos (by exact_mod_cast Nat.pos_of_ne_zero hm) (two_pos' e)
    have h := S.right m e (Nat.pos_of_ne_zero hm) hd hlt
    exact ⟨_, readNumber_sign (by rw [if_neg hm]; exact read_formatG hv hlt h) neg, h.reads⟩

theorem right_bits (S : Right shortest) (bits : ℕ) (h : Finite bits) (hm : mantissa bits ≠ 0) :
    0 < absValue bits ∧ Shortest (absValue bits) (shortest (mantissa bits) (exponent bits)) := by
  have h1 := isDouble_bits bits
  have h2 := bits_lt bits h
  rw [absValue_eq] at h1 h2 ⊢
  exact ⟨mul_pos (by exact_mod_cast Nat.pos_of_ne_zero hm) (two_pos' _), S.right _ _ (Nat.pos_of_ne_zero hm) h1 h2⟩

/-- **C90.** A finite double is printed as a number with its sign, and the double nearest to this number (the even one of two) is the one that was
printed. -/
theorem C90_reads (S : Right shortest) (bits : ℕ) (h : Finite bits) :
    ∃ q, readNumber (double shortest bits) = some (negative bits, q) ∧ Reads q (absValue bits) := by
  have := finite_reads S (signBit bits) (mantissa bits) (exponent bits) (by rw [← absValue_eq]; exact isDouble_bits bits) (by rw [← absValue_eq]; exact bits_lt bits h)
  rwa [double, if_neg ((finite_iff _).1 h), ← negative_eq, absValue_eq]

/-- **C90.** The same of the value of a data point without a unit. -/
theorem C90_point (S : Right shortest) (d : Un.Double) (hd : IsDouble (d.m * 2 ^ d.e)) (hlt : (d.m * 2 ^ d.e : ℚ) < 2 ^ 1024) :
    ∃ q, readNumber (sprint shortest (Un.value (.double d))) = some (d.neg, q) ∧ Reads q (d.m * 2 ^ d.e) :=
  finite_reads S d.neg d.m d.e hd hlt

theorem special_unread (bits : ℕ) : readNumber (special bits) = none := by
  unfold special
  split
  · rfl
  · split <;> rfl

/-- **C90.** Different doubles are printed differently; only the values that are not numbers look all the same. -/
theorem C90_injective (S : Right shortest) {a b : ℕ} (ha : a < 2 ^ 64) (hb : b < 2 ^ 64) (h : double shortest a = double shortest b) :
    a = b ∨ (IsNaN a ∧ IsNaN b) := by
  by_cases fa : Finite a
  · obtain ⟨q, hq, hr⟩ := C90_reads S a fa
    by_cases fb : Finite b
    · obtain ⟨q', hq', hr'⟩ := C90_reads S b fb
      rw [h, hq'] at hq
      simp only [Option.some.injEq, Prod.mk.injEq] at hq
      obtain ⟨hs, rfl⟩ := hq
      exact .inl (bits_unique ha hb (by rw [negative_eq, negative_eq]; exact hs.symm) (reads_unique hr hr'))
    · have hb' : expBits b = 2047 := by rw [finite_iff] at fb; omega
      rw [h, double, if_pos hb', special_unread] at hq
      exact nomatch hq
  · have ha' : expBits a = 2047 := by rw [finite_iff] at fa; omega
    by_cases fb : Finite b
    · obtain ⟨q', hq', hr'⟩ := C90_reads S b fb
      rw [← h, double, if_pos ha', special_unread] at hq'
      exact nomatch hq'
    · have hb' : expBits b = 2047 := by rw [finite_iff] at fb; omega
      rw [double, double, if_pos ha', if_pos hb'] at h
      by_cases na : fracBits a = 0 <;> by_cases nb : fracBits b = 0
      · left
        refine fraction_unique ha hb ?_ (ha'.trans hb'.symm) (na.trans nb.symm)
        simp only [special, na, nb, ne_eq, not_true_eq_false, if_false] at h
        cases sa : signBit a <;> cases sb : signBit b <;> simp [sa, sb] at h <;> rfl
      · exfalso
        simp only [special, na, nb, ne_eq, not_true_eq_false, not_false_eq_true, if_false, if_true] at h
        cases sa : signBit a <;> simp [sa] at h
      · exfalso
        simp only [special, na, nb, ne_eq, not_true_eq_false, not_false_eq_true, if_false, if_true] at h
        cases sb : signBit b <;> simp [sb] at h
      · exact .inr ⟨⟨by rw [← expBits_eq]; exact ha', na⟩, ⟨by rw [← expBits_eq]; exact hb', nb⟩⟩

/-! ## The letters -/

/-- Digits, point, signs and the letters of `e`, `Inf` and `NaN`. -/
def Letter (b : UInt8) : Prop := isDig b = true ∨ b ∈ [46, 101, 43, 45, 73, 110, 102, 78, 97]

theorem letter_fmtE {d : Dec} (hd : ∀ b ∈ d.digits, isDig b = true) : ∀ b ∈ fmtE d, Letter b := by
  have he : ∀ x, ∀ b ∈ expText x, Letter b := by
    intro x b hb
    rw [expText_eq] at hb
    rcases List.mem_cons.1 hb with rfl | hb
    · split <;> exact .inr (by decide)
    · exact .inl (expDigits_dig _ b hb)
  intro b hb
  unfold fmtE at hb
  rcases List.mem_append.1 hb with hb | hb
  · rcases List.mem_append.1 hb with hb | hb
    · cases h : d.digits with
      | nil => rw [h] at hb; rw [List.mem_singleton.1 hb]; exact .inl (by decide)
      | cons c ds => rw [h] at hb; rw [List.mem_singleton.1 hb]; exact .inl (hd c (by simp [h]))
    · split at hb
      · rcases List.mem_cons.1 hb with rfl | hb
        · exact .inr (by decide)
        · exact .inl (hd b (List.mem_of_mem_drop hb))
      · simp at hb
  · rcases List.mem_cons.1 hb with rfl | hb
    · exact .inr (by decide)
    · exact he _ b hb

theorem letter_fmtF {d : Dec} (hd : ∀ b ∈ d.digits, isDig b = true) : ∀ b ∈ fmtF d, Letter b ∧ b ≠ 101 := by
  have dg : ∀ b, isDig b = true → Letter b ∧ b ≠ 101 := fun b h => ⟨.inl h, by rintro rfl; exact absurd h (by decide)⟩
  have z : ∀ k, ∀ b ∈ List.replicate k (48 : UInt8), Letter b ∧ b ≠ 101 := fun k b hb => by rw [List.eq_of_mem_replicate hb]; exact dg _ (by decide)
  intro b hb
  unfold fmtF at hb
  simp only [fracs_eq] at hb
  rcases List.mem_append.1 hb with hb | hb
  · split at hb
    · rcases List.mem_append.1 hb with hb | hb
      · exact dg b (hd b (List.mem_of_mem_take hb))
      · exact z _ b hb
    · rw [List.mem_singleton.1 hb]; exact dg _ (by decide)
  · split at hb
    · rcases List.mem_cons.1 hb with rfl | hb
      · exact ⟨.inr (by decide), by decide⟩
      · rcases List.mem_append.1 hb with hb | hb
        · exact z _ b hb
        · exact dg b (hd b (List.mem_of_mem_drop hb))
    · simp at hb

theorem letter_finite (S : Right shortest) (neg : Bool) (m : ℕ) (e : ℤ) : ∀ b ∈ finite shortest neg m e, Letter b := by
  intro b hb
  unfold finite digitsOf at hb
  have key : ∀ d : Dec, (∀ b ∈ d.digits, isDig b = true) → b ∈ formatG d → Letter b := by
    intro d hd hb
    unfold formatG at hb
    split at hb
    · exact letter_fmtE hd b hb
    · exact (letter_fmtF hd b hb).1
  rcases List.mem_append.1 hb with hb | hb
  · split at hb
    · rw [List.mem_singleton.1 hb]; exact .inr (by decide)
    · simp at hb
  · split at hb
    · exact key _ (by simp) hb
    · exact key _ (S.digits m e) hb

theorem letter_special (bits : ℕ) : ∀ b ∈ special bits, Letter b := by
  intro b hb
  unfold special at hb
  split at hb
  · exact .inr (by simp only [List.mem_cons, List.not_mem_nil, or_false] at hb ⊢; rcases hb with h | h | h <;> simp [h])
  · split at hb <;>
      exact .inr (by simp only [List.mem_cons, List.not_mem_nil, or_false] at hb ⊢; rcases hb with h | h | h | h <;> simp [h])

/-- **C90.** A double is printed as one word, of digits, points, signs and the letters of `e`, `Inf` and `NaN`. -/
theorem C90_letters (S : Right shortest) (bits : ℕ) : ∀ b ∈ double shortest bits, Letter b := by
  intro b hb
  unfold double at hb
  split at hb
  · exact letter_special bits b hb
  · exact letter_finite S _ _ _ b hb

theorem C90_letters_sprint (S : Right shortest) (v : Except ℕ Un.Double) : ∀ b ∈ sprint shortest v, Letter b := by
  intro b hb
  cases v with
  | ok d => exact letter_finite S _ _ _ b hb
  | error bits => exact letter_special bits b hb

/-! ## The form -/

/-- **C90.** The exponent form is used exactly for numbers that are shown as less than a ten thousandth, or as a million or more. -/
theorem C90_form (S : Right shortest) (bits : ℕ) (h : Finite bits) (h0 : absValue bits ≠ 0) :
    ∃ q, readNumber (double shortest bits) = some (negative bits, q) ∧ (101 ∈ double shortest bits ↔ q < 1 / 10000 ∨ 1000000 ≤ q) := by
  have hm : mantissa bits ≠ 0 := by rintro e; apply h0; simp [absValue_eq, e]
  obtain ⟨hv, hs⟩ := right_bits S bits h hm
  have hr := read_formatG hv (bits_lt bits h) hs
  refine ⟨(shortest (mantissa bits) (exponent bits)).value, ?_, ?_⟩
  · rw [double, if_neg ((finite_iff _).1 h)]
    unfold finite digitsOf
    rw [if_neg hm]
    rw [← negative_eq]; exact readNumber_sign hr _
  · rw [double, if_neg ((finite_iff _).1 h)]
    unfold finite digitsOf
    rw [if_neg hm]
    generalize shortest (mantissa bits) (exponent bits) = d at *
    obtain ⟨b1, b2⟩ := value_bounds hs.digits (least_pos hv hs) (least_head hs)
    have hsign : (101 : UInt8) ∉ (if signBit bits then [45] else [] : Bytes) := by cases signBit bits <;> decide
    have e1 : (1 / 10000 : ℚ) = 10 ^ (-4 : ℤ) := by norm_num
    have e2 : (1000000 : ℚ) = 10 ^ (6 : ℤ) := by norm_num
    have mono := fun (a b : ℤ) (h : a ≤ b) => zpow_le_zpow_right₀ (by norm_num : (1 : ℚ) ≤ 10) h
    rw [e1, e2]
    constructor
    · intro hmem
      have hmem := (List.mem_append.1 hmem).resolve_left hsign
      unfold formatG at hmem
      split at hmem
      · rename_i hx
        rcases hx with hx | hx
        · exact .inl (lt_of_lt_of_le b2 (mono _ _ (by omega)))
        · exact .inr (le_trans (mono _ _ hx) b1)
      · exact absurd rfl (letter_fmtF hs.digits _ hmem).2
    · intro hq
      refine List.mem_append.2 (.inr ?_)
      unfold formatG
      rw [if_pos]
      · unfold fmtE; simp
      · rcases hq with hq | hq
        · left
          have := (zpow_lt_zpow_iff_right₀ (by norm_num : (1 : ℚ) < 10)).1 (lt_of_le_of_lt b1 hq)
          omega
        · right
          have := (zpow_lt_zpow_iff_right₀ (by norm_num : (1 : ℚ) < 10)).1 (lt_of_le_of_lt hq b2)
          omega

/-! ## At most 17 digits -/

theorem scale {m : ℕ} {e f : ℤ} (h : f ≤ e) : ∃ M : ℕ, (m : ℚ) * 2 ^ e = M * 2 ^ f ∧ M = m * 2 ^ (e - f).toNat := by
  refine ⟨m * 2 ^ (e - f).toNat, ?_, rfl⟩
  have : e = ((e - f).toNat : ℤ) + f := by omega
  conv => lhs; rw [this, zpow_add₀ (by norm_num), zpow_natCast]
  push_cast
  ring

theorem gap_nat {M n : ℕ} (hn : n < 2 ^ 53) (hne : n ≠ M) : (M : ℚ) ≤ |(M : ℚ) - n| * 2 ^ 53 := by
  rcases lt_or_gt_of_ne hne with h | h
  · have h1 : M ≤ (M - n) * 2 ^ 53 := by omega
    have e : |(M : ℚ) - n| = ((M - n : ℕ) : ℚ) := by
      rw [Nat.cast_sub (le_of_lt h), abs_of_nonneg]
      have : (n : ℚ) ≤ M := by exact_mod_cast le_of_lt h
      linarith
    rw [e]
    exact_mod_cast h1
  · have h1 : M ≤ (n - M) * 2 ^ 53 := by omega
    have e : |(M : ℚ) - n| = ((n - M : ℕ) : ℚ) := by
      rw [Nat.cast_sub (le_of_lt h), abs_sub_comm, abs_of_nonneg]
      have : (M : ℚ) ≤ n := by exact_mod_cast le_of_lt h
      linarith
    rw [e]
    exact_mod_cast h1

/-- Other doubles are at least one part in 2^53 away. -/
theorem gap {v w : ℚ} (hv : IsDouble v) (hw : IsDouble w) (hne : w ≠ v) : v ≤ |v - w| * 2 ^ 53 := by
  obtain ⟨m, e, hm, -, rfl⟩ := hv
  obtain ⟨n, f, hn, -, rfl⟩ := hw
  rcases le_total f e with h | h
  · obtain ⟨M, hM, -⟩ := scale (m := m) h
    rw [hM] at hne ⊢
    have hp := two_pos' f
    have hne' : n ≠ M := by rintro rfl; exact hne rfl
    have e1 : |(M : ℚ) * 2 ^ f - n * 2 ^ f| = |(M : ℚ) - n| * 2 ^ f := by rw [← sub_mul, abs_mul, abs_of_pos hp]
    rw [e1]
    have := mul_le_mul_of_nonneg_right (gap_nat hn hne') (le_of_lt hp)
    linarith
  · obtain ⟨N, hN, -⟩ := scale (m := n) h
    rw [hN] at hne ⊢
    have hp := two_pos' e
    have hne' : (N : ℤ) ≠ m := by intro h; apply hne; have : (N : ℚ) = m := by exact_mod_cast h
                                  rw [this]
    have e1 : |(m : ℚ) * 2 ^ e - N * 2 ^ e| = |(m : ℚ) - N| * 2 ^ e := by rw [← sub_mul, abs_mul, abs_of_pos hp]
    rw [e1]
    have h1 : (1 : ℚ) ≤ |(m : ℚ) - N| := by
      have : (1 : ℤ) ≤ |(m : ℤ) - N| := Int.one_le_abs (by omega)
      exact_mod_cast this
    have h2 : (m : ℚ) ≤ 2 ^ 53 := by exact_mod_cast le_of_lt hm
    have : (m : ℚ) ≤ |(m : ℚ) - N| * 2 ^ 53 := by nlinarith
    have := mul_le_mul_of_nonneg_right this (le_of_lt hp)
    linarith

/-- What is nearer than half of one part in 2^53 is read back. -/
theorem reads_of_near {q v : ℚ} (hv : IsDouble v) (h : |q - v| * 2 ^ 54 < v) : Reads q v := by
  refine ⟨hv, fun w hw hne => .inl ?_⟩
  have h1 := gap hv hw hne
  have h2 : |v - w| ≤ |q - v| + |q - w| := by
    have := abs_sub_le v q w
    rwa [abs_sub_comm v q] at this
  by_contra hlt
  rw [not_lt] at hlt
  nlinarith

/-- 17 digits are enough. -/
theorem least_17 {v : ℚ} (hv : 0 < v) (hd : IsDouble v) {d : Dec} (h : Shortest v d) : d.digits.length ≤ 17 := by
  obtain ⟨y, hy⟩ := exists_mem_Ico_zpow hv (by norm_num : (1 : ℚ) < 10)
  rw [Set.mem_Ico] at hy
  have hp : (0 : ℚ) < 10 ^ (y - 16) := zpow_pos (by norm_num) _
  have e1 : (10 : ℚ) ^ y = 10 ^ 16 * 10 ^ (y - 16) := by
    rw [← zpow_natCast, ← zpow_add₀ (by norm_num)]; congr 1; push_cast; ring
  have e2 : (10 : ℚ) ^ (y + 1) = 10 ^ 17 * 10 ^ (y - 16) := by
    rw [← zpow_natCast, ← zpow_add₀ (by norm_num)]; congr 1; push_cast; ring
  rw [e1, e2] at hy
  -- the nearest whole number of units
  obtain ⟨n, hn1, hn2⟩ : ∃ n : ℕ, (n : ℚ) ≤ v / 10 ^ (y - 16) + 1 / 2 ∧ v / 10 ^ (y - 16) + 1 / 2 < n + 1 :=
    ⟨⌊v / 10 ^ (y - 16) + 1 / 2⌋₊, Nat.floor_le (by positivity), Nat.lt_floor_add_one _⟩
  have ev : v = v / 10 ^ (y - 16) * 10 ^ (y - 16) := by field_simp
  have hlo : (10 : ℚ) ^ 16 ≤ v / 10 ^ (y - 16) := by rw [le_div_iff₀ hp]; exact hy.1
  have hhi : v / 10 ^ (y - 16) < (10 : ℚ) ^ 17 := by rw [div_lt_iff₀ hp]; exact hy.2
  have hread : Reads (n * 10 ^ (y - 16)) v := by
    apply reads_of_near hd
    conv => lhs; rw [ev]
    conv => rhs; rw [ev]
    generalize v / 10 ^ (y - 16) = u at *
    have e3 : |(n : ℚ) * 10 ^ (y - 16) - u * 10 ^ (y - 16)| = |(n : ℚ) - u| * 10 ^ (y - 16) := by rw [← sub_mul, abs_mul, abs_of_pos hp]
    rw [e3]
    have h4 : |(n : ℚ) - u| ≤ 1 / 2 := by rw [abs_le]; constructor <;> linarith
    have h5 : |(n : ℚ) - u| * 2 ^ 54 < u := by norm_num at hlo ⊢; linarith
    have := mul_lt_mul_of_pos_right h5 hp
    linarith
  have hle : n ≤ 10 ^ 17 := by
    have : (n : ℚ) < 10 ^ 17 + 1 := by linarith
    have : n < 10 ^ 17 + 1 := by exact_mod_cast this
    omega
  rcases Nat.lt_or_eq_of_le hle with hlt | rfl
  · exact h.least n _ 17 hlt hread
  · refine h.least (10 ^ 16) (y - 15) 17 (by norm_num) ?_
    have : ((10 ^ 17 : ℕ) : ℚ) * 10 ^ (y - 16) = ((10 ^ 16 : ℕ) : ℚ) * 10 ^ (y - 15) := by
      have : y - 15 = 1 + (y - 16) := by ring
      rw [this, zpow_add₀ (by norm_num)]
      push_cast
      ring
    rw [← this]; exact hread

theorem length_expText (x : ℤ) : (expText x).length ≤ 4 := by
  rw [expText_eq, List.length_cons]
  unfold expDigits
  by_cases h : x.natAbs < 10
  · simp [h]
  · by_cases h' : x.natAbs < 100 <;> simp [h, h']

theorem length_formatG {d : Dec} (h : d.digits.length ≤ 17) : (formatG d).length ≤ 23 := by
  unfold formatG
  split
  · obtain ⟨ds, dp⟩ := d
    unfold fmtE
    have := length_expText (if ds = [] then 0 else dp - 1)
    dsimp only at h this ⊢
    cases ds with
    | nil => simp at this ⊢; omega
    | cons c r =>
      simp only [List.length_append, List.length_cons, List.length_nil, List.drop_succ_cons, List.drop_zero] at h ⊢
      split
      · simp only [List.length_cons]; omega
      · simp only [List.length_nil]; omega
  · rename_i hx
    unfold fmtF
    simp only [List.length_append]
    have h1 : (if 0 < ((d.digits.length : ℤ) - d.dp).toNat then 46 :: (List.range ((d.digits.length : ℤ) - d.dp).toNat).map (fracDigit d) else [] : Bytes).length ≤
        ((d.digits.length : ℤ) - d.dp).toNat + 1 := by
      split <;> simp
    split
    · simp only [List.length_append, List.length_take, List.length_replicate]
      omega
    · simp only [List.length_singleton]
      omega

/-- **C90.** No more than 24 bytes are printed for a double. -/
theorem C90_length (S : Right shortest) (bits : ℕ) : (double shortest bits).length ≤ 24 := by
  unfold double
  split
  · unfold special
    split
    · decide
    · split <;> decide
  · rename_i h
    unfold finite
    have hs : (if signBit bits then [45] else [] : Bytes).length ≤ 1 := by split <;> simp
    have : (formatG (digitsOf shortest (mantissa bits) (exponent bits))).length ≤ 23 := by
      apply length_formatG
      unfold digitsOf
      split
      · simp
      · rename_i hm
        obtain ⟨hv, hs⟩ := right_bits S bits ((finite_iff _).2 h) hm
        exact least_17 hv (isDouble_bits bits) hs
    rw [List.length_append]; omega

/-! ## Whole numbers -/

/-- A positive whole number that a double can hold, in its normal form. -/
theorem int_canon {i : ℕ} (h0 : 0 < i) (h : i < 2 ^ 53) : ∃ (m : ℕ) (e : ℤ), 2 ^ 52 ≤ m ∧ m < 2 ^ 53 ∧ -1074 ≤ e ∧ (i : ℚ) = m * 2 ^ e := by
  obtain ⟨n, f, h1, h2, h3, h4⟩ := canon 1074 i 0 h (by norm_num)
  rw [zpow_zero, mul_one] at h3
  refine ⟨n, f, ?_, h1, h2, h3⟩
  rcases h4 with h4 | rfl
  · exact h4
  · exfalso
    have e : (i : ℚ) * 2 ^ 1074 = n := by
      rw [h3, mul_assoc, ← zpow_natCast, ← zpow_add₀ (by norm_num : (2 : ℚ) ≠ 0), show (-1074 : ℤ) + ((1074 : ℕ) : ℤ) = 0 by norm_num, zpow_zero, mul_one]
    have e : i * 2 ^ 1074 = n := by exact_mod_cast e
    have : 1 * 2 ^ 1074 ≤ i * 2 ^ 1074 := Nat.mul_le_mul_right _ h0
    have c : 2 ^ 53 < 1 * 2 ^ 1074 := by decide +kernel
    omega

theorem isDouble_int {i : ℕ} (h : i < 2 ^ 53) : IsDouble i := ⟨i, 0, h, by norm_num, by simp⟩

/-- Shortest digits of a whole number below 10^15 are its own. -/
theorem int_value {i : ℕ} (h0 : 0 < i) (h : i < 10 ^ 15) {d : Dec} (hs : Shortest (i : ℚ) d) : d.value = i := by
  have hc : (10 : ℕ) ^ 15 < 2 ^ 53 := by norm_num
  have hi53 : i < 2 ^ 53 := by omega
  obtain ⟨m, e, hm1, hm2, he, hme⟩ := int_canon h0 hi53
  have hlen : d.digits.length ≤ 15 := hs.least i 0 15 h (by simpa using reads_self (isDouble_int hi53))
  have hdv : digitsValue d.digits < 10 ^ 15 := lt_of_lt_of_le (dv_lt _ hs.digits) (Nat.pow_le_pow_right (by norm_num) hlen)
  have hr := hs.reads
  rw [hme] at hr
  have hnear := reads_near hr hm1 hm2 he
  rw [← hme] at hnear
  have hulp : (2 : ℚ) ^ e * 2 ^ 52 ≤ i := by
    rw [hme, mul_comm]
    have : (2 ^ 52 : ℚ) ≤ m := by exact_mod_cast hm1
    exact mul_le_mul_of_nonneg_right this (le_of_lt (two_pos' e))
  have hipos : (0 : ℚ) < i := by exact_mod_cast h0
  have hnear : |d.value - i| * 2 ^ 53 ≤ i := by
    have : |d.value - i| * 2 ^ 53 ≤ 2 ^ e / 2 * 2 ^ 53 := mul_le_mul_of_nonneg_right hnear (by positivity)
    linarith
  have hi15 : (i : ℚ) < 2 ^ 53 := by exact_mod_cast hi53
  by_contra hne
  rcases le_or_gt 0 (d.dp - (d.digits.length : ℤ)) with hx | hx
  · -- a whole number
    obtain ⟨k, hk⟩ := Int.eq_ofNat_of_zero_le hx
    have hq : d.value = ((digitsValue d.digits * 10 ^ k : ℕ) : ℚ) := by
      rw [Dec.value, hk]
      push_cast
      rw [zpow_natCast]
    rw [hq] at hne hnear
    generalize digitsValue d.digits * 10 ^ k = n at *
    have h1 : (1 : ℚ) ≤ |(n : ℚ) - i| := by
      have : (n : ℤ) ≠ i := by intro e; apply hne; exact_mod_cast e
      have : (1 : ℤ) ≤ |(n : ℤ) - i| := Int.one_le_abs (by omega)
      exact_mod_cast this
    nlinarith
  · -- a fraction
    obtain ⟨k, hk⟩ : ∃ k : ℕ, d.dp - (d.digits.length : ℤ) = -(k : ℤ) := ⟨(-(d.dp - (d.digits.length : ℤ))).toNat, by omega⟩
    have hq : d.value * 10 ^ k = digitsValue d.digits := by
      rw [Dec.value, hk, zpow_neg, zpow_natCast, inv_mul_cancel_right₀ (by positivity)]
    have hp : (0 : ℚ) < 10 ^ k := by positivity
    have h1 : 1 ≤ |d.value - i| * 10 ^ k := by
      have e : |d.value - i| * 10 ^ k = |(digitsValue d.digits : ℚ) - ((i * 10 ^ k : ℕ) : ℚ)| := by
        rw [← hq, ← abs_of_pos hp, ← abs_mul, abs_of_pos hp]
        push_cast
        rw [sub_mul]
      rw [e]
      have hn : (digitsValue d.digits : ℤ) ≠ ((i * 10 ^ k : ℕ) : ℤ) := by
        intro e'
        apply hne
        have e' : (digitsValue d.digits : ℚ) = ((i * 10 ^ k : ℕ) : ℚ) := by exact_mod_cast e'
        rw [← hq] at e'
        push_cast at e'
        exact mul_right_cancel₀ (ne_of_gt hp) e'
      have : (1 : ℤ) ≤ |(digitsValue d.digits : ℤ) - ((i * 10 ^ k : ℕ) : ℤ)| := Int.one_le_abs (by omega)
      exact_mod_cast this
    have hlow : (i : ℚ) * (2 ^ 53 - 1) ≤ d.value * 2 ^ 53 := by
      have := (abs_le.1 (le_of_eq (rfl : |d.value - i| = |d.value - i|))).1
      nlinarith
    have hdv : (digitsValue d.digits : ℚ) < 10 ^ 15 := by exact_mod_cast hdv
    -- `2 ^ 53 ≤ i * 10 ^ k`, so there are too many digits
    have h2 : (2 : ℚ) ^ 53 ≤ i * 10 ^ k := by
      have : 1 * 2 ^ 53 ≤ |d.value - i| * 10 ^ k * 2 ^ 53 := mul_le_mul_of_nonneg_right h1 (by positivity)
      have : |d.value - i| * 2 ^ 53 * 10 ^ k ≤ i * 10 ^ k := mul_le_mul_of_nonneg_right hnear (le_of_lt hp)
      nlinarith
    have h3 : (i : ℚ) * 10 ^ k * (2 ^ 53 - 1) ≤ digitsValue d.digits * 2 ^ 53 := by
      rw [← hq]
      have := mul_le_mul_of_nonneg_right hlow (le_of_lt hp)
      nlinarith
    nlinarith

/-- The text of a whole number below a million. -/
theorem int_text {i : ℕ} (h0 : 0 < i) (h : i < 1000000) {d : Dec} (hs : Shortest (i : ℚ) d) : formatG d = dec i := by
  have hval := int_value h0 (by omega) hs
  have hipos : (0 : ℚ) < i := by exact_mod_cast h0
  have hne := least_pos hipos hs
  have hhead := least_head hs
  obtain ⟨b1, b2⟩ := value_bounds hs.digits hne hhead
  rw [hval] at b1 b2
  have hlt : d.dp - 1 < 6 := by
    have : (10 : ℚ) ^ (d.dp - 1) < 10 ^ (6 : ℤ) := by
      have : (i : ℚ) < 1000000 := by exact_mod_cast h
      calc (10 : ℚ) ^ (d.dp - 1) ≤ i := b1
        _ < 1000000 := this
        _ = 10 ^ (6 : ℤ) := by norm_num
    exact (zpow_lt_zpow_iff_right₀ (by norm_num : (1 : ℚ) < 10)).1 this
  have hge : 0 < d.dp := by
    have : (10 : ℚ) ^ (0 : ℤ) < 10 ^ d.dp := by
      have : (1 : ℚ) ≤ i := by exact_mod_cast h0
      rw [zpow_zero]; linarith
    exact (zpow_lt_zpow_iff_right₀ (by norm_num : (1 : ℚ) < 10)).1 this
  have hlen : (d.digits.length : ℤ) ≤ d.dp := by
    by_contra hlt
    apply least_last hs
    refine ⟨hne, ?_⟩
    obtain ⟨k, hk⟩ : ∃ k : ℕ, d.dp - (d.digits.length : ℤ) = -((k + 1 : ℕ) : ℤ) := ⟨((d.digits.length : ℤ) - d.dp).toNat - 1, by omega⟩
    have e : (digitsValue d.digits : ℚ) = ((i * 10 ^ (k + 1) : ℕ) : ℚ) := by
      push_cast
      rw [← hval, Dec.value, hk, zpow_neg, zpow_natCast, inv_mul_cancel_right₀ (by positivity)]
    have e : digitsValue d.digits = i * 10 ^ (k + 1) := by exact_mod_cast e
    rw [e, Nat.pow_succ]
    exact ⟨i * 10 ^ k, by ring⟩
  unfold formatG
  rw [if_neg (by omega)]
  have et : fmtF d = d.digits ++ List.replicate (d.dp.toNat - d.digits.length) 48 := by
    simp only [fmtF, if_pos hge]
    rw [if_neg (by omega), List.append_nil, List.take_of_length_le (by omega)]
  rw [et]
  symm
  apply (natText_iff i _).1
  refine ⟨by simp [hne], ?_, ?_, ?_⟩
  · intro c hc
    have : isDig c = true := by
      rcases List.mem_append.1 hc with h | h
      · exact hs.digits c h
      · rw [List.eq_of_mem_replicate h]; decide
    simp only [isDig, Bool.and_eq_true, decide_eq_true_eq] at this
    omega
  · intro hc
    exfalso
    apply hhead
    cases hd : d.digits with
    | nil => exact absurd hd hne
    | cons c ds => rw [hd] at hc; simpa using hc
  · rw [dv_append, dv_zeros, List.length_replicate, Nat.add_zero]
    have ex : d.dp - (d.digits.length : ℤ) = ((d.dp.toNat - d.digits.length : ℕ) : ℤ) := by omega
    have e : ((digitsValue d.digits * 10 ^ (d.dp.toNat - d.digits.length) : ℕ) : ℚ) = i := by
      push_cast
      rw [← hval, Dec.value, ex, zpow_natCast]
    exact_mod_cast e

theorem int_lt {i : ℕ} (h : i < 2 ^ 53) : (i : ℚ) < 2 ^ 1024 := by
  have c : 2 ^ 53 < 2 ^ 1024 := by decide +kernel
  have : i < 2 ^ 1024 := lt_trans h c
  exact_mod_cast this

/-- **C90.** A whole number below 10^15 is shown exactly. -/
theorem C90_count (S : Right shortest) (i : ℤ) (h : i.natAbs < 10 ^ 15) :
    readNumber (sprint shortest (Un.value (.int i))) = some (decide (i < 0), (i.natAbs : ℚ)) := by
  have hc : (10 : ℕ) ^ 15 < 2 ^ 53 := by norm_num
  have hr : Un.round53 i.natAbs = i.natAbs := Un.round_small (by omega)
  simp only [Un.value, sprint, hr]
  unfold finite digitsOf
  refine readNumber_sign ?_ _
  by_cases h0 : i.natAbs = 0
  · rw [if_pos h0, h0]
    have : readAbs (fmtF ⟨[], 0⟩) = some (⟨[], 0⟩ : Dec).value := read_fmtF (by simp) (.inr rfl)
    simpa [formatG, Dec.value, digitsValue] using this
  · rw [if_neg h0]
    have hpos : 0 < i.natAbs := Nat.pos_of_ne_zero h0
    have hs := S.right i.natAbs 0 hpos (by simpa using isDouble_int (show i.natAbs < 2 ^ 53 by omega)) (by simpa using int_lt (show i.natAbs < 2 ^ 53 by omega))
    rw [zpow_zero, mul_one] at hs
    rw [read_formatG (by exact_mod_cast hpos) (int_lt (by omega)) hs, int_value hpos h hs]

/-- **C90.** Below a million it is shown as plain digits. -/
theorem C90_plain (S : Right shortest) (i : ℤ) (h : i.natAbs < 1000000) : IntText i (sprint shortest (Un.value (.int i))) := by
  have hr : Un.round53 i.natAbs = i.natAbs := Un.round_small (by omega)
  simp only [Un.value, sprint, hr]
  unfold finite digitsOf
  have ht : formatG (if i.natAbs = 0 then ⟨[], 0⟩ else shortest i.natAbs 0) = dec i.natAbs := by
    by_cases h0 : i.natAbs = 0
    · rw [if_pos h0, h0]; decide +kernel
    · rw [if_neg h0]
      have hpos : 0 < i.natAbs := Nat.pos_of_ne_zero h0
      have hs := S.right i.natAbs 0 hpos (by simpa using isDouble_int (show i.natAbs < 2 ^ 53 by omega)) (by simpa using int_lt (show i.natAbs < 2 ^ 53 by omega))
      rw [zpow_zero, mul_one] at hs
      exact int_text hpos h hs
  rw [ht]
  by_cases hi : i < 0
  · exact .inr ⟨hi, dec i.natAbs, by simp [hi], (natText_iff _ _).2 rfl⟩
  · refine .inl ⟨by omega, ?_⟩
    simp only [hi, decide_false]
    exact (natText_iff _ _).2 rfl

/-! ## There are such digits -/

theorem decimal_exists (m : ℕ) (e : ℤ) : ∃ (n : ℕ) (x : ℤ), (m : ℚ) * 2 ^ e = n * 10 ^ x := by
  rcases le_or_gt 0 e with h | h
  · obtain ⟨k, rfl⟩ := Int.eq_ofNat_of_zero_le h
    exact ⟨m * 2 ^ k, 0, by push_cast; rw [zpow_natCast]; simp⟩
  · obtain ⟨k, rfl⟩ : ∃ k : ℕ, e = -(k : ℤ) := ⟨(-e).toNat, by omega⟩
    refine ⟨m * 5 ^ k, -(k : ℤ), ?_⟩
    rw [zpow_neg, zpow_neg, zpow_natCast, zpow_natCast]
    have h1 : (2 : ℚ) ^ k ≠ 0 := by positivity
    have h2 : (10 : ℚ) ^ k ≠ 0 := by positivity
    have h3 : (10 : ℚ) ^ k = 2 ^ k * 5 ^ k := by rw [← mul_pow]; norm_num
    push_cast
    field_simp
    rw [h3]
    ring

theorem shortest_exists {m : ℕ} {e : ℤ} (h : IsDouble (m * 2 ^ e)) : ∃ d, Shortest (m * 2 ^ e) d := by
  classical
  have hex : ∃ k, ∃ (n : ℕ) (x : ℤ), n < 10 ^ k ∧ Reads (n * 10 ^ x) (m * 2 ^ e) := by
    obtain ⟨n, x, hnx⟩ := decimal_exists m e
    exact ⟨n, n, x, Nat.lt_pow_self (by norm_num), by rw [← hnx]; exact reads_self h⟩
  obtain ⟨n, x, hn, hr⟩ := Nat.find_spec hex
  refine ⟨⟨pad (Nat.find hex) n, x + (Nat.find hex : ℤ)⟩, ?_, ?_, ?_⟩
  · intro b hb; exact isDig_of (pad_digits _ _ b hb)
  · have : (⟨pad (Nat.find hex) n, x + (Nat.find hex : ℤ)⟩ : Dec).value = n * 10 ^ x := by
      simp only [Dec.value, dv_pad, pad_length, Nat.mod_eq_of_lt hn]
      congr 2
      omega
    rw [this]; exact hr
  · intro n' x' k hk hr'
    simp only [pad_length]
    exact Nat.find_min' hex ⟨n', x', hk, hr'⟩

/-- What is asked of the digits can be met. -/
theorem right_exists : ∃ shortest, Right shortest := by
  classical
  refine ⟨fun m e => if h : IsDouble (m * 2 ^ e) then Classical.choose (shortest_exists h) else ⟨[], 0⟩, ?_, ?_⟩
  · intro m e b hb
    by_cases h : IsDouble ((m : ℚ) * 2 ^ e)
    · rw [dif_pos h] at hb; exact (Classical.choose_spec (shortest_exists h)).digits b hb
    · rw [dif_neg h] at hb; simp at hb
  · intro m e _ h _
    rw [dif_pos h]; exact Classical.choose_spec (shortest_exists h)

/-! ## In attributes and tables -/

theorem letter_toNat {b : UInt8} (h : Letter b) : 43 ≤ b.toNat ∧ b.toNat ≤ 110 ∧ b.toNat ≠ 44 ∧ b.toNat ≠ 91 ∧ b.toNat ≠ 93 := by
  rcases h with h | h
  · simp only [isDig, Bool.and_eq_true, decide_eq_true_eq] at h
    omega
  · simp only [List.mem_cons, List.not_mem_nil, or_false] at h
    rcases h with rfl | rfl | rfl | rfl | rfl | rfl | rfl | rfl | rfl <;> decide

/-- A double in an attribute is one word. -/
theorem words (S : Right shortest) (above : ℕ → Bool) : (Qt.fmt above (double shortest)).Words := by
  intro d c hc
  have h := letter_toNat (C90_letters S d c hc)
  refine ⟨?_, ?_, ?_, ?_, ?_, ?_⟩ <;> (rintro rfl; revert h; decide)

theorem clean_letters {t : Bytes} (h : ∀ b ∈ t, Letter b) : Tw.Clean t :=
  Tw.Visible.clean fun b hb => by have := letter_toNat (h b hb); omega

/-- **C90.** Attribute lists with doubles in them, with keys without spaces, have the same text exactly if they look the same (see C70), with doubles as they are printed
here. -/
theorem C90_attributes (S : Right shortest) (above : ℕ → Bool) {l l' : List (Bytes × Rd.Any)} (h : Rd.SpacelessPairs l) (h' : Rd.SpacelessPairs l') :
    Rd.attr (Qt.fmt above (double shortest)) l = Rd.attr (Qt.fmt above (double shortest)) l' ↔
      Rd.shapePairs (Qt.fmt above (double shortest)) l = Rd.shapePairs (Qt.fmt above (double shortest)) l' :=
  Qt.C87_exact above _ (words S above) h h'

/-- **C90.** Two attributes with the same key, whose values are doubles, have the same text only if they are the same double, or both not a number. -/
theorem C90_attribute (S : Right shortest) (above : ℕ → Bool) {k : Bytes} (hk : ∀ c ∈ k, c ≠ 32) {a b : ℕ} (ha : a < 2 ^ 64) (hb : b < 2 ^ 64)
    (h : Rd.attr (Qt.fmt above (double shortest)) [(k, .double a)] = Rd.attr (Qt.fmt above (double shortest)) [(k, .double b)]) :
    a = b ∨ (IsNaN a ∧ IsNaN b) := by
  have := (C90_attributes S above (l := [(k, .double a)]) (l' := [(k, .double b)]) ⟨hk, trivial, trivial⟩ ⟨hk, trivial, trivial⟩).1 h
  simp only [Rd.shapePairs, Rd.shape, List.cons.injEq, Prod.mk.injEq, Rd.Shape.word.injEq, true_and, and_true] at this
  exact C90_injective S ha hb this

/-- The numbers of a table are clean (see C88), if those of bytes are. -/
theorem cleanNumbers (S : Right shortest) (E : Un.Env) (h : ∀ v, Tw.Clean (E.iBytes v)) :
    Tw.CleanNumbers (double shortest) { E with sprint := sprint shortest } :=
  ⟨fun d => clean_letters (C90_letters S d), fun v => clean_letters (C90_letters_sprint S v), h⟩

/-! ## Examples -/

/-- 2.5 -/
example : formatG ⟨[50, 53], 1⟩ = ascii "2.5" := by decide +kernel
/-- a million, and the number before it -/
example : formatG ⟨[49], 7⟩ = ascii "1e+06" ∧ formatG ⟨[57, 57, 57, 57, 57, 57], 6⟩ = ascii "999999" := by decide +kernel
/-- a ten thousandth and a hundred thousandth -/
example : formatG ⟨[49], -3⟩ = ascii "0.0001" ∧ formatG ⟨[49], -4⟩ = ascii "1e-05" := by decide +kernel
/-- the largest double -/
example : formatG ⟨ascii "17976931348623157", 309⟩ = ascii "1.7976931348623157e+308" := by decide +kernel
/-- zeros -/
example : double shortest 0 = ascii "0" ∧ double shortest (2 ^ 63) = ascii "-0" := ⟨rfl, rfl⟩
/-- infinities, and not a number -/
example : double shortest (2047 * 2 ^ 52) = ascii "+Inf" ∧ double shortest (4095 * 2 ^ 52) = ascii "-Inf" ∧ double shortest (2047 * 2 ^ 52 + 1) = ascii "NaN" := ⟨rfl, rfl, rfl⟩
/-- one and a half -/
example : Finite 0x3FF8000000000000 ∧ absValue 0x3FF8000000000000 = 3 / 2 := by
  refine ⟨by unfold Finite; decide, ?_⟩
  have h1 : mantissa 0x3FF8000000000000 = 3 * 2 ^ 51 := by decide
  have h2 : exponent 0x3FF8000000000000 = -52 := by decide
  rw [absValue_eq, h1, h2]
  norm_num

end Verif.Fp
