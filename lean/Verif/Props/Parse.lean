import Verif.Model.Parse
import Verif.Spec.Parse
import Verif.Props.Unit
import Mathlib.Data.List.Forall2
/-!
# C86: durations in scripts
-/
namespace Verif.Un

theorem digitC_eq (c : UInt8) : digitC c = isDig c := by
  simp only [digitC, isDig]
  congr 1
  simp only [decide_eq_decide]; omega

/-! ## Numbers -/

theorem round_shift {n : Nat} (h : n < 2 ^ 53) (e : Nat) : round53 (n * 2 ^ e) = n * 2 ^ e := by
  by_cases h0 : n = 0
  · subst h0; simp only [Nat.zero_mul]; exact round_small (by omega)
  have hlog : (n * 2 ^ e).log2 + 1 - 53 ≤ e := by
    have hne : n * 2 ^ e ≠ 0 := Nat.mul_ne_zero h0 (Nat.pos_iff_ne_zero.1 (Nat.pow_pos (by omega)))
    have : (n * 2 ^ e).log2 < 53 + e := by
      rw [Nat.log2_lt hne, Nat.pow_add]
      exact Nat.mul_lt_mul_of_pos_right h (Nat.pow_pos (by omega))
    omega
  unfold round53
  simp only
  generalize (n * 2 ^ e).log2 + 1 - 53 = k at *
  have hd : n * 2 ^ e = n * 2 ^ (e - k) * 2 ^ k := by
    rw [Nat.mul_assoc, ← Nat.pow_add]; congr 2; omega
  rw [hd, Nat.mul_mod_left, Nat.mul_div_cancel _ (Nat.pow_pos (by omega))]
  rw [if_neg]
  have := Nat.pow_pos (n := k) (show 0 < 2 by omega)
  omega

/-- Powers of ten as they are rounded. -/
def sc : Nat → Nat
  | 0 => 1
  | j + 1 => round53 (sc j * 10)

theorem chain_up (M x g q Q P : Nat) (h1 : P * M ≤ g * q * (M + 1)) (h2 : g * M ≤ x * (M + 1)) (h3 : q * M ≤ Q * (M + 1)) :
    P * (M * M * M) ≤ x * Q * ((M + 1) * (M + 1) * (M + 1)) := by
  calc P * (M * M * M) = P * M * (M * M) := by grind
    _ ≤ g * q * (M + 1) * (M * M) := Nat.mul_le_mul_right _ h1
    _ = (g * M) * (q * M) * (M + 1) := by grind
    _ ≤ (x * (M + 1)) * (Q * (M + 1)) * (M + 1) := Nat.mul_le_mul_right _ (Nat.mul_le_mul h2 h3)
    _ = _ := by grind

theorem chain_down (M L x g q Q P : Nat) (h1 : g * q * L ≤ P * M) (h2 : x * L ≤ g * M) (h3 : Q * L ≤ q * M) :
    x * Q * (L * L * L) ≤ P * (M * M * M) := by
  calc x * Q * (L * L * L) = (x * L) * (Q * L) * L := by grind
    _ ≤ (g * M) * (q * M) * L := Nat.mul_le_mul_right _ (Nat.mul_le_mul h2 h3)
    _ = g * q * L * (M * M) := by grind
    _ ≤ P * M * (M * M) := Nat.mul_le_mul_right _ h1
    _ = _ := by grind

/-- The quotient, before it is rounded. -/
def quo0 (F S : Nat) : Nat := 2 * (F * 2 ^ quoE S / S) + if F * 2 ^ quoE S % S = 0 then 0 else 1

theorem quo0_bounds (F S : Nat) (hS : 0 < S) : quo0 F S * S ≤ 2 * (F * 2 ^ quoE S) + S ∧ 2 * (F * 2 ^ quoE S) ≤ quo0 F S * S + S := by
  unfold quo0
  generalize F * 2 ^ quoE S = N
  have hd := Nat.div_add_mod N S
  have hm := Nat.mod_lt N hS
  generalize N % S = r at *
  generalize N / S = a at *
  by_cases h : r = 0
  · rw [if_pos h]
    subst h
    rw [Nat.add_zero, ← hd, Nat.mul_assoc, Nat.mul_comm a S]; omega
  · rw [if_neg h, Nat.add_mul, Nat.mul_assoc, Nat.mul_comm a S]; omega

theorem S_le (S : Nat) : S * 2 ^ 65 ≤ 2 ^ (quoE S + 1) := by
  have : S < 2 ^ (S.log2 + 1) := Nat.lt_log2_self
  unfold quoE
  rw [show 64 + (S.log2 + 1) + 1 = (S.log2 + 1) + 65 by omega, Nat.pow_add]
  exact Nat.mul_le_mul_right _ (by omega)

theorem lit_up : (2 ^ 53 + 1) * (2 ^ 53 + 1) * (2 ^ 53 + 1) * (2 ^ 65 + 1) * 2 ^ 51 ≤ 2 ^ 53 * 2 ^ 53 * 2 ^ 53 * 2 ^ 65 * (2 ^ 51 + 1) := by decide +kernel
theorem lit_down : 2 ^ 53 * 2 ^ 53 * 2 ^ 53 * 2 ^ 65 * (2 ^ 51 - 1) ≤ (2 ^ 53 - 1) * (2 ^ 53 - 1) * (2 ^ 53 - 1) * (2 ^ 65 - 1) * 2 ^ 51 := by decide +kernel

theorem up_aux {F S x y P Q0 E2 C C' B A : Nat} (hF : 1 ≤ F) (hx : P * C ≤ x * Q0 * C') (hq : Q0 * S ≤ F * E2 + S) (hS : S * A ≤ E2) (hy : y * E2 ≤ P)
    (hE : 0 < E2) (hC : 0 < C) (hA : 0 < A) (hlit : C' * (A + 1) * B ≤ C * A * (B + 1)) : y * S * B ≤ x * F * (B + 1) := by
  have h1 : Q0 * S * A ≤ F * E2 * (A + 1) := by
    calc Q0 * S * A ≤ (F * E2 + S) * A := Nat.mul_le_mul_right _ hq
      _ = F * E2 * A + S * A := by rw [Nat.add_mul]
      _ ≤ F * E2 * A + F * E2 := Nat.add_le_add_left (Nat.le_trans hS (Nat.le_mul_of_pos_left _ hF)) _
      _ = _ := by rw [Nat.mul_add, Nat.mul_one]
  have h2 : (y * S * B) * (E2 * C * A) ≤ (x * F * (B + 1)) * (E2 * C * A) := by
    calc (y * S * B) * (E2 * C * A) = (y * E2) * C * (S * B * A) := by grind
      _ ≤ P * C * (S * B * A) := Nat.mul_le_mul_right _ (Nat.mul_le_mul_right _ hy)
      _ ≤ x * Q0 * C' * (S * B * A) := Nat.mul_le_mul_right _ hx
      _ = (Q0 * S * A) * (x * C' * B) := by grind
      _ ≤ (F * E2 * (A + 1)) * (x * C' * B) := Nat.mul_le_mul_right _ h1
      _ = (C' * (A + 1) * B) * (F * E2 * x) := by grind
      _ ≤ (C * A * (B + 1)) * (F * E2 * x) := Nat.mul_le_mul_right _ hlit
      _ = _ := by grind
  exact Nat.le_of_mul_le_mul_right h2 (Nat.mul_pos (Nat.mul_pos hE hC) hA)

theorem down_aux {F S x y P Q0 E2 C C' B A : Nat} (hF : 1 ≤ F) (hx : x * Q0 * C' ≤ P * C) (hq : F * E2 ≤ Q0 * S + S) (hS : S * A ≤ E2) (hy : P ≤ (y + 1) * E2)
    (hE : 0 < E2) (hC : 0 < C) (hA : 0 < A) (hlit : C * A * (B - 1) ≤ C' * (A - 1) * B) : x * F * (B - 1) ≤ (y + 1) * S * B := by
  have h1 : F * E2 * (A - 1) ≤ Q0 * S * A := by
    have : F * E2 * A ≤ Q0 * S * A + F * E2 := by
      calc F * E2 * A ≤ (Q0 * S + S) * A := Nat.mul_le_mul_right _ hq
        _ = Q0 * S * A + S * A := by rw [Nat.add_mul]
        _ ≤ Q0 * S * A + F * E2 := Nat.add_le_add_left (Nat.le_trans hS (Nat.le_mul_of_pos_left _ hF)) _
    rw [Nat.mul_sub, Nat.mul_one]; omega
  have h2 : (x * F * (B - 1)) * (E2 * C * A) ≤ ((y + 1) * S * B) * (E2 * C * A) := by
    calc (x * F * (B - 1)) * (E2 * C * A) = (C * A * (B - 1)) * (F * E2 * x) := by grind
      _ ≤ (C' * (A - 1) * B) * (F * E2 * x) := Nat.mul_le_mul_right _ hlit
      _ = (F * E2 * (A - 1)) * (x * C' * B) := by grind
      _ ≤ (Q0 * S * A) * (x * C' * B) := Nat.mul_le_mul_right _ h1
      _ = x * Q0 * C' * (S * B * A) := by grind
      _ ≤ P * C * (S * B * A) := Nat.mul_le_mul_right _ hx
      _ ≤ ((y + 1) * E2) * C * (S * B * A) := Nat.mul_le_mul_right _ (Nat.mul_le_mul_right _ hy)
      _ = _ := by grind
  exact Nat.le_of_mul_le_mul_right h2 (Nat.mul_pos (Nat.mul_pos hE hC) hA)

theorem fracNs_bounds (x F S : Nat) (hF : 1 ≤ F) (hS : 0 < S) :
    fracNs x F S * S * 2 ^ 51 ≤ x * F * (2 ^ 51 + 1) ∧ x * F * (2 ^ 51 - 1) ≤ (fracNs x F S + 1) * S * 2 ^ 51 := by
  obtain ⟨b1, b2⟩ := quo0_bounds F S hS
  have hp : 0 < 2 ^ (quoE S + 1) := Nat.pow_pos (by omega)
  have hq : quoM F S = round53 (quo0 F S) := rfl
  obtain ⟨p1, p2⟩ := round_bounds (round53 x * quoM F S)
  obtain ⟨g1, g2⟩ := round_bounds x
  obtain ⟨q1, q2⟩ := round_bounds (quo0 F S)
  rw [← hq] at q1 q2
  have e2 : 2 * (F * 2 ^ quoE S) = F * 2 ^ (quoE S + 1) := by rw [Nat.pow_succ]; grind
  rw [e2] at b1 b2
  have hs := S_le S
  have y1 : fracNs x F S * 2 ^ (quoE S + 1) ≤ round53 (round53 x * quoM F S) := Nat.div_mul_le_self _ _
  have y2 : round53 (round53 x * quoM F S) ≤ (fracNs x F S + 1) * 2 ^ (quoE S + 1) := by
    unfold fracNs
    exact Nat.le_of_lt (Nat.lt_mul_of_div_lt (Nat.lt_succ_self _) hp)
  have up := chain_up _ _ _ _ _ _ p1 g1 q1
  have down := chain_down _ _ _ _ _ _ _ p2 g2 q2
  exact ⟨up_aux hF up b1 hs y1 hp (by decide +kernel) (by decide +kernel) lit_up,
    down_aux hF down b2 hs y2 hp (by decide +kernel) (by decide +kernel) lit_down⟩

theorem sc_exact : ∀ j, j ≤ 22 → sc j = 10 ^ j := by
  intro j hj
  have : ∀ j : Fin 23, sc j.val = 10 ^ j.val := by decide +kernel
  exact this ⟨j, by omega⟩

theorem sc_near : ∀ j, j < 40 → 10 ^ j * (2 ^ 45 - 1) ≤ sc j * 2 ^ 45 ∧ sc j * (2 ^ 45 - 1) ≤ 10 ^ j * 2 ^ 45 := by
  intro j hj
  have : ∀ j : Fin 40, 10 ^ j.val * (2 ^ 45 - 1) ≤ sc j.val * 2 ^ 45 ∧ sc j.val * (2 ^ 45 - 1) ≤ 10 ^ j.val * 2 ^ 45 := by decide +kernel
  exact this ⟨j, by omega⟩

theorem sc_grow (j : Nat) : sc j ≤ sc (j + 1) := by
  have h := (round_bounds (sc j * 10)).2
  change sc j ≤ round53 (sc j * 10)
  generalize round53 (sc j * 10) = r at *
  omega

theorem sc_far (i : Nat) : 10 ^ 38 ≤ sc (39 + i) := by
  induction i with
  | zero => decide +kernel
  | succ i ih => exact Nat.le_trans ih (sc_grow _)

theorem sc_pos (j : Nat) : 0 < sc j := by
  induction j with
  | zero => decide
  | succ j ih => exact Nat.lt_of_lt_of_le ih (sc_grow j)

/-- The nanoseconds of a fraction of `j` digits. -/
theorem frac_near (x F j : Nat) (hF : 1 ≤ F) (hF2 : F ≤ 3600000000000) (hx : x < 10 ^ j) (hx2 : x ≤ 2 ^ 63) :
    625 * (fracNs x F (sc j) * 10 ^ j) ≤ 625 * (x * F) + 10 ^ j ∧ 625 * (x * F) ≤ 625 * (fracNs x F (sc j) * 10 ^ j) + 626 * 10 ^ j := by
  obtain ⟨u, l⟩ := fracNs_bounds x F (sc j) hF (sc_pos j)
  rw [Nat.add_mul, Nat.one_mul] at l
  generalize hy : fracNs x F (sc j) = y at *
  have hb : x * F ≤ 2 ^ 63 * 3600000000000 := Nat.mul_le_mul hx2 hF2
  by_cases h1 : j ≤ 22
  · rw [sc_exact j h1] at u l
    have hb2 : x * F ≤ 10 ^ j * 3600000000000 := Nat.mul_le_mul (Nat.le_of_lt hx) hF2
    generalize 10 ^ j = T at *
    generalize x * F = b at *
    generalize y * T = a at *
    omega
  by_cases h2 : j < 40
  · obtain ⟨s1, s2⟩ := sc_near j h2
    have hT : 10 ^ 23 ≤ 10 ^ j := Nat.pow_le_pow_right (by omega) (by omega)
    generalize sc j = S at *
    generalize 10 ^ j = T at *
    have t1 : y * T * (2 ^ 45 - 1) ≤ y * S * 2 ^ 45 := by
      rw [Nat.mul_assoc, Nat.mul_assoc]; exact Nat.mul_le_mul_left _ s1
    have t2 : y * S * (2 ^ 45 - 1) ≤ y * T * 2 ^ 45 := by
      rw [Nat.mul_assoc, Nat.mul_assoc]; exact Nat.mul_le_mul_left _ s2
    generalize x * F = b at *
    generalize y * T = a at *
    generalize y * S = c at *
    omega
  · obtain ⟨i, rfl⟩ : ∃ i, j = 39 + (i + 1) := ⟨j - 40, by omega⟩
    have hS := sc_far (i + 1)
    have hT : 10 ^ 40 ≤ 10 ^ (39 + (i + 1)) := Nat.pow_le_pow_right (by omega) (by omega)
    have y0 : y = 0 := by
      apply Decidable.byContradiction
      intro hne
      have : sc (39 + (i + 1)) ≤ y * sc (39 + (i + 1)) := Nat.le_mul_of_pos_left _ (by omega)
      omega
    subst y0
    omega

/-- Fractions of whole nanoseconds. -/
theorem frac_exact (x F k : Nat) (hF2 : 1 ≤ F ∧ F ≤ 3600000000000) (hx : x < 10 ^ k) (hd : 10 ^ k ∣ F) : fracNs x F (sc k) * 10 ^ k = x * F := by
  obtain ⟨c, hc⟩ := hd
  have hk : k ≤ 22 := by
    apply Decidable.byContradiction
    intro h
    have := Nat.le_of_dvd (show 0 < F by omega) ⟨c, hc⟩
    have : 10 ^ 23 ≤ 10 ^ k := Nat.pow_le_pow_right (by omega) (by omega)
    omega
  have hT : 0 < 10 ^ k := Nat.pow_pos (by omega)
  rw [sc_exact k hk]
  generalize 10 ^ k = T at *
  have c0 : 0 < c := by
    rcases Nat.eq_zero_or_pos c with h | h
    · subst h; omega
    · exact h
  have hxc : x * c < 2 ^ 53 := by
    have : x * c ≤ T * c := Nat.mul_le_mul_right _ (by omega)
    omega
  have hc1 : c < 2 ^ 53 := by
    have : c ≤ T * c := Nat.le_mul_of_pos_left _ hT
    omega
  have hx1 : x < 2 ^ 53 := by
    have : x ≤ x * c := Nat.le_mul_of_pos_right _ c0
    omega
  unfold fracNs
  have hq : quoM F T = c * 2 ^ (quoE T + 1) := by
    unfold quoM
    simp only
    have e : F * 2 ^ quoE T = T * (c * 2 ^ quoE T) := by rw [hc, Nat.mul_assoc]
    rw [e, Nat.mul_mod_right, if_pos rfl, Nat.mul_div_cancel_left _ hT, Nat.add_zero]
    have e2 : 2 * (c * 2 ^ quoE T) = c * 2 ^ (quoE T + 1) := by rw [Nat.pow_succ]; grind
    rw [e2, round_shift hc1]
  rw [hq, round_small hx1, ← Nat.mul_assoc, round_shift hxc, Nat.mul_div_cancel _ (Nat.pow_pos (by omega)), hc]
  grind

/-! ## Digits -/

theorem dv_cons_acc (x : Nat) (c : UInt8) (s : Bytes) (k : Nat) (hk : k = s.length) :
    x * 10 ^ (k + 1) + digitsValue (c :: s) = (x * 10 + (c.toNat - 48)) * 10 ^ k + digitsValue s := by
  subst hk
  have := dv_append [c] s
  simp only [List.cons_append, List.nil_append] at this
  rw [this, Nat.pow_succ]
  simp only [digitsValue, List.foldl_cons, List.foldl_nil]
  grind

theorem dv_lt (s : Bytes) (h : ∀ b ∈ s, isDig b = true) : digitsValue s < 10 ^ s.length := by
  induction s with
  | nil => simp [digitsValue]
  | cons c s ih =>
    have := dv_cons_acc 0 c s _ rfl
    rw [Nat.zero_mul, Nat.zero_add, Nat.zero_mul, Nat.zero_add] at this
    rw [this, List.length_cons, Nat.pow_succ]
    have h1 := ih fun b hb => h b (by simp [hb])
    have h2 := h c (by simp)
    simp only [isDig, Bool.and_eq_true, decide_eq_true_eq] at h2
    have h3 : (c.toNat - 48) * 10 ^ s.length ≤ 9 * 10 ^ s.length := Nat.mul_le_mul_right _ (by omega)
    omega

/-- Text that a number does not continue with. -/
def NoDigit (t : Bytes) : Prop := ∀ b, t.head? = some b → isDig b = false

theorem leadingInt_none (x : Nat) (w t : Bytes) (hw : ∀ b ∈ w, isDig b = true) (h : 2 ^ 63 < x * 10 ^ w.length + digitsValue w) (hx : x ≤ 2 ^ 63) :
    leadingInt x (w ++ t) = none := by
  induction w generalizing x with
  | nil => simp [digitsValue] at h; omega
  | cons c w ih =>
    rw [List.cons_append, leadingInt, digitC_eq, if_pos (hw c (by simp))]
    by_cases h1 : 2 ^ 63 / 10 < x
    · rw [if_pos h1]
    rw [if_neg h1]
    by_cases h2 : 2 ^ 63 < x * 10 + (c.toNat - 48)
    · rw [if_pos h2]
    rw [if_neg h2]
    refine ih _ (fun b hb => hw b (by simp [hb])) ?_ (by omega)
    rw [List.length_cons, dv_cons_acc x c w _ rfl] at h
    exact h

theorem leadingInt_some (x : Nat) (w t : Bytes) (hw : ∀ b ∈ w, isDig b = true) (ht : NoDigit t) (h : x * 10 ^ w.length + digitsValue w ≤ 2 ^ 63) :
    leadingInt x (w ++ t) = some (x * 10 ^ w.length + digitsValue w, t) := by
  induction w generalizing x with
  | nil =>
    simp only [List.nil_append, List.length_nil, Nat.pow_zero, Nat.mul_one, digitsValue, List.foldl_nil, Nat.add_zero]
    cases t with
    | nil => rfl
    | cons b t => rw [leadingInt, digitC_eq, ht b rfl]; rfl
  | cons c w ih =>
    rw [List.cons_append, leadingInt, digitC_eq, if_pos (hw c (by simp))]
    rw [List.length_cons, dv_cons_acc x c w _ rfl] at h ⊢
    have hp : 0 < 10 ^ w.length := Nat.pow_pos (by omega)
    have h0 : x * 10 + (c.toNat - 48) ≤ (x * 10 + (c.toNat - 48)) * 10 ^ w.length := Nat.le_mul_of_pos_right _ hp
    rw [if_neg (by omega), if_neg (by omega)]
    exact ih _ (fun b hb => hw b (by simp [hb])) h

theorem leadingFraction_over (x S : Nat) (w t : Bytes) (hw : ∀ b ∈ w, isDig b = true) (ht : NoDigit t) : leadingFraction x S true (w ++ t) = (x, S, t) := by
  induction w with
  | nil =>
    cases t with
    | nil => rfl
    | cons b t => rw [List.nil_append, leadingFraction, digitC_eq, ht b rfl]; rfl
  | cons c w ih =>
    rw [List.cons_append, leadingFraction, digitC_eq, if_pos (hw c (by simp)), if_pos rfl]
    exact ih fun b hb => hw b (by simp [hb])

/-- What is read of the digits after the point: the first ones, all of them if they fit. -/
theorem leadingFraction_spec (x j : Nat) (w : Bytes) (hw : ∀ b ∈ w, isDig b = true) (hx : x ≤ 2 ^ 63) :
    ∃ a b, w = a ++ b ∧ x * 10 ^ a.length + digitsValue a ≤ 2 ^ 63 ∧ (b = [] ∨ 2 ^ 63 < (x * 10 ^ a.length + digitsValue a) * 10 + 9) ∧
      ∀ t, NoDigit t → leadingFraction x (sc j) false (w ++ t) = (x * 10 ^ a.length + digitsValue a, sc (j + a.length), t) := by
  induction w generalizing x j with
  | nil =>
    refine ⟨[], [], rfl, by simpa [digitsValue] using hx, Or.inl rfl, fun t ht => ?_⟩
    simp only [List.nil_append, List.length_nil, Nat.pow_zero, Nat.mul_one, digitsValue, List.foldl_nil, Nat.add_zero]
    cases t with
    | nil => rfl
    | cons b t => rw [leadingFraction, digitC_eq, ht b rfl]; rfl
  | cons c w ih =>
    have hc := hw c (by simp)
    have hw' : ∀ b ∈ w, isDig b = true := fun b hb => hw b (by simp [hb])
    have hc' := hc
    simp only [isDig, Bool.and_eq_true, decide_eq_true_eq] at hc'
    by_cases h1 : (2 ^ 63 - 1) / 10 < x
    · refine ⟨[], c :: w, rfl, by simpa [digitsValue] using hx, Or.inr (by simp [digitsValue]; omega), fun t ht => ?_⟩
      rw [List.cons_append, leadingFraction, digitC_eq, if_pos hc, if_neg (by simp), if_pos h1, leadingFraction_over _ _ _ _ hw' ht]
      simp [digitsValue]
    by_cases h2 : 2 ^ 63 < x * 10 + (c.toNat - 48)
    · refine ⟨[], c :: w, rfl, by simpa [digitsValue] using hx, Or.inr (by simp [digitsValue]; omega), fun t ht => ?_⟩
      rw [List.cons_append, leadingFraction, digitC_eq, if_pos hc, if_neg (by simp), if_neg h1, if_pos h2, leadingFraction_over _ _ _ _ hw' ht]
      simp [digitsValue]
    · obtain ⟨a, b, e, h3, h4, h5⟩ := ih (x * 10 + (c.toNat - 48)) (j + 1) hw' (by omega)
      rw [← dv_cons_acc x c a _ rfl] at h3 h4
      refine ⟨c :: a, b, by rw [e]; rfl, by simpa using h3, by simpa using h4, fun t ht => ?_⟩
      rw [List.cons_append, leadingFraction, digitC_eq, if_pos hc, if_neg (by simp), if_neg h1, if_neg h2]
      have := h5 t ht
      rw [← dv_cons_acc x c a _ rfl] at this
      rw [List.length_cons, show j + (a.length + 1) = j + 1 + a.length by omega]
      exact this

/-! ## Units -/

theorem unitMap_eq (u : Bytes) : unitMap u = writtenNs u := by
  have e1 : ascii "us" = [117, 115] := rfl
  have e2 : [206, 188] ++ ascii "s" = [206, 188, 115] := rfl
  have e3 : ascii "ns" = [110, 115] := rfl
  have e4 : [194, 181] ++ ascii "s" = [194, 181, 115] := rfl
  have e5 : ascii "ms" = [109, 115] := rfl
  have e6 : ascii "s" = [115] := rfl
  have e7 : ascii "m" = [109] := rfl
  have e8 : ascii "h" = [104] := rfl
  unfold unitMap writtenNs unitNs
  rw [e1, e2, e3, e4, e5, e6, e7, e8]
  by_cases h1 : u = [117, 115]
  · subst h1; decide
  by_cases h2 : u = [206, 188, 115]
  · subst h2; decide
  simp only [h1, h2, if_false, false_or]

theorem unit_cases {u : Bytes} {F : Nat} (h : writtenNs u = some F) : (1 ≤ F ∧ F ≤ 3600000000000) ∧ u ≠ [] ∧ ∀ c ∈ u, (!(c == 46 || digitC c)) = true := by
  rw [← unitMap_eq] at h
  unfold unitMap at h
  split at h
  · rename_i e; subst e; cases h; decide
  split at h
  · rename_i e; subst e; cases h; decide
  split at h
  · rename_i e; subst e; cases h; decide
  split at h
  · rename_i e; subst e; cases h; decide
  split at h
  · rename_i e; subst e; cases h; decide
  split at h
  · rename_i e; subst e; cases h; decide
  split at h
  · rename_i e; subst e; cases h; decide
  split at h
  · rename_i e; subst e; cases h; decide
  cases h

/-! ## Pieces -/

/-- The nanoseconds of the digits after the point. -/
def fracOf (D : Bytes) (F : Nat) : Nat := fracNs (leadingFraction 0 1 false D).1 F (leadingFraction 0 1 false D).2.1

def pieceNs (p : Piece) (F : Nat) : Nat := digitsValue p.whole * F + fracOf p.digits F

theorem noDigit_nil : NoDigit [] := nofun

theorem fracOf_spec (D : Bytes) (F : Nat) (hD : ∀ b ∈ D, isDig b = true) (hF : 1 ≤ F ∧ F ≤ 3600000000000) :
    (10 ^ D.length ∣ F → fracOf D F * 10 ^ D.length = digitsValue D * F) ∧
    100 * (fracOf D F * 10 ^ D.length) ≤ 100 * (digitsValue D * F) + 10 ^ D.length ∧
    100 * (digitsValue D * F) ≤ 100 * (fracOf D F * 10 ^ D.length) + 101 * 10 ^ D.length := by
  obtain ⟨a, b, e, h1, h2, h3⟩ := leadingFraction_spec 0 0 D hD (by omega)
  have h3 := h3 [] noDigit_nil
  rw [List.append_nil] at h3
  rw [Nat.zero_mul, Nat.zero_add] at h1 h2 h3
  rw [Nat.zero_add] at h3
  change leadingFraction 0 1 false D = _ at h3
  unfold fracOf
  rw [h3]
  simp only
  have ha : ∀ c ∈ a, isDig c = true := fun c hc => hD c (by rw [e]; simp [hc])
  have hb : ∀ c ∈ b, isDig c = true := fun c hc => hD c (by rw [e]; simp [hc])
  have la := dv_lt a ha
  have lb := dv_lt b hb
  obtain ⟨n1, n2⟩ := frac_near (digitsValue a) F a.length hF.1 hF.2 la h1
  have hdv : digitsValue D = digitsValue a * 10 ^ b.length + digitsValue b := by rw [e, dv_append]
  have hlen : (10 : Nat) ^ D.length = 10 ^ a.length * 10 ^ b.length := by rw [e, List.length_append, Nat.pow_add]
  refine ⟨fun hd => ?_, ?_⟩
  · rcases h2 with h2 | h2
    · subst h2
      rw [List.append_nil] at e
      subst e
      exact frac_exact _ F _ hF la hd
    · exfalso
      have : 10 ^ D.length ≤ F := Nat.le_of_dvd (by omega) hd
      have h10 : 10 ^ a.length ≤ 10 ^ D.length := by rw [hlen]; exact Nat.le_mul_of_pos_right _ (Nat.pow_pos (by omega))
      omega
  · rw [hdv, hlen]
    have hm : 0 < 10 ^ b.length := Nat.pow_pos (by omega)
    generalize fracNs (digitsValue a) F (sc a.length) = y at *
    generalize hT : 10 ^ a.length = T at *
    have big : b = [] ∨ 10 ^ 17 ≤ T := by
      rcases h2 with h2 | h2
      · exact Or.inl h2
      · right; omega
    generalize 10 ^ b.length = M at *
    have hbF : digitsValue b * F = 0 ∨ (10 ^ 17 ≤ T ∧ digitsValue b * F ≤ M * 3600000000000) := by
      rcases big with h | h
      · left; subst h; simp [digitsValue]
      · exact Or.inr ⟨h, Nat.mul_le_mul (by omega) hF.2⟩
    have hbF2 : 625 * (digitsValue b * F) ≤ T * M := by
      rcases hbF with h | ⟨h, h'⟩
      · rw [h]; exact Nat.zero_le _
      · have : 10 ^ 17 * M ≤ T * M := Nat.mul_le_mul_right _ h
        omega
    have m1 := Nat.mul_le_mul_right M n1
    have m2 := Nat.mul_le_mul_right M n2
    have r1 : 625 * (y * T) * M = 625 * (y * (T * M)) := by grind
    have r2 : (625 * (digitsValue a * F) + T) * M = 625 * (digitsValue a * M * F) + T * M := by grind
    have r3 : 625 * (digitsValue a * F) * M = 625 * (digitsValue a * M * F) := by grind
    have r4 : (625 * (y * T) + 626 * T) * M = 625 * (y * (T * M)) + 626 * (T * M) := by grind
    rw [r1, r2] at m1
    rw [r3, r4] at m2
    rw [Nat.add_mul]
    generalize digitsValue a * M * F = A at *
    generalize digitsValue b * F = B at *
    generalize y * (T * M) = Y at *
    generalize T * M = TM at *
    omega

theorem worth_of (p : Piece) (F : Nat) (h : p.Ok F) : Worth p (pieceNs p F) := by
  obtain ⟨hF, _, _⟩ := unit_cases h.unit
  obtain ⟨f1, f2, f3⟩ := fracOf_spec p.digits F h.frac hF
  have hu : ∀ G, writtenNs p.unit = some G → G = F := fun G hG => Option.some.inj (hG.symm.trans h.unit)
  have e1 : digitsValue (p.whole ++ p.digits) * F = digitsValue p.whole * F * 10 ^ p.digits.length + digitsValue p.digits * F := by
    rw [dv_append]; grind
  have e2 : ∀ n, (digitsValue p.whole * F + n) * 10 ^ p.digits.length = digitsValue p.whole * F * 10 ^ p.digits.length + n * 10 ^ p.digits.length := fun n => Nat.add_mul _ _ _
  refine ⟨fun G hG hd => ?_, fun G hG => ?_, fun G hG => ?_⟩
  · have := hu G hG; subst this
    rw [pieceNs, e1, e2, f1 hd]
  · have := hu G hG; subst this
    rw [pieceNs, e1, Nat.mul_assoc, e2]
    omega
  · have := hu G hG; subst this
    rw [pieceNs, e1, Nat.add_mul, Nat.mul_assoc 100 (_ + _), e2]
    omega

/-- Text that a number starts, or no text. -/
def Start (t : Bytes) : Prop := ∀ b, t.head? = some b → (b == 46 || digitC b) = true

theorem unit_noDigit {u r : Bytes} (h0 : u ≠ []) (h : ∀ c ∈ u, (!(c == 46 || digitC c)) = true) : NoDigit (u ++ r) := by
  cases u with
  | nil => exact absurd rfl h0
  | cons c u =>
    intro b hb
    cases hb
    have := h c (by simp)
    rw [← digitC_eq]
    cases hd : digitC c with
    | false => rfl
    | true => simp [hd] at this

theorem fraction_text (p : Piece) (F : Nat) (h : p.Ok F) (r : Bytes) :
    let t := pointed p.frac ++ (p.unit ++ r)
    fraction t = ((leadingFraction 0 1 false p.digits).1, (leadingFraction 0 1 false p.digits).2.1, p.unit ++ r, !p.digits.isEmpty) ∧ NoDigit t := by
  obtain ⟨_, hu0, hu⟩ := unit_cases h.unit
  have hn : NoDigit (p.unit ++ r) := unit_noDigit hu0 hu
  intro t
  cases hf : p.frac with
  | none =>
    have ht : t = p.unit ++ r := by simp only [t, hf, pointed, List.nil_append]
    have hd : p.digits = [] := by simp [Piece.digits, hf]
    rw [ht, hd]
    refine ⟨?_, hn⟩
    cases hp : p.unit with
    | nil => exact absurd hp hu0
    | cons c u =>
      have hc : c ≠ 46 := by
        intro e; have := hu c (by rw [hp]; simp); simp [e] at this
      simp only [List.cons_append, fraction, if_neg hc, leadingFraction, List.isEmpty_nil, Bool.not_true]
  | some f =>
    have ht : t = 46 :: (f ++ (p.unit ++ r)) := by simp only [t, hf, pointed]; rfl
    have hd : p.digits = f := by simp [Piece.digits, hf]
    rw [ht, hd]
    refine ⟨?_, fun b hb => by cases hb; decide⟩
    obtain ⟨a, b, e, h1, h2, h3⟩ := leadingFraction_spec 0 0 f (by rw [← hd]; exact h.frac) (by omega)
    have l1 := h3 (p.unit ++ r) hn
    have l2 := h3 [] noDigit_nil
    rw [List.append_nil] at l2
    change leadingFraction 0 1 false _ = _ at l1 l2
    simp only [fraction, if_true, l1, l2, Prod.mk.injEq, true_and]
    cases f with
    | nil => simp
    | cons c f => simp; omega

theorem valued_eq (v f S F : Nat) (hF : 1 ≤ F) : valued v f S F = if v * F + fracNs f F S ≤ 2 ^ 63 then some (v * F + fracNs f F S) else none := by
  have h0 : fracNs 0 F S = 0 := by
    unfold fracNs
    have : round53 0 = 0 := round_small (by omega)
    rw [this, Nat.zero_mul, this, Nat.zero_div]
  unfold valued
  have hdiv : 2 ^ 63 / F < v ↔ 2 ^ 63 < v * F := Nat.div_lt_iff_lt_mul hF
  by_cases h1 : 2 ^ 63 < v * F
  · rw [if_pos (hdiv.2 h1), if_neg (by omega)]
  · rw [if_neg (fun h => h1 (hdiv.1 h))]
    simp only
    by_cases hf : 0 < f
    · rw [if_pos hf]
      by_cases h2 : v * F + fracNs f F S ≤ 2 ^ 63
      · rw [if_pos h2, if_neg (by omega)]
      · rw [if_neg h2, if_pos (by omega)]
    · rw [if_neg hf, show f = 0 by omega, h0, if_pos (by omega)]; rfl

theorem united_eq (v f S F : Nat) (u r : Bytes) (h : writtenNs u = some F) (hr : Start r) :
    united v f S (u ++ r) = if v * F + fracNs f F S ≤ 2 ^ 63 then some (v * F + fracNs f F S, r) else none := by
  obtain ⟨hF, hu0, hu⟩ := unit_cases h
  obtain ⟨t1, t2⟩ := takeWhile_app (p := fun c => !(c == 46 || digitC c)) (a := u) (r := r) hu (fun b hb => by simp only [hr b hb]; rfl)
  unfold united
  simp only [t1, t2, if_neg hu0, unitMap_eq, h]
  rw [valued_eq _ _ _ _ hF.1]
  by_cases hle : v * F + fracNs f F S ≤ 2 ^ 63
  · rw [if_pos hle, if_pos hle]; rfl
  · rw [if_neg hle, if_neg hle]; rfl

theorem text_eq (p : Piece) (r : Bytes) : p.text ++ r = p.whole ++ (pointed p.frac ++ (p.unit ++ r)) := by
  unfold Piece.text; simp only [List.append_assoc]

theorem text_start (p : Piece) (F : Nat) (h : p.Ok F) (r : Bytes) : ∃ c s, p.text ++ r = c :: s ∧ (c == 46 || digitC c) = true := by
  rw [text_eq]
  cases hw : p.whole with
  | cons c w =>
    refine ⟨c, _, rfl, ?_⟩
    rw [digitC_eq, h.whole c (by rw [hw]; simp)]; simp
  | nil =>
    cases hf : p.frac with
    | none =>
      rcases h.any with h | h
      · exact absurd hw h
      · simp [Piece.digits, hf] at h
    | some f => exact ⟨46, _, rfl, rfl⟩

theorem one_text (p : Piece) (F : Nat) (h : p.Ok F) (r : Bytes) (hr : Start r) :
    one (p.text ++ r) = if pieceNs p F ≤ 2 ^ 63 then some (pieceNs p F, r) else none := by
  obtain ⟨hF, hu0, hu⟩ := unit_cases h.unit
  obtain ⟨c, s, e, hc⟩ := text_start p F h r
  obtain ⟨f1, f2⟩ := fraction_text p F h r
  have hone : one (p.text ++ r) = match leadingInt 0 (p.text ++ r) with
      | none => none
      | some (v, t) => if t.length == (p.text ++ r).length && !(fraction t).2.2.2 then none else united v (fraction t).1 (fraction t).2.1 (fraction t).2.2.1 := by
    rw [e]; simp only [one, hc, if_true]
    cases leadingInt 0 (c :: s) <;> rfl
  rw [hone, text_eq]
  generalize pointed p.frac ++ (p.unit ++ r) = t at *
  by_cases hbig : digitsValue p.whole ≤ 2 ^ 63
  · rw [leadingInt_some 0 _ _ h.whole f2 (by simpa using hbig)]
    simp only [Nat.zero_mul, Nat.zero_add]
    rw [if_neg]
    · rw [f1]
      simp only
      rw [united_eq _ _ _ F _ _ h.unit hr]
      rfl
    · rw [f1]
      simp only [Bool.not_not, Bool.and_eq_true, beq_iff_eq, List.length_append, List.isEmpty_iff]
      rintro ⟨h1, h2⟩
      rcases h.any with h | h
      · apply h; apply List.length_eq_zero_iff.1; omega
      · exact h h2
  · rw [leadingInt_none 0 _ _ h.whole (by simpa using Nat.lt_of_not_le hbig) (by omega)]
    rw [if_neg]
    unfold pieceNs
    have : digitsValue p.whole ≤ digitsValue p.whole * F := Nat.le_mul_of_pos_right _ hF.1
    omega

theorem split_while (q : UInt8 → Bool) (s : Bytes) : ∃ a b, s = a ++ b ∧ (∀ c ∈ a, q c = true) ∧ (∀ c, b.head? = some c → q c = false) := by
  induction s with
  | nil => exact ⟨[], [], rfl, nofun, nofun⟩
  | cons c s ih =>
    cases hq : q c with
    | false => exact ⟨[], c :: s, rfl, nofun, fun d hd => by cases hd; exact hq⟩
    | true =>
      obtain ⟨a, b, e, h1, h2⟩ := ih
      refine ⟨c :: a, b, by rw [e]; rfl, fun d hd => ?_, h2⟩
      rcases List.mem_cons.1 hd with rfl | hd
      · exact hq
      · exact h1 d hd

theorem united_inv {v f S : Nat} {s : Bytes} {x : Nat × Bytes} (h : united v f S s = some x) :
    ∃ u r F, s = u ++ r ∧ writtenNs u = some F ∧ Start r ∧ x.2 = r := by
  obtain ⟨u, r, e, h1, h2⟩ := split_while (fun c => !(c == 46 || digitC c)) s
  obtain ⟨t1, t2⟩ := takeWhile_app h1 h2
  subst e
  unfold united at h
  simp only [t1, t2] at h
  split at h
  · cases h
  split at h
  · cases h
  · rename_i F hF
    rw [unitMap_eq] at hF
    refine ⟨u, r, F, rfl, hF, fun b hb => (Bool.not_eq_false' (b := b == 46 || digitC b)).mp (h2 b hb), ?_⟩
    cases hv : valued v f S F with
    | none => rw [hv] at h; cases h
    | some y => rw [hv] at h; cases h; rfl

theorem one_inv {s : Bytes} {x : Nat × Bytes} (h : one s = some x) : ∃ (p : Piece) (F : Nat), p.Ok F ∧ s = p.text ++ x.2 ∧ Start x.2 := by
  obtain ⟨w, t, e, hw, ht⟩ := split_while isDig s
  have hone : ∃ v, (if t.length == s.length && !(fraction t).2.2.2 then none else united v (fraction t).1 (fraction t).2.1 (fraction t).2.2.1) = some x := by
    cases s with
    | nil => cases h
    | cons c s =>
      simp only [one] at h
      split at h
      · by_cases hbig : digitsValue w ≤ 2 ^ 63
        · rw [e, leadingInt_some 0 _ _ hw ht (by simpa using hbig)] at h
          rw [← e] at h
          exact ⟨_, h⟩
        · rw [e, leadingInt_none 0 _ _ hw (by simpa using Nat.lt_of_not_le hbig) (by omega)] at h
          cases h
      · cases h
  obtain ⟨v, hone⟩ := hone
  split at hone
  · cases hone
  rename_i hany
  obtain ⟨u, r, F, e2, hu, hr, hx⟩ := united_inv hone
  have plain : fraction t = (0, 1, t, false) → ∃ (p : Piece) (F : Nat), p.Ok F ∧ s = p.text ++ x.2 ∧ Start x.2 := by
    intro hf
    rw [hf] at e2 hany
    refine ⟨⟨w, none, u⟩, F, ⟨hw, nofun, Or.inl ?_, hu⟩, ?_, by rw [hx]; exact hr⟩
    · rintro rfl
      apply hany
      simp at e
      simp [e]
    · rw [e, hx, text_eq]; simp only [pointed, List.nil_append]; exact congrArg (w ++ ·) e2
  cases t with
  | nil => exact plain rfl
  | cons c t =>
    by_cases hc : c = 46
    · subst hc
      obtain ⟨f, t2, e3, hf, ht2⟩ := split_while isDig t
      obtain ⟨a, b, _, _, _, h3⟩ := leadingFraction_spec 0 0 f hf (by omega)
      have h3 := h3 t2 ht2
      change leadingFraction 0 1 false _ = _ at h3
      rw [← e3] at h3
      simp only [fraction, if_true, h3] at e2 hany
      refine ⟨⟨w, some f, u⟩, F, ⟨hw, hf, ?_, hu⟩, ?_, by rw [hx]; exact hr⟩
      · apply Decidable.byContradiction
        intro hn
        have hw0 : w = [] := Decidable.byContradiction fun h => hn (Or.inl h)
        have hf0 : f = [] := Decidable.byContradiction fun h => hn (Or.inr h)
        apply hany
        subst hw0; subst hf0
        simp at e e3
        simp [e, e3]
      · rw [e, hx, text_eq]
        simp only [pointed]
        rw [← e2, List.append_assoc, ← e3]
        rfl
    · exact plain (by simp only [fraction, if_neg hc])

/-! ## Sums -/

/-- Adding up, with the limits on the way. -/
def addUp : Nat → List Nat → Option Nat
  | d, [] => some d
  | d, x :: xs => if 2 ^ 63 < x then none else if 2 ^ 63 < (d + x) % 2 ^ 64 then none else addUp ((d + x) % 2 ^ 64) xs

/-- The nanoseconds of a unit. -/
def Piece.ns (p : Piece) : Nat := pieceNs p ((writtenNs p.unit).getD 0)

theorem ns_ok {p : Piece} {F : Nat} (h : p.Ok F) : p.ns = pieceNs p F := by unfold Piece.ns; rw [h.unit]; rfl

theorem texts_start (ps : List Piece) (h : ∀ p ∈ ps, ∃ F, p.Ok F) : Start (ps.map Piece.text).flatten := by
  cases ps with
  | nil => exact nofun
  | cons p ps =>
    obtain ⟨F, hF⟩ := h p (by simp)
    obtain ⟨c, s, e, hc⟩ := text_start p F hF (ps.map Piece.text).flatten
    intro b hb
    rw [List.map_cons, List.flatten_cons, e] at hb
    cases hb; exact hc

theorem loop_texts (ps : List Piece) (h : ∀ p ∈ ps, ∃ F, p.Ok F) (fuel d : Nat) (hfuel : (ps.map Piece.text).flatten.length ≤ fuel) :
    loop fuel d (ps.map Piece.text).flatten = addUp d (ps.map Piece.ns) := by
  induction ps generalizing fuel d with
  | nil => cases fuel <;> rfl
  | cons p ps ih =>
    obtain ⟨F, hF⟩ := h p (by simp)
    have hst := texts_start ps fun q hq => h q (by simp [hq])
    obtain ⟨c, s, e, hc⟩ := text_start p F hF (ps.map Piece.text).flatten
    have ho := one_text p F hF _ hst
    rw [List.map_cons, List.flatten_cons] at hfuel ⊢
    have hpos : 0 < p.text.length := by
      obtain ⟨c, s, e, _⟩ := text_start p F hF []
      rw [List.append_nil] at e
      rw [e]; simp
    rw [List.length_append] at hfuel
    obtain ⟨fuel, rfl⟩ : ∃ k, fuel = k + 1 := ⟨fuel - 1, by omega⟩
    rw [e] at ho
    rw [e, loop, ho, List.map_cons, addUp, ns_ok hF]
    by_cases hle : pieceNs p F ≤ 2 ^ 63
    · rw [if_pos hle, if_neg (by omega)]
      simp only
      split
      · rfl
      · exact ih (fun q hq => h q (by simp [hq])) _ _ (by omega)
    · rw [if_neg hle, if_pos (by omega)]

theorem loop_inv (fuel d : Nat) (s : Bytes) (d' : Nat) (h : loop fuel d s = some d') : ∃ ps : List Piece, (∀ p ∈ ps, ∃ F, p.Ok F) ∧ s = (ps.map Piece.text).flatten := by
  induction fuel generalizing d s with
  | zero =>
    cases s with
    | nil => exact ⟨[], nofun, rfl⟩
    | cons c s => cases h
  | succ fuel ih =>
    cases s with
    | nil => exact ⟨[], nofun, rfl⟩
    | cons c s =>
      rw [loop] at h
      cases ho : one (c :: s) with
      | none => rw [ho] at h; cases h
      | some x =>
        obtain ⟨p, F, hp, e, _⟩ := one_inv ho
        obtain ⟨v, r⟩ := x
        rw [ho] at h
        simp only at h e
        split at h
        · cases h
        · obtain ⟨ps, h1, h2⟩ := ih _ _ h
          refine ⟨p :: ps, fun q hq => ?_, by rw [e, h2]; rfl⟩
          rcases List.mem_cons.1 hq with rfl | hq
          · exact ⟨F, hp⟩
          · exact h1 q hq

theorem addUp_some (d : Nat) (xs : List Nat) (d' : Nat) (hd : d ≤ 2 ^ 63) (h : addUp d xs = some d') :
    d' ≤ 2 ^ 63 ∧ (∀ x ∈ xs, x ≤ 2 ^ 63) ∧ ∃ k, d + xs.sum = d' + k * 2 ^ 64 := by
  induction xs generalizing d with
  | nil => cases h; exact ⟨hd, nofun, 0, by simp⟩
  | cons x xs ih =>
    rw [addUp] at h
    split at h
    · cases h
    split at h
    · cases h
    obtain ⟨h1, h2, k, h3⟩ := ih _ (by omega) h
    refine ⟨h1, fun y hy => ?_, ?_⟩
    · rcases List.mem_cons.1 hy with rfl | hy
      · omega
      · exact h2 y hy
    · refine ⟨k + (d + x) / 2 ^ 64, ?_⟩
      rw [List.sum_cons, Nat.add_mul]
      omega

theorem addUp_eq (d : Nat) (xs : List Nat) (hd : d ≤ 2 ^ 63) (h : ∀ x ∈ xs, x < 2 ^ 63) :
    addUp d xs = if d + xs.sum ≤ 2 ^ 63 then some (d + xs.sum) else none := by
  induction xs generalizing d with
  | nil => rw [addUp]; simp [hd]
  | cons x xs ih =>
    have hx := h x (by simp)
    have e : (d + x) % 2 ^ 64 = d + x := by omega
    rw [addUp, if_neg (by omega), e, List.sum_cons]
    by_cases h1 : 2 ^ 63 < d + x
    · rw [if_pos h1, if_neg (by omega)]
    · rw [if_neg h1, ih _ (by omega) (fun y hy => h y (by simp [hy])), ← Nat.add_assoc]

theorem addUp_none (d : Nat) (xs : List Nat) (h : ∃ x ∈ xs, 2 ^ 63 < x) : addUp d xs = none := by
  induction xs generalizing d with
  | nil => obtain ⟨_, h, _⟩ := h; cases h
  | cons x xs ih =>
    rw [addUp]
    split
    · rfl
    split
    · rfl
    · obtain ⟨y, hy, h⟩ := h
      rcases List.mem_cons.1 hy with rfl | hy
      · omega
      · exact ih _ ⟨y, hy, h⟩

theorem texts_ne {ps : List Piece} (h0 : ps ≠ []) (h : ∀ p ∈ ps, ∃ F, p.Ok F) :
    (ps.map Piece.text).flatten ≠ [] ∧ (ps.map Piece.text).flatten ≠ [48] ∧ ∀ c, (ps.map Piece.text).flatten.head? = some c → c ≠ 45 ∧ c ≠ 43 := by
  cases ps with
  | nil => exact absurd rfl h0
  | cons p ps =>
    obtain ⟨F, hF⟩ := h p (by simp)
    obtain ⟨_, hu0, hu⟩ := unit_cases hF.unit
    obtain ⟨c, s, e, hc⟩ := text_start p F hF (ps.map Piece.text).flatten
    rw [List.map_cons, List.flatten_cons]
    refine ⟨by rw [e]; simp, fun h48 => ?_, fun b hb => ?_⟩
    · obtain ⟨x, hx⟩ := List.exists_mem_of_ne_nil _ hu0
      have : x ∈ p.text ++ (ps.map Piece.text).flatten := by rw [text_eq]; simp [hx]
      rw [h48] at this
      simp at this
      subst this
      exact absurd (hu _ hx) (by decide)
    · rw [e] at hb; cases hb
      constructor
      · rintro rfl; revert hc; decide
      · rintro rfl; revert hc; decide

theorem parse_sign {t s : Bytes} {neg : Bool} (ht : Sign t neg) (hs : t = [] → ∀ c, s.head? = some c → c ≠ 45 ∧ c ≠ 43) (h0 : s ≠ []) :
    parseDuration (t ++ s) = unsigned neg s := by
  rcases ht with ⟨rfl, rfl⟩ | ⟨rfl | rfl, rfl⟩
  · rfl
  · cases s with
    | nil => exact absurd rfl h0
    | cons c s =>
      have := hs rfl c rfl
      simp only [List.nil_append, parseDuration, if_neg this.1, if_neg this.2]
  · rfl

theorem parse_inv (s : Bytes) (d : Int) (h : parseDuration s = some d) : ∃ t u neg, Sign t neg ∧ s = t ++ u ∧ unsigned neg u = some d := by
  cases s with
  | nil => cases h
  | cons c s =>
    rw [parseDuration] at h
    split at h
    · rename_i e; subst e; exact ⟨ascii "-", s, true, Or.inl ⟨rfl, rfl⟩, rfl, h⟩
    split at h
    · rename_i e; subst e; exact ⟨ascii "+", s, false, Or.inr ⟨Or.inr rfl, rfl⟩, rfl, h⟩
    · exact ⟨[], c :: s, false, Or.inr ⟨Or.inl rfl, rfl⟩, rfl, h⟩

theorem unsigned_texts {ps : List Piece} (neg : Bool) (h0 : ps ≠ []) (h : ∀ p ∈ ps, ∃ F, p.Ok F) :
    unsigned neg (ps.map Piece.text).flatten = match addUp 0 (ps.map Piece.ns) with
      | none => none
      | some d => if neg then some (-(d : Int)) else if 2 ^ 63 - 1 < d then none else some d := by
  obtain ⟨h1, h2, _⟩ := texts_ne h0 h
  unfold unsigned
  rw [if_neg h2, if_neg h1, loop_texts ps h _ _ (Nat.le_refl _)]
  cases addUp 0 (ps.map Piece.ns) <;> rfl

theorem worths (ps : List Piece) (h : ∀ p ∈ ps, ∃ F, p.Ok F) : List.Forall₂ Worth ps (ps.map Piece.ns) := by
  induction ps with
  | nil => exact .nil
  | cons p ps ih =>
    obtain ⟨F, hF⟩ := h p (by simp)
    refine .cons ?_ (ih fun q hq => h q (by simp [hq]))
    rw [ns_ok hF]; exact worth_of p F hF

/-! ## The theorems -/

/-- **C86**: what is read: zero, or numbers with units, and their sum with the sign. (A piece of exactly 2^63 nanoseconds may bring the sum round:
`C86_wrap`.) -/
theorem C86_reads (s : Bytes) (d : Int) (h : parseDuration s = some d) :
    (Zero s ∧ d = 0) ∨ ∃ neg ps xs, Spelled s neg ps ∧ List.Forall₂ Worth ps xs ∧ (∀ x ∈ xs, x ≤ 2 ^ 63) ∧
      (-2 ^ 63 ≤ d ∧ d < 2 ^ 63) ∧ (∃ k : Int, d = signed neg xs.sum + k * 2 ^ 64) ∧ ((∀ x ∈ xs, x < 2 ^ 63) → d = signed neg xs.sum) := by
  obtain ⟨t, u, neg, ht, e, hu⟩ := parse_inv s d h
  unfold unsigned at hu
  split at hu
  · rename_i h48; cases hu; subst h48; exact Or.inl ⟨⟨t, neg, ht, e⟩, rfl⟩
  split at hu
  · cases hu
  rename_i h48 hne
  right
  cases hl : loop u.length 0 u with
  | none => rw [hl] at hu; cases hu
  | some n =>
    obtain ⟨ps, h1, h2⟩ := loop_inv _ _ _ _ hl
    have hps : ps ≠ [] := by rintro rfl; exact hne (by simpa using h2)
    rw [hl] at hu
    rw [h2, loop_texts ps h1 _ _ (Nat.le_refl _)] at hl
    obtain ⟨a1, a2, k, a3⟩ := addUp_some 0 _ _ (by omega) hl
    refine ⟨neg, ps, ps.map Piece.ns, ⟨⟨t, ht, by rw [e, h2]⟩, hps, h1⟩, worths ps h1, a2, ?_⟩
    rw [Nat.zero_add] at a3
    have small : (∀ x ∈ ps.map Piece.ns, x < 2 ^ 63) → (ps.map Piece.ns).sum = n := by
      intro hx
      rw [addUp_eq 0 _ (by omega) hx] at hl
      split at hl
      · cases hl; omega
      · cases hl
    generalize (ps.map Piece.ns).sum = S at *
    simp only at hu
    cases neg with
    | true =>
      simp only [if_true] at hu
      cases hu
      refine ⟨⟨by omega, by omega⟩, ⟨(k : Int), ?_⟩, fun hx => ?_⟩
      · simp only [signed, if_true]; omega
      · simp only [signed, if_true]; rw [small hx]
    | false =>
      simp only [Bool.false_eq_true, if_false] at hu
      split at hu
      · cases hu
      · cases hu
        refine ⟨⟨by omega, by omega⟩, ⟨-(k : Int), ?_⟩, fun hx => ?_⟩
        · simp only [signed, Bool.false_eq_true, if_false]; omega
        · simp only [signed, Bool.false_eq_true, if_false]; rw [small hx]

/-- **C86**: numbers with units are read, unless one of them or the sum is too large; zero is. -/
theorem C86_accepts (s : Bytes) (neg : Bool) (ps : List Piece) (h : Spelled s neg ps) :
    ∃ xs, List.Forall₂ Worth ps xs ∧
      ((∀ x ∈ xs, x < 2 ^ 63) → parseDuration s = if xs.sum < 2 ^ 63 ∨ (neg = true ∧ xs.sum = 2 ^ 63) then some (signed neg xs.sum) else none) ∧
      ((∃ x ∈ xs, 2 ^ 63 < x) → parseDuration s = none) := by
  obtain ⟨⟨t, ht, e⟩, h0, hok⟩ := h
  obtain ⟨n1, n2, n3⟩ := texts_ne h0 hok
  refine ⟨ps.map Piece.ns, worths ps hok, fun hx => ?_, fun hx => ?_⟩
  · rw [e, parse_sign ht (fun _ => n3) n1, unsigned_texts neg h0 hok, addUp_eq 0 _ (by omega) hx, Nat.zero_add]
    generalize (ps.map Piece.ns).sum = S
    cases neg with
    | true =>
      by_cases hS : S ≤ 2 ^ 63
      · rw [if_pos hS, if_pos (show S < 2 ^ 63 ∨ (true = true ∧ S = 2 ^ 63) from (Nat.lt_or_eq_of_le hS).imp_right fun h => ⟨rfl, h⟩)]; rfl
      · rw [if_neg hS, if_neg (show ¬(S < 2 ^ 63 ∨ (true = true ∧ S = 2 ^ 63)) from fun h => hS (h.elim Nat.le_of_lt fun h => Nat.le_of_eq h.2))]
    | false =>
      by_cases hS : S < 2 ^ 63
      · rw [if_pos (by omega), if_pos (Or.inl hS)]
        simp only [Bool.false_eq_true, if_false]
        rw [if_neg (by omega)]; rfl
      · rw [if_neg (show ¬(S < 2 ^ 63 ∨ (false = true ∧ S = 2 ^ 63)) from fun h => h.elim hS fun h => nomatch h.1)]
        by_cases hS2 : S ≤ 2 ^ 63
        · rw [if_pos hS2]
          simp only [Bool.false_eq_true, if_false]
          rw [if_pos (by omega)]
        · rw [if_neg hS2]
  · rw [e, parse_sign ht (fun _ => n3) n1, unsigned_texts neg h0 hok, addUp_none 0 _ hx]

theorem C86_zero (s : Bytes) (h : Zero s) : parseDuration s = some 0 := by
  obtain ⟨t, neg, ht, e⟩ := h
  rw [e, parse_sign ht (fun _ c hc => by cases hc; decide) (by decide)]
  rfl

/-! ## Durations as they are written -/

theorem ok_frac {u : Bytes} {F : Nat} (hu : writtenNs u = some F) (w : Nat) (f : Bytes) (hf : ∀ b ∈ f, isDigit b) : Piece.Ok ⟨dec w, some f, u⟩ F :=
  ⟨fun b hb => isDig_of (dec_digits w b hb), fun b hb => isDig_of (hf b hb), Or.inl (dec_ne_nil w), hu⟩

theorem ok_plain {u : Bytes} {F : Nat} (hu : writtenNs u = some F) (w : Nat) : Piece.Ok ⟨dec w, none, u⟩ F :=
  ⟨fun b hb => isDig_of (dec_digits w b hb), nofun, Or.inl (dec_ne_nil w), hu⟩

theorem ns_plain {u : Bytes} {F : Nat} (hu : writtenNs u = some F) (w : Nat) : Piece.ns ⟨dec w, none, u⟩ = w * F := by
  have := (worth_of _ F (ok_plain hu w)).exact F hu (by simp [Piece.digits])
  rw [ns_ok (ok_plain hu w)]
  simpa [Piece.digits, dv_dec] using this

theorem le_sum {l : List Nat} {x : Nat} (h : x ∈ l) : x ≤ l.sum := by
  induction l with
  | nil => cases h
  | cons y l ih =>
    rw [List.sum_cons]
    rcases List.mem_cons.1 h with rfl | h
    · omega
    · have := ih h; omega

/-- A number with a fraction and its unit, as it is written. -/
theorem fixed_piece {u : Bytes} {p : Nat} (hu : writtenNs u = some (10 ^ p)) (v w : Nat) :
    ∃ q : Piece, q.Ok (10 ^ p) ∧ q.text = dec w ++ (fracLoop p v false u).1 ∧ q.ns = w * 10 ^ p + v % 10 ^ p := by
  rcases (fracLoop_spec p v u).2 with ⟨h0, h⟩ | ⟨f, hf0, _, hf, hl, hv, h⟩
  · refine ⟨⟨dec w, none, u⟩, ok_plain hu w, ?_, by rw [ns_plain hu, h0]; rfl⟩
    rw [h]; simp [Piece.text, pointed]
  · refine ⟨⟨dec w, some f, u⟩, ok_frac hu w f hf, ?_, ?_⟩
    · rw [h]; simp [Piece.text, pointed, ascii]
    · have hp : (10 : Nat) ^ p = 10 ^ (p - f.length) * 10 ^ f.length := by rw [← Nat.pow_add]; congr 1; omega
      have := (worth_of _ _ (ok_frac hu w f hf)).exact _ hu ⟨10 ^ (p - f.length), by rw [Nat.mul_comm]; exact hp⟩
      rw [ns_ok (ok_frac hu w f hf)]
      simp only [Piece.digits, Option.getD_some, dv_append, dv_dec] at this
      rw [← hv]
      have hpos : 0 < 10 ^ f.length := Nat.pow_pos (by omega)
      generalize pieceNs _ _ = x at *
      have e : x * 10 ^ f.length = (w * 10 ^ p + digitsValue f * 10 ^ (p - f.length)) * 10 ^ f.length := by
        rw [this]
        generalize digitsValue f = n at *
        generalize (10 : Nat) ^ (p - f.length) = a at *
        generalize (10 : Nat) ^ f.length = b at *
        rw [hp]; grind
      exact Nat.eq_of_mul_eq_mul_right hpos e

/-- What a text spells in pieces. -/
def Pieces (t : Bytes) (u : Nat) : Prop := ∃ ps : List Piece, ps ≠ [] ∧ (∀ p ∈ ps, ∃ F, p.Ok F) ∧ t = (ps.map Piece.text).flatten ∧ (ps.map Piece.ns).sum = u

theorem Pieces.cons {t : Bytes} {u : Nat} (h : Pieces t u) {un : Bytes} {F : Nat} (hu : writtenNs un = some F) (w : Nat) :
    Pieces (dec w ++ (un ++ t)) (w * F + u) := by
  obtain ⟨ps, h0, h1, h2, h3⟩ := h
  refine ⟨⟨dec w, none, un⟩ :: ps, by simp, fun q hq => ?_, ?_, ?_⟩
  · rcases List.mem_cons.1 hq with rfl | hq
    · exact ⟨F, ok_plain hu w⟩
    · exact h1 q hq
  · rw [h2]; simp [Piece.text, pointed]
  · simp only [List.map_cons, List.sum_cons, ns_plain hu, h3]

theorem Pieces.single {u : Bytes} {p : Nat} (hu : writtenNs u = some (10 ^ p)) (v w : Nat) :
    Pieces (dec w ++ (fracLoop p v false u).1) (w * 10 ^ p + v % 10 ^ p) := by
  obtain ⟨q, h1, h2, h3⟩ := fixed_piece hu v w
  exact ⟨[q], by simp, fun r hr => by rw [List.mem_singleton.1 hr]; exact ⟨_, h1⟩, by simp [h2], by simp [h3]⟩

theorem Pieces.fixed {un : Bytes} {p : Nat} (hu : writtenNs un = some (10 ^ p)) (u : Nat) : Pieces (fixed u p un) u := by
  have := Pieces.single hu u (u / 10 ^ p)
  rw [Nat.mul_comm, Nat.div_add_mod] at this
  unfold Un.fixed
  simp only [(fracLoop_spec p u un).1]
  exact this

theorem wns : writtenNs [110, 115] = some (10 ^ 0) := by decide
theorem wus : writtenNs [194, 181, 115] = some (10 ^ 3) := by decide
theorem wms : writtenNs [109, 115] = some (10 ^ 6) := by decide
theorem ws : writtenNs [115] = some (10 ^ 9) := by decide
theorem wm : writtenNs [109] = some (60 * 10 ^ 9) := by decide
theorem wh : writtenNs [104] = some (3600 * 10 ^ 9) := by decide

theorem durNat_pieces (u : Nat) : Pieces (durNat u) u := by
  unfold durNat
  by_cases h : u < 1000000000
  · rw [if_pos h]
    by_cases h0 : u = 0
    · rw [if_pos h0, h0]
      exact Pieces.single ws 0 0
    rw [if_neg h0]
    by_cases h1 : u < 1000
    · rw [if_pos h1]; exact Pieces.fixed wns u
    rw [if_neg h1]
    by_cases h2 : u < 1000000
    · rw [if_pos h2]; exact Pieces.fixed wus u
    · rw [if_neg h2]; exact Pieces.fixed wms u
  · rw [if_neg h]
    simp only [(fracLoop_spec 9 u [115]).1]
    have hs := Pieces.single ws u (u / 10 ^ 9 % 60)
    by_cases hm : 0 < u / 10 ^ 9 / 60
    · rw [if_pos hm]
      have hms := hs.cons wm (u / 10 ^ 9 / 60 % 60)
      by_cases hh : 0 < u / 10 ^ 9 / 60 / 60
      · rw [if_pos hh]
        have hhms := hms.cons wh (u / 10 ^ 9 / 60 / 60)
        have e : u / 10 ^ 9 / 60 / 60 * (3600 * 10 ^ 9) + (u / 10 ^ 9 / 60 % 60 * (60 * 10 ^ 9) + (u / 10 ^ 9 % 60 * 10 ^ 9 + u % 10 ^ 9)) = u := by omega
        rw [e] at hhms
        exact hhms
      · rw [if_neg hh]
        have e : u / 10 ^ 9 / 60 % 60 * (60 * 10 ^ 9) + (u / 10 ^ 9 % 60 * 10 ^ 9 + u % 10 ^ 9) = u := by omega
        rw [e] at hms
        exact hms
    · rw [if_neg hm]
      have e : u / 10 ^ 9 % 60 * 10 ^ 9 + u % 10 ^ 9 = u := by omega
      rw [e] at hs
      exact hs

/-- **C86**: every duration that is shown reads back. -/
theorem C86_back (d : Int) (h1 : -2 ^ 63 ≤ d) (h2 : d < 2 ^ 63) : parseDuration (durText d) = some d := by
  by_cases hmin : d = -2 ^ 63
  · subst hmin; decide +kernel
  obtain ⟨ps, h0, hok, ht, hs⟩ := durNat_pieces d.natAbs
  obtain ⟨n1, n2, n3⟩ := texts_ne h0 hok
  have hx : ∀ x ∈ ps.map Piece.ns, x < 2 ^ 63 := by
    intro x hx
    have := le_sum hx
    omega
  unfold durText
  have key : ∀ neg, unsigned neg (durNat d.natAbs) = some (signed neg d.natAbs) := by
    intro neg
    rw [ht, unsigned_texts neg h0 hok, addUp_eq 0 _ (by omega) hx, Nat.zero_add, hs, if_pos (by omega)]
    cases neg with
    | true => rfl
    | false =>
      simp only [Bool.false_eq_true, if_false]
      rw [if_neg (by omega)]; rfl
  by_cases hn : d < 0
  · rw [if_pos hn]
    have : parseDuration (45 :: durNat d.natAbs) = unsigned true (durNat d.natAbs) := rfl
    rw [this, key]
    simp only [signed, if_true]
    congr 1; omega
  · rw [if_neg hn]
    have := parse_sign (t := []) (s := durNat d.natAbs) (neg := false) (Or.inr ⟨Or.inl rfl, rfl⟩) (fun _ => by rw [ht]; exact n3) (by rw [ht]; exact n1)
    rw [List.nil_append] at this
    rw [this, key]
    simp only [signed, Bool.false_eq_true, if_false]
    congr 1; omega

/-- Two pieces of 2^63 nanoseconds each bring the sum round to zero: this text is read although it spells 2^64 nanoseconds. -/
theorem C86_wrap : parseDuration (ascii "9223372036854775808ns9223372036854775808ns") = some 0 := by decide +kernel

/-! ## Examples -/

example : parseDuration (ascii "1h30m") = some 5400000000000 := by decide +kernel
example : parseDuration (ascii "-1.5h") = some (-5400000000000) := by decide +kernel
example : parseDuration (ascii "+.5s") = some 500000000 := by decide +kernel
example : parseDuration (ascii "0.33333333333333333333h") = some 1200000000000 := by decide +kernel
example : parseDuration (ascii "0.100000000000000000000h") = some 360000000000 := by decide +kernel
example : parseDuration (ascii "9223372036854775807ns") = some 9223372036854775807 := by decide +kernel
example : parseDuration (ascii "9223372036854775808ns") = none := by decide +kernel
example : parseDuration (ascii "-9223372036854775808ns") = some (-9223372036854775808) := by decide +kernel
example : parseDuration (ascii "-9223372036.854775808s") = some (-9223372036854775808) := by decide +kernel
example : parseDuration (ascii "0.830103483285477580700h") = some 2988372539827 := by decide +kernel
example : parseDuration (ascii "1e3s") = none ∧ parseDuration (ascii "5") = none ∧ parseDuration (ascii "1d") = none ∧ parseDuration (ascii ".s") = none := by decide +kernel

end Verif.Un
