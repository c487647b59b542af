import Verif.Model.Unit
import Verif.Spec.Duration
import Verif.Lemmas.Bytes
import Mathlib.Data.List.Induction
/-!
# C82: values with units of time

`C82_reads`, `C82_injective`: the text of a duration, read as numbers with units, is that duration; `C82_form`: how it is written.
`C82_exact`, `C82_near`, `C82_double`: which duration is shown for a value. `C82_other`: other units.
-/
namespace Verif.Un

/-! ## Digits -/

theorem isDig_of {b : UInt8} (h : isDigit b) : isDig b = true := by
  simp only [isDig, Bool.and_eq_true, decide_eq_true_eq]; exact h

theorem dv_append (a b : Bytes) : digitsValue (a ++ b) = digitsValue a * 10 ^ b.length + digitsValue b := by
  induction b using List.reverseRecOn with
  | nil => simp [digitsValue]
  | append_singleton b c ih =>
    have h1 : ∀ (x : Bytes) (c : UInt8), digitsValue (x ++ [c]) = 10 * digitsValue x + (c.toNat - 48) := by
      intro x c; simp [digitsValue, List.foldl_append]
    rw [← List.append_assoc, h1, ih, h1, List.length_append, List.length_singleton, Nat.pow_succ]
    grind

theorem dv_dec (n : Nat) : digitsValue (dec n) = n := by
  induction n using Nat.strongRecOn with
  | ind n ih =>
    rw [dec_eq]
    by_cases h : n < 10
    · rw [if_pos h]
      simp [digitsValue, digit_toNat h]
    · rw [if_neg h, dv_append, ih (n / 10) (by omega)]
      simp [digitsValue, digit_toNat (show n % 10 < 10 by omega)]
      omega

/-- `p` digits. -/
def pad : Nat → Nat → Bytes
  | 0, _ => []
  | p + 1, v => pad p (v / 10) ++ [digit (v % 10)]

theorem pad_length (p v : Nat) : (pad p v).length = p := by
  induction p generalizing v with
  | zero => rfl
  | succ p ih => simp [pad, ih]

theorem pad_digits (p v : Nat) : ∀ b ∈ pad p v, isDigit b := by
  induction p generalizing v with
  | zero => simp [pad]
  | succ p ih =>
    intro b hb
    rcases List.mem_append.1 hb with hb | hb
    · exact ih _ b hb
    · rw [List.mem_singleton.1 hb]; exact digit_isDigit (by omega)

theorem dv_pad (p v : Nat) : digitsValue (pad p v) = v % 10 ^ p := by
  induction p generalizing v with
  | zero => simp [pad, digitsValue, Nat.mod_one]
  | succ p ih =>
    rw [pad, dv_append, ih]
    simp [digitsValue, digit_toNat (show v % 10 < 10 by omega)]
    rw [Nat.pow_succ, Nat.mul_comm (10 ^ p) 10, Nat.mod_mul]
    omega

theorem fracLoop_true (p v : Nat) (acc : Bytes) : fracLoop p v true acc = (46 :: pad p v ++ acc, v / 10 ^ p) := by
  induction p generalizing v acc with
  | zero => simp [fracLoop, pad]
  | succ p ih =>
    simp only [fracLoop, Bool.true_or, if_true]
    rw [ih, pad, Nat.pow_succ, Nat.div_div_eq_div_mul, Nat.mul_comm 10]
    simp

/-- What `fmtFrac` writes: nothing, or a point and digits, and the value of these. -/
theorem fracLoop_spec (p v : Nat) (acc : Bytes) :
    (fracLoop p v false acc).2 = v / 10 ^ p ∧
    ((v % 10 ^ p = 0 ∧ (fracLoop p v false acc).1 = acc) ∨
      ∃ f, f ≠ [] ∧ f.getLast? ≠ some 48 ∧ (∀ b ∈ f, isDigit b) ∧ f.length ≤ p ∧ digitsValue f * 10 ^ (p - f.length) = v % 10 ^ p ∧ (fracLoop p v false acc).1 = 46 :: f ++ acc) := by
  induction p generalizing v acc with
  | zero => exact ⟨by simp [fracLoop], Or.inl ⟨by simp [Nat.mod_one], rfl⟩⟩
  | succ p ih =>
    simp only [fracLoop, Bool.false_or]
    by_cases h : v % 10 = 0
    · have : (v % 10 != 0) = false := by simp [h]
      rw [this]
      simp only [Bool.false_eq_true, if_false]
      obtain ⟨h1, h2⟩ := ih (v / 10) acc
      refine ⟨by rw [h1, Nat.div_div_eq_div_mul, Nat.pow_succ, Nat.mul_comm 10], ?_⟩
      have hm : v % 10 ^ (p + 1) = 10 * (v / 10 % 10 ^ p) := by
        rw [Nat.pow_succ, Nat.mul_comm (10 ^ p) 10, Nat.mod_mul]; omega
      rcases h2 with ⟨h2, h3⟩ | ⟨f, hf0, hfl, hf, hl, hv, h3⟩
      · exact Or.inl ⟨by rw [hm, h2], h3⟩
      · refine Or.inr ⟨f, hf0, hfl, hf, by omega, ?_, h3⟩
        rw [hm, ← hv, show p + 1 - f.length = (p - f.length) + 1 by omega, Nat.pow_succ]
        grind
    · have : (v % 10 != 0) = true := by simp [h]
      rw [this, fracLoop_true]
      refine ⟨by rw [Nat.div_div_eq_div_mul, Nat.pow_succ, Nat.mul_comm 10], Or.inr ⟨pad (p + 1) v, by simp [pad], ?_, pad_digits _ _, by rw [pad_length]; exact Nat.le_refl _, ?_, ?_⟩⟩
      · simp only [pad, List.getLast?_concat]
        intro e
        have e := congrArg UInt8.toNat (Option.some.inj e)
        rw [digit_toNat (by omega)] at e
        simp at e; omega
      · rw [pad_length, dv_pad]; simp
      · simp [pad]

/-! ## Reading -/

theorem takeWhile_app {p : UInt8 → Bool} {a r : Bytes} (ha : ∀ b ∈ a, p b = true) (hr : ∀ b, r.head? = some b → p b = false) :
    (a ++ r).takeWhile p = a ∧ (a ++ r).dropWhile p = r := by
  induction a with
  | nil =>
    cases r with
    | nil => exact ⟨rfl, rfl⟩
    | cons b r => have := hr b rfl; simp [this]
  | cons b a ih =>
    have := ih (fun x hx => ha x (by simp [hx]))
    simp [ha b (by simp), this.1, this.2]

/-- Text that starts like a number: a digit or the end. -/
def Next (t : Bytes) : Prop := ∀ b, t.head? = some b → isDig b = true

/-- Text of a unit. -/
def IsUnit (u : Bytes) (F : Nat) : Prop := unitNs u = some F ∧ u ≠ [] ∧ (∀ b ∈ u, isDig b = false) ∧ u.head? ≠ some 46

theorem readParts_step {u : Bytes} {F : Nat} (hu : IsUnit u F) {w f rest : Bytes} (hw : ∀ b ∈ w, isDigit b) (hw0 : w ≠ []) (fr : Bytes)
    (hf : (fr = [] ∧ f = []) ∨ (fr = 46 :: f ∧ ∀ b ∈ f, isDigit b)) (hr : Next rest) (fuel : Nat) :
    readParts (fuel + 1) (w ++ (fr ++ (u ++ rest))) =
      if rest = [] then some (digitsValue w * F + digitsValue f * F / 10 ^ f.length)
      else (readParts fuel rest).map (digitsValue w * F + digitsValue f * F / 10 ^ f.length + ·) := by
  obtain ⟨hu1, hu2, hu3, hu4⟩ := hu
  have hw' : ∀ b ∈ w, isDig b = true := fun b hb => isDig_of (hw b hb)
  have hhead : ∀ b, (u ++ rest).head? = some b → isDig b = false := by
    intro b hb
    cases u with
    | nil => exact absurd rfl hu2
    | cons c u => simp at hb; subst hb; exact hu3 _ (by simp)
  have h1 : ∀ b, (fr ++ (u ++ rest)).head? = some b → isDig b = false := by
    intro b hb
    rcases hf with ⟨rfl, _⟩ | ⟨rfl, _⟩
    · exact hhead b hb
    · simp at hb; subst hb; decide
  have h2 := takeWhile_app hw' h1
  have h3 : afterPoint (fr ++ (u ++ rest)) = (f, u ++ rest) := by
    rcases hf with ⟨rfl, rfl⟩ | ⟨rfl, hfd⟩
    · cases u with
      | nil => exact absurd rfl hu2
      | cons c u =>
        show (if c = 46 then _ else _) = _
        rw [if_neg (fun e => hu4 (by simp [e]))]; rfl
    · have := takeWhile_app (r := u ++ rest) (fun b hb => isDig_of (hfd b hb)) hhead
      show ((f ++ (u ++ rest)).takeWhile isDig, (f ++ (u ++ rest)).dropWhile isDig) = _
      rw [this.1, this.2]
  have h4 := takeWhile_app (p := fun b => !isDig b) (a := u) (r := rest) (fun b hb => by simp [hu3 b hb]) (fun b hb => by simp [hr b hb])
  rw [readParts]
  simp only [h2.1, h2.2, h3, h4.1, h4.2, hu1, if_neg hw0]

theorem unit_ns : IsUnit [110, 115] 1 := by unfold IsUnit; decide
theorem unit_us : IsUnit [194, 181, 115] (10 ^ 3) := by unfold IsUnit; decide
theorem unit_ms : IsUnit [109, 115] (10 ^ 6) := by unfold IsUnit; decide
theorem unit_s : IsUnit [115] (10 ^ 9) := by unfold IsUnit; decide
theorem unit_m : IsUnit [109] (60 * 10 ^ 9) := by unfold IsUnit; decide
theorem unit_h : IsUnit [104] (3600 * 10 ^ 9) := by unfold IsUnit; decide

theorem next_dec (n : Nat) (r : Bytes) : Next (dec n ++ r) := by
  intro b hb
  have hne := dec_ne_nil n
  cases h : dec n with
  | nil => exact absurd h hne
  | cons c l =>
    rw [h] at hb; simp at hb; subst hb
    exact isDig_of (dec_digits n _ (by rw [h]; simp))

/-- Reading a whole number with fraction and unit: seconds and the small units. -/
theorem read_frac {u : Bytes} {p : Nat} (hu : IsUnit u (10 ^ p)) (v x : Nat) (hx : 10 ^ p ∣ v - x ∧ x = v % 10 ^ p + 10 ^ p * (x / 10 ^ p)) (fuel : Nat) :
    readParts (fuel + 1) (dec (x / 10 ^ p) ++ (fracLoop p v false u).1) = some x := by
  obtain ⟨_, hx⟩ := hx
  obtain ⟨_, h⟩ := fracLoop_spec p v u
  rcases h with ⟨h0, h⟩ | ⟨f, _, _, hf, hl, hv, h⟩
  · rw [h]
    have := readParts_step hu (dec_digits (x / 10 ^ p)) (dec_ne_nil _) [] (f := []) (rest := []) (Or.inl ⟨rfl, rfl⟩) (by simp [Next]) fuel
    simp only [List.nil_append, List.append_nil, if_true] at this
    rw [this, dv_dec]
    simp only [digitsValue, List.foldl_nil, Nat.zero_mul, Nat.zero_div, Nat.add_zero]
    rw [h0, Nat.zero_add] at hx
    rw [Nat.mul_comm, ← hx]
  · rw [h]
    have := readParts_step hu (dec_digits (x / 10 ^ p)) (dec_ne_nil _) (46 :: f) (f := f) (rest := []) (Or.inr ⟨rfl, hf⟩) (by simp [Next]) fuel
    simp only [List.append_nil, if_true] at this
    rw [this, dv_dec]
    have hd : digitsValue f * 10 ^ p / 10 ^ f.length = v % 10 ^ p := by
      rw [← hv]
      have : 10 ^ p = 10 ^ (p - f.length) * 10 ^ f.length := by rw [← Nat.pow_add]; congr 1; omega
      rw [this, ← Nat.mul_assoc, Nat.mul_div_cancel _ (Nat.pow_pos (by omega))]
    rw [hd]
    congr 1
    rw [Nat.mul_comm]; omega

theorem read_durNat (u fuel : Nat) (hfuel : 3 ≤ fuel) : readParts fuel (durNat u) = some u := by
  obtain ⟨fuel, rfl⟩ : ∃ k, fuel = k + 3 := ⟨fuel - 3, by omega⟩
  have small : ∀ p un, IsUnit un (10 ^ p) → readParts (fuel + 3) (fixed u p un) = some u := by
    intro p un hun
    have h1 := (fracLoop_spec p u un).1
    unfold fixed
    simp only [h1]
    exact read_frac hun u u ⟨by simp, (Nat.mod_add_div u (10 ^ p)).symm⟩ (fuel + 2)
  unfold durNat
  by_cases h : u < 1000000000
  · rw [if_pos h]
    by_cases h0 : u = 0
    · rw [if_pos h0, h0]; rfl
    rw [if_neg h0]
    by_cases h1 : u < 1000
    · rw [if_pos h1]; exact small 0 _ unit_ns
    rw [if_neg h1]
    by_cases h2 : u < 1000000
    · rw [if_pos h2]; exact small 3 _ unit_us
    · rw [if_neg h2]; exact small 6 _ unit_ms
  · rw [if_neg h]
    have h1 := (fracLoop_spec 9 u [115]).1
    simp only [h1]
    have secs : ∀ k, readParts (k + 1) (dec (u / 10 ^ 9 % 60) ++ (fracLoop 9 u false [115]).1) = some (u % (60 * 10 ^ 9)) := by
      intro k
      have e : u % (60 * 10 ^ 9) / 10 ^ 9 = u / 10 ^ 9 % 60 := by omega
      rw [← e]
      exact read_frac unit_s u _ ⟨by omega, by omega⟩ k
    by_cases hm : 0 < u / 10 ^ 9 / 60
    · rw [if_pos hm]
      have mins : ∀ k, readParts (k + 2) (dec (u / 10 ^ 9 / 60 % 60) ++ 109 :: (dec (u / 10 ^ 9 % 60) ++ (fracLoop 9 u false [115]).1)) =
          some (u % (3600 * 10 ^ 9)) := by
        intro k
        have := readParts_step unit_m (dec_digits (u / 10 ^ 9 / 60 % 60)) (dec_ne_nil _) [] (f := [])
          (rest := dec (u / 10 ^ 9 % 60) ++ (fracLoop 9 u false [115]).1) (Or.inl ⟨rfl, rfl⟩) (next_dec _ _) (k + 1)
        simp only [List.nil_append, List.singleton_append] at this
        rw [this, if_neg (by simp [dec_ne_nil]), secs, dv_dec]
        simp only [digitsValue, List.foldl_nil, Nat.zero_mul, Nat.zero_div, Nat.add_zero, Option.map_some]
        congr 1
        omega
      by_cases hh : 0 < u / 10 ^ 9 / 60 / 60
      · rw [if_pos hh]
        have := readParts_step unit_h (dec_digits (u / 10 ^ 9 / 60 / 60)) (dec_ne_nil _) [] (f := [])
          (rest := dec (u / 10 ^ 9 / 60 % 60) ++ 109 :: (dec (u / 10 ^ 9 % 60) ++ (fracLoop 9 u false [115]).1)) (Or.inl ⟨rfl, rfl⟩) (next_dec _ _) (fuel + 2)
        simp only [List.nil_append, List.singleton_append] at this
        rw [this, if_neg (by simp), mins, dv_dec]
        simp only [digitsValue, List.foldl_nil, Nat.zero_mul, Nat.zero_div, Nat.add_zero, Option.map_some]
        congr 1
        omega
      · rw [if_neg hh, mins (fuel + 1)]
        congr 1
        omega
    · rw [if_neg hm, secs (fuel + 2)]
      congr 1
      omega

/-! ## Rounding -/

theorem round_small {n : Nat} (h : n < 2 ^ 53) : round53 n = n := by
  have hk : n.log2 + 1 - 53 = 0 := by
    by_cases h0 : n = 0
    · subst h0; simp
    · have := (Nat.log2_lt h0).2 h; omega
  unfold round53
  simp only [hk, Nat.pow_zero, Nat.div_one, Nat.mod_one]
  simp

/-- The error of rounding is at most one part in 2^53. -/
theorem round_near (n : Nat) : (round53 n - n) * 2 ^ 53 ≤ n ∧ (n - round53 n) * 2 ^ 53 ≤ n := by
  by_cases h : n < 2 ^ 53
  · rw [round_small h]; simp
  have hlog : 2 ^ n.log2 ≤ n := Nat.log2_self_le (by omega)
  have h53 : 53 ≤ n.log2 := (Nat.le_log2 (by omega)).2 (by omega)
  obtain ⟨k, hk⟩ : ∃ k, n.log2 = k + 53 := ⟨n.log2 - 53, by omega⟩
  rw [hk] at hlog
  unfold round53
  have hkk : n.log2 + 1 - 53 = k + 1 := by omega
  simp only [hkk]
  have hdiv := Nat.div_add_mod n (2 ^ (k + 1))
  have hlt := Nat.mod_lt n (Nat.two_pow_pos (k + 1))
  generalize hq : n / 2 ^ (k + 1) = q at *
  generalize hr : n % 2 ^ (k + 1) = r at *
  have hP : (2 : Nat) ^ (k + 53) = 2 ^ (k + 1) * 2 ^ 52 := by rw [← Nat.pow_add]
  generalize (2 : Nat) ^ (k + 1) = P at *
  rw [hP] at hlog
  by_cases hc : P < 2 * r ∨ (2 * r = P ∧ q % 2 = 1)
  · rw [if_pos hc, Nat.add_mul, Nat.one_mul, Nat.mul_comm q P]
    have : P ≤ 2 * r := by rcases hc with hc | hc <;> omega
    omega
  · rw [if_neg hc, Nat.mul_comm q P]
    have : 2 * r ≤ P := by
      refine Nat.not_lt.1 fun e => hc (Or.inl e)
    omega

/-! ## The theorems -/

theorem durNat_head (u : Nat) : ∃ b r, durNat u = b :: r ∧ b ≠ 45 := by
  have app : ∀ n (t : Bytes), ∃ b r, dec n ++ t = b :: r ∧ b ≠ 45 := by
    intro n t
    cases h : dec n with
    | nil => exact absurd h (dec_ne_nil n)
    | cons b r =>
      refine ⟨b, r ++ t, rfl, fun e => ?_⟩
      have := dec_digits n b (by rw [h]; simp)
      rw [e] at this
      simp [isDigit] at this
  unfold durNat fixed
  by_cases h : u < 1000000000
  · rw [if_pos h]
    by_cases h0 : u = 0
    · rw [if_pos h0]; exact ⟨48, [115], rfl, by decide⟩
    · rw [if_neg h0]; (repeat' split) <;> exact app _ _
  · rw [if_neg h]; simp only []; (repeat' split) <;> exact app _ _

/-- **C82**: the text of a duration, read as a sum of numbers with units, is the duration, to the nanosecond. -/
theorem C82_reads (d : Int) : readDuration (durText d) = some d := by
  obtain ⟨b, r, hb, hne⟩ := durNat_head d.natAbs
  have hlen : 2 ≤ (durNat d.natAbs).length := by
    have h3 := read_durNat d.natAbs 3 (by omega)
    rw [hb] at h3
    cases r with
    | cons c r => rw [hb]; simp
    | nil =>
      exfalso
      by_cases hd : isDig b = true <;> simp [readParts, afterPoint, hd, unitNs, ascii] at h3
      · exact absurd h3 (by split <;> simp_all)
  unfold durText
  by_cases hn : d < 0
  · rw [if_pos hn]
    show (readParts ((durNat d.natAbs).length + 1) (durNat d.natAbs)).map (fun n => -(n : Int)) = _
    rw [read_durNat _ _ (by omega)]
    simp; omega
  · rw [if_neg hn]
    have h := read_durNat d.natAbs ((b :: r).length + 1) (by rw [← hb]; omega)
    rw [hb] at *
    show (if b = 45 then _ else _) = _
    rw [if_neg hne, h]
    simp; omega

/-- **C82**: different durations have different texts. -/
theorem C82_injective {a b : Int} (h : durText a = durText b) : a = b := by
  have := C82_reads a
  rw [h, C82_reads b] at this
  exact (Option.some.inj this).symm

theorem factor_eq (u : Bytes) : factor u = metricUnit u := rfl

/-- **C82**: an integer value with a unit of time is shown as exactly this time, if that is at most 2^53 ns (104 days). -/
theorem C82_exact (E : Env) (i : Int) (unit : Bytes) (k : Nat) (hk : metricUnit unit = some k) (h : i.natAbs * k < 2 ^ 53) :
    readDuration (cell E (.int i) unit) = some (i * k) := by
  have hk0 : 0 < k := by
    unfold metricUnit at hk
    (repeat' split at hk) <;> cases hk <;> omega
  have hi : i.natAbs < 2 ^ 53 := Nat.lt_of_le_of_lt (Nat.le_mul_of_pos_right _ hk0) h
  unfold cell formatUnit value
  rw [factor_eq, hk]
  simp only [mul]
  rw [round_small hi, round_small h, C82_reads]
  unfold toDuration Double.trunc
  simp only [Int.le_refl, if_true, Int.toNat_zero, Nat.pow_zero, Nat.mul_one]
  have hsign : (if decide (i < 0) = true then -((i.natAbs * k : Nat) : Int) else ((i.natAbs * k : Nat) : Int)) = i * k := by
    by_cases hn : i < 0
    · simp only [hn, decide_true, if_true, Int.natCast_mul]
      rw [show ((i.natAbs : Nat) : Int) = -i by omega, Int.neg_mul, Int.neg_neg]
    · simp only [hn, decide_false, Bool.false_eq_true, if_false, Int.natCast_mul]
      rw [show ((i.natAbs : Nat) : Int) = i by omega]
  rw [hsign, if_pos]
  rw [Int.natAbs_mul, Int.natAbs_natCast]
  omega

/-- **C82**: how a duration is written: zero as `0s`, below a second in the largest fitting unit of `ns`, `µs`, `ms`, otherwise in hours,
minutes and seconds, each only from there on; with a fraction without zeros at its end. -/
theorem C82_form (u : Nat) :
    (u = 0 → durNat u = ascii "0s") ∧ (0 < u → u < 1000 → durNat u = dec u ++ ascii "ns") ∧
    ∃ frac, (frac = [] ∨ ∃ f, frac = 46 :: f ∧ f ≠ [] ∧ f.getLast? ≠ some 48 ∧ ∀ b ∈ f, isDigit b) ∧
      (1000 ≤ u → u < 10 ^ 6 → durNat u = dec (u / 10 ^ 3) ++ frac ++ [194, 181] ++ ascii "s") ∧
      (10 ^ 6 ≤ u → u < 10 ^ 9 → durNat u = dec (u / 10 ^ 6) ++ frac ++ ascii "ms") ∧
      (10 ^ 9 ≤ u → durNat u = (if 3600 * 10 ^ 9 ≤ u then dec (u / (3600 * 10 ^ 9)) ++ ascii "h" else []) ++
        (if 60 * 10 ^ 9 ≤ u then dec (u / (60 * 10 ^ 9) % 60) ++ ascii "m" else []) ++ dec (u / 10 ^ 9 % 60) ++ frac ++ ascii "s") := by
  have spec : ∀ p (un : Bytes), ∃ frac : Bytes, (frac = [] ∨ ∃ f, frac = 46 :: f ∧ f ≠ [] ∧ f.getLast? ≠ some 48 ∧ ∀ b ∈ f, isDigit b) ∧
      (fracLoop p u false un).2 = u / 10 ^ p ∧ (fracLoop p u false un).1 = frac ++ un := by
    intro p un
    obtain ⟨h1, h2⟩ := fracLoop_spec p u un
    rcases h2 with ⟨_, h2⟩ | ⟨f, a, b, c, _, _, h2⟩
    · exact ⟨[], Or.inl rfl, h1, h2⟩
    · exact ⟨46 :: f, Or.inr ⟨f, rfl, a, b, c⟩, h1, h2⟩
  refine ⟨fun h => by subst h; rfl, fun h0 h1 => ?_, ?_⟩
  · unfold durNat
    rw [if_pos (by omega), if_neg (by omega), if_pos h1]
    rfl
  by_cases h3 : u < 10 ^ 6
  · obtain ⟨frac, hf, h1, h2⟩ := spec 3 [194, 181, 115]
    refine ⟨frac, hf, fun ha _ => ?_, fun ha => by omega, fun ha => by omega⟩
    unfold durNat
    rw [if_pos (by omega), if_neg (by omega), if_neg (by omega), if_pos (by omega)]
    unfold fixed
    simp only [h1, h2]
    simp [ascii]
  by_cases h6 : u < 10 ^ 9
  · obtain ⟨frac, hf, h1, h2⟩ := spec 6 [109, 115]
    refine ⟨frac, hf, fun _ ha => by omega, fun _ _ => ?_, fun ha => by omega⟩
    unfold durNat
    rw [if_pos (by omega), if_neg (by omega), if_neg (by omega), if_neg (by omega)]
    unfold fixed
    simp only [h1, h2]
    simp [ascii]
  · obtain ⟨frac, hf, h1, h2⟩ := spec 9 [115]
    refine ⟨frac, hf, fun _ ha => by omega, fun _ ha => by omega, fun _ => ?_⟩
    unfold durNat
    rw [if_neg (by omega)]
    simp only [h1, h2]
    have e1 : u / 10 ^ 9 / 60 = u / (60 * 10 ^ 9) := by omega
    have e2 : u / 10 ^ 9 / 60 / 60 = u / (3600 * 10 ^ 9) := by omega
    rw [e2, e1]
    by_cases hm : 60 * 10 ^ 9 ≤ u
    · rw [if_pos (show 0 < u / (60 * 10 ^ 9) by omega), if_pos hm]
      by_cases hh : 3600 * 10 ^ 9 ≤ u
      · rw [if_pos (show 0 < u / (3600 * 10 ^ 9) by omega), if_pos hh]
        simp [ascii]
      · rw [if_neg (show ¬ 0 < u / (3600 * 10 ^ 9) by omega), if_neg hh]
        simp [ascii]
    · rw [if_neg (show ¬ 0 < u / (60 * 10 ^ 9) by omega), if_neg hm, if_neg (by omega)]
      simp [ascii]

theorem bounds_aux (r n Q : Nat) (h : (r - n) * Q ≤ n ∧ (n - r) * Q ≤ n) : r * Q ≤ n * (Q + 1) ∧ n * (Q - 1) ≤ r * Q := by
  rw [Nat.sub_mul, Nat.sub_mul] at h
  rw [Nat.mul_add, Nat.mul_sub, Nat.mul_one]
  omega

theorem round_bounds (n : Nat) : round53 n * 2 ^ 53 ≤ n * (2 ^ 53 + 1) ∧ n * (2 ^ 53 - 1) ≤ round53 n * 2 ^ 53 :=
  bounds_aux _ _ _ (round_near n)

/-- **C82**: any finite value `± m * 2^e`: its sign is kept, and the time shown is within one part in 2^53, and one nanosecond towards zero,
of the exact one (`n` against `m * 2^e * k`); if the time is less than 2^63 ns (292 years). -/
theorem C82_double (E : Env) (d : Double) (unit : Bytes) (k : Nat) (hk : metricUnit unit = some k) (hlt : (mul d k).trunc.natAbs < 2 ^ 63) :
    ∃ n : Nat, readDuration (formatUnit E (.ok d) unit) = some (if d.neg then -(n : Int) else n) ∧
      n * 2 ^ (-d.e).toNat * 2 ^ 53 ≤ d.m * k * 2 ^ d.e.toNat * (2 ^ 53 + 1) ∧
      d.m * k * 2 ^ d.e.toNat * (2 ^ 53 - 1) < (n + 1) * 2 ^ (-d.e).toNat * 2 ^ 53 := by
  obtain ⟨ha, hb⟩ := round_bounds (d.m * k)
  refine ⟨if 0 ≤ d.e then round53 (d.m * k) * 2 ^ d.e.toNat else round53 (d.m * k) / 2 ^ (-d.e).toNat, ?_, ?_⟩
  · unfold formatUnit
    rw [factor_eq, hk]
    simp only [C82_reads, toDuration, if_pos hlt]
    unfold mul Double.trunc
    simp only
  · by_cases he : 0 ≤ d.e
    · rw [if_pos he, show (-d.e).toNat = 0 by omega]
      simp only [Nat.pow_zero, Nat.mul_one]
      have hp := Nat.two_pow_pos d.e.toNat
      generalize (2 : Nat) ^ d.e.toNat = P at *
      have h1 := Nat.mul_le_mul_right P ha
      have h2 := Nat.mul_le_mul_right P hb
      generalize round53 (d.m * k) = R at *
      generalize d.m * k = M at *
      constructor
      · calc R * P * 2 ^ 53 = R * 2 ^ 53 * P := by rw [Nat.mul_right_comm]
          _ ≤ _ := h1
          _ = _ := by rw [Nat.mul_right_comm]
      · calc M * P * (2 ^ 53 - 1) = M * (2 ^ 53 - 1) * P := by rw [Nat.mul_right_comm]
          _ ≤ R * 2 ^ 53 * P := h2
          _ = R * P * 2 ^ 53 := by rw [Nat.mul_right_comm]
          _ < (R * P + 1) * 2 ^ 53 := by omega
    · rw [if_neg he, show d.e.toNat = 0 by omega]
      simp only [Nat.pow_zero, Nat.mul_one]
      have hp := Nat.two_pow_pos (-d.e).toNat
      generalize (2 : Nat) ^ (-d.e).toNat = P at *
      generalize round53 (d.m * k) = R at *
      generalize d.m * k = M at *
      have h1 : R / P * P ≤ R := Nat.div_mul_le_self R P
      have h2 : R < (R / P + 1) * P := by
        rw [Nat.mul_comm]
        exact Nat.lt_mul_div_succ R hp
      generalize R / P * P = X at *
      generalize (R / P + 1) * P = Y at *
      omega

/-- **C82**: an integer value, whatever its size: off by at most two roundings. -/
theorem C82_near (E : Env) (i : Int) (unit : Bytes) (k : Nat) (hk : metricUnit unit = some k)
    (hlt : round53 (round53 i.natAbs * k) < 2 ^ 63) :
    ∃ n : Nat, readDuration (cell E (.int i) unit) = some (if i < 0 then -(n : Int) else n) ∧
      n * (2 ^ 53 * 2 ^ 53) ≤ i.natAbs * k * ((2 ^ 53 + 1) * (2 ^ 53 + 1)) ∧
      i.natAbs * k * ((2 ^ 53 - 1) * (2 ^ 53 - 1)) ≤ n * (2 ^ 53 * 2 ^ 53) := by
  obtain ⟨ha, hb⟩ := round_bounds i.natAbs
  obtain ⟨hc, hd⟩ := round_bounds (round53 i.natAbs * k)
  refine ⟨round53 (round53 i.natAbs * k), ?_, ?_, ?_⟩
  · unfold cell formatUnit value
    rw [factor_eq, hk]
    simp only [C82_reads]
    have : (mul ⟨decide (i < 0), round53 i.natAbs, 0⟩ k).trunc = if i < 0 then -((round53 (round53 i.natAbs * k) : Nat) : Int) else (round53 (round53 i.natAbs * k) : Nat) := by
      unfold mul Double.trunc
      simp
    unfold toDuration
    rw [this, if_pos]
    split <;> simpa using hlt
  · generalize round53 (round53 i.natAbs * k) = R at *
    generalize round53 i.natAbs = S at *
    calc R * (2 ^ 53 * 2 ^ 53) = R * 2 ^ 53 * 2 ^ 53 := by rw [Nat.mul_assoc]
      _ ≤ S * k * (2 ^ 53 + 1) * 2 ^ 53 := Nat.mul_le_mul_right _ hc
      _ = S * 2 ^ 53 * (k * (2 ^ 53 + 1)) := by rw [Nat.mul_right_comm (S * k), Nat.mul_right_comm S k, Nat.mul_assoc]
      _ ≤ i.natAbs * (2 ^ 53 + 1) * (k * (2 ^ 53 + 1)) := Nat.mul_le_mul_right _ ha
      _ = _ := by rw [Nat.mul_mul_mul_comm]
  · generalize round53 (round53 i.natAbs * k) = R at *
    generalize round53 i.natAbs = S at *
    calc i.natAbs * k * ((2 ^ 53 - 1) * (2 ^ 53 - 1)) = i.natAbs * (2 ^ 53 - 1) * (k * (2 ^ 53 - 1)) := by rw [Nat.mul_mul_mul_comm]
      _ ≤ S * 2 ^ 53 * (k * (2 ^ 53 - 1)) := Nat.mul_le_mul_right _ hb
      _ = S * k * (2 ^ 53 - 1) * 2 ^ 53 := by rw [Nat.mul_right_comm (S * k), Nat.mul_right_comm S k, Nat.mul_assoc (S * 2 ^ 53)]
      _ ≤ R * 2 ^ 53 * 2 ^ 53 := Nat.mul_le_mul_right _ hd
      _ = _ := by rw [Nat.mul_assoc]

/-- **C82**: any other unit, among them `us`, `min` and `d`, is not looked at: the number is shown as it is, but for bytes. -/
theorem C82_other (E : Env) (n : Number) (unit : Bytes) (h : metricUnit unit = none) :
    cell E n unit = if unit = ascii "By" then E.iBytes (value n) else E.sprint (value n) := by
  unfold cell formatUnit
  rw [factor_eq, h]
  rfl

example : metricUnit (ascii "us") = none ∧ metricUnit (ascii "min") = none ∧ metricUnit [] = none := by decide

/-- An hour and a half and a nanosecond; the first integer that is not shown exactly; a double of 1.5 s. -/
example (E : Env) : durText 5400000000001 = ascii "1h30m0.000000001s" ∧ durText (-1500) = 45 :: ascii "1.5" ++ [194, 181, 115] ∧
    cell E (.int (2 ^ 53 + 1)) (ascii "ns") = cell E (.int (2 ^ 53)) (ascii "ns") ∧
    cell E (.double ⟨false, 3, -1⟩) (ascii "s") = ascii "1.5s" ∧ metricUnit (ascii "ms") = some 1000000 ∧ (90 : Int).natAbs * 1000000 < 2 ^ 53 := by
  have h1 : durText 5400000000001 = ascii "1h30m0.000000001s" ∧ durText (-1500) = 45 :: ascii "1.5" ++ [194, 181, 115] := by decide +kernel
  have h2 : round53 (2 ^ 53 + 1) = round53 (2 ^ 53) := by decide +kernel
  have h3 : (mul ⟨false, 3, -1⟩ 1000000000).trunc = 1500000000 ∧ durText 1500000000 = ascii "1.5s" := by decide +kernel
  refine ⟨h1.1, h1.2, ?_, ?_, by decide, by decide⟩
  · unfold cell value
    simp only [show Int.natAbs (2 ^ 53 + 1) = 2 ^ 53 + 1 from rfl, show Int.natAbs (2 ^ 53) = 2 ^ 53 from rfl, h2]
    rfl
  · show durText (toDuration E (mul ⟨false, 3, -1⟩ 1000000000)) = _
    unfold toDuration
    rw [h3.1, if_pos (by decide), h3.2]

end Verif.Un
