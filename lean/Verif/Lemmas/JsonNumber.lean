import Verif.Lemmas.JsonWrite
import Verif.Lemmas.Decimal
import Verif.Props.Float
/-!
# Numbers in JSON
-/
namespace Verif.Jn
open Un (isDig)
open Fp (Dec)

theorem digits_of_natText {n : Nat} {s : Bytes} (h : NatText n s) : Digits s ∧ (s.head? = some 48 → s = [48]) := by
  obtain ⟨h1, h2, h3, -⟩ := h
  refine ⟨⟨h1, fun b hb => ?_⟩, h3⟩
  have := h2 b hb
  unfold isDig
  simp only [Bool.and_eq_true, decide_eq_true_eq]
  omega

theorem number_of_natText {n : Nat} {s : Bytes} (h : NatText n s) : Number s := by
  obtain ⟨h1, h2⟩ := digits_of_natText h
  exact ⟨[], s, [], [], by simp, .inl rfl, ⟨h1, h2⟩, .inl rfl, .inl rfl⟩

theorem number_of_intText {i : Int} {s : Bytes} (h : IntText i s) : Number s := by
  rcases h with ⟨-, h⟩ | ⟨-, t, rfl, h⟩
  · exact number_of_natText h
  · obtain ⟨h1, h2⟩ := digits_of_natText h
    exact ⟨[45], t, [], [], by simp, .inr rfl, ⟨h1, h2⟩, .inl rfl, .inl rfl⟩

theorem isDig_toNat {b : UInt8} (h : isDig b = true) : 48 ≤ b.toNat ∧ b.toNat < 58 := by
  unfold isDig at h
  simpa only [Bool.and_eq_true, decide_eq_true_eq] using h

/-- A number without exponent: `int`, and `frac`. -/
theorem fmtF_parts {d : Dec} (hd : ∀ b ∈ d.digits, isDig b = true) (h0 : d.digits.head? ≠ some 48) (h1 : d.digits ≠ [] ∨ d.dp = 0) :
    ∃ int frac, Fp.fmtF d = int ++ frac ∧ (Digits int ∧ (int.head? = some 48 → int = [48])) ∧ (frac = [] ∨ ∃ ds, frac = 46 :: ds ∧ Digits ds) := by
  refine ⟨_, _, rfl, ?_, ?_⟩
  · by_cases hdp : 0 < d.dp
    · rw [if_pos hdp]
      have hne : d.digits ≠ [] := h1.resolve_right (by omega)
      obtain ⟨c, cs, hc⟩ := List.exists_cons_of_ne_nil hne
      obtain ⟨k, hk⟩ : ∃ k, d.dp.toNat = k + 1 := ⟨d.dp.toNat - 1, by omega⟩
      rw [hc] at h0 hd ⊢
      rw [hk, List.take_succ_cons]
      refine ⟨⟨by simp, ?_⟩, ?_⟩
      · intro b hb
        simp only [List.cons_append, List.mem_cons, List.mem_append] at hb
        rcases hb with rfl | hb | hb
        · exact hd _ List.mem_cons_self
        · exact hd b (List.mem_cons_of_mem _ (List.mem_of_mem_take hb))
        · rw [List.eq_of_mem_replicate hb]; decide
      · intro h; exact absurd h h0
    · rw [if_neg hdp]
      exact ⟨⟨by simp, fun b hb => by rw [List.mem_singleton.1 hb]; decide⟩, fun _ => rfl⟩
  · by_cases hp : 0 < ((d.digits.length : Int) - d.dp).toNat
    · rw [if_pos hp]
      refine .inr ⟨_, rfl, ?_, ?_⟩
      · intro h
        have := congrArg List.length h
        simp at this
        omega
      · intro b hb
        obtain ⟨i, -, rfl⟩ := List.mem_map.1 hb
        unfold Fp.fracDigit
        dsimp only
        split
        · rename_i h
          rw [List.getD_eq_getElem?_getD, List.getElem?_eq_getElem (by omega), Option.getD_some]
          exact hd _ (List.getElem_mem _)
        · decide
    · rw [if_neg hp]
      exact .inl rfl

theorem trim4 (p : Bytes) (a b c d : UInt8) : trimExp (p ++ [a, b, c, d]) = if a = 101 ∧ b = 45 ∧ c = 48 then p ++ [a, b, d] else p ++ [a, b, c, d] := by
  have hn : (p ++ [a, b, c, d]).length = p.length + 4 := by simp
  have h4 : (p ++ [a, b, c, d])[p.length]? = some a := by rw [List.getElem?_append_right (by omega)]; simp
  have h3 : (p ++ [a, b, c, d])[p.length + 1]? = some b := by rw [List.getElem?_append_right (by omega)]; simp
  have h2 : (p ++ [a, b, c, d])[p.length + 2]? = some c := by rw [List.getElem?_append_right (by omega)]; simp
  unfold trimExp
  simp only [hn]
  rw [show p.length + 4 - 4 = p.length by omega, show p.length + 4 - 3 = p.length + 1 by omega, show p.length + 4 - 2 = p.length + 2 by omega,
    show p.length + 4 - 1 = p.length + 3 by omega, h4, h3, h2]
  simp only [Option.some.injEq, Nat.le_add_left, true_and]
  have e1 : (p ++ [a, b, c, d]).take (p.length + 2) = p ++ [a, b] := by
    rw [List.take_length_add_append]
    rfl
  have e2 : (p ++ [a, b, c, d]).drop (p.length + 3) = [d] := by
    rw [List.drop_length_add_append]
    rfl
  rw [e1, e2]
  simp

/-- The digits of an exponent, and its sign. -/
theorem trimExp_text (p : Bytes) (x : Int) : ∃ ds, Digits ds ∧ trimExp (p ++ 101 :: Fp.expText x) = p ++ 101 :: (if x < 0 then 45 else 43) :: ds ∧
    digitsValue ds = digitsValue (Fp.expDigits x.natAbs) := by
  have hd := Fp.expDigits_dig x.natAbs
  have hs : (if x < 0 then (45 : UInt8) else 43) ≠ 101 := by split <;> decide
  rw [Fp.expText_eq]
  generalize (if x < 0 then (45 : UInt8) else 43) = sg at hs
  have h : (∃ a b, Fp.expDigits x.natAbs = [a, b]) ∨ ∃ a b c, Fp.expDigits x.natAbs = [a, b, c] := by
    unfold Fp.expDigits
    split
    · exact .inl ⟨_, _, rfl⟩
    · split
      · exact .inl ⟨_, _, rfl⟩
      · exact .inr ⟨_, _, _, rfl⟩
  rcases h with ⟨a, b, h⟩ | ⟨a, b, c, h⟩
  · rw [h] at hd ⊢
    rw [trim4]
    split
    · rename_i hc
      obtain ⟨-, -, rfl⟩ := hc
      refine ⟨[b], ⟨by simp, fun y hy => hd y (List.mem_cons_of_mem _ hy)⟩, rfl, by simp [digitsValue]⟩
    · exact ⟨[a, b], ⟨by simp, hd⟩, rfl, rfl⟩
  · rw [h] at hd ⊢
    have := trim4 (p ++ [101]) sg a b c
    rw [if_neg (fun hc => hs hc.1)] at this
    simp only [List.append_assoc, List.cons_append, List.nil_append] at this
    exact ⟨[a, b, c], ⟨by simp, hd⟩, this, rfl⟩

/-- The text of `d` with an exponent. -/
theorem trimmed {sign : Bytes} {d : Dec} (hd : ∀ b ∈ d.digits, isDig b = true) (h1 : d.digits ≠ []) :
    ∃ c cs ds, d.digits = c :: cs ∧ Digits ds ∧ digitsValue ds = digitsValue (Fp.expDigits (d.dp - 1).natAbs) ∧
      trimExp (sign ++ Fp.fmtE d) = sign ++ ([c] ++ ((if cs = [] then [] else 46 :: cs) ++ 101 :: (if d.dp - 1 < 0 then 45 else 43) :: ds)) := by
  obtain ⟨digits, dp⟩ := d
  cases digits with
  | nil => exact absurd rfl h1
  | cons c cs =>
    obtain ⟨ds, g1, g2, g3⟩ := trimExp_text (sign ++ ([c] ++ if cs = [] then [] else 46 :: cs)) (dp - 1)
    refine ⟨c, cs, ds, rfl, g1, g3, ?_⟩
    have e : Fp.fmtE ⟨c :: cs, dp⟩ = [c] ++ ((if cs = [] then [] else 46 :: cs) ++ (101 :: Fp.expText (dp - 1))) := by
      cases cs <;> simp [Fp.fmtE]
    rw [e]
    simp only [List.append_assoc] at g2 ⊢
    exact g2

variable {shortest : Nat → Int → Dec}

theorem mantissa_zero {bits : Nat} (h : Fp.mantissa bits = 0) : bits % 2 ^ 63 = 0 := by
  unfold Fp.mantissa at h
  split at h
  · rename_i he
    unfold Fp.expBits at he
    unfold Fp.fracBits at h
    omega
  · exact absurd h (by positivity)

theorem sign_or (bits : Nat) : (if Fp.signBit bits then [45] else [] : Bytes) = [] ∨ (if Fp.signBit bits then [45] else [] : Bytes) = [45] := by
  cases Fp.signBit bits
  · exact .inl rfl
  · exact .inr rfl

/-- A finite double is a number, and what it is read as. -/
theorem double_text (S : Fp.Right shortest) {bits : Nat} (h : Fp.Finite bits) :
    ∃ s q, double shortest bits = .num s ∧ Number s ∧ Fp.readNumber s = some (Fp.negative bits, q) ∧ Fp.Reads q (Fp.absValue bits) := by
  unfold double
  rw [if_neg ((Fp.finite_iff _).1 h)]
  dsimp only
  by_cases hm : Fp.mantissa bits = 0
  · rw [if_neg (fun hc => hc.1 (mantissa_zero hm)), hm]
    refine ⟨_, 0, rfl, ?_, ?_, ?_⟩
    · exact ⟨_, [48], [], [], by simp [Fp.digitsOf, Fp.fmtF], sign_or bits, ⟨⟨by simp, by decide⟩, fun _ => rfl⟩, .inl rfl, .inl rfl⟩
    · have : Fp.readAbs (Fp.fmtF ⟨[], 0⟩) = some (⟨[], 0⟩ : Dec).value := Fp.read_fmtF (by simp) (.inr rfl)
      rw [← Fp.negative_eq]
      refine Fp.readNumber_sign ?_ _
      simpa [Fp.digitsOf, Dec.value, digitsValue] using this
    · rw [Fp.absValue_eq, hm]
      simpa using Fp.reads_self Fp.isDouble_zero
  · obtain ⟨hv, hs⟩ := Fp.right_bits S bits h hm
    have hne := Fp.least_pos hv hs
    have hx := Fp.exp_bound hv (Fp.bits_lt bits h) hs
    have hh := Fp.least_head hs
    have e : Fp.digitsOf shortest (Fp.mantissa bits) (Fp.exponent bits) = shortest (Fp.mantissa bits) (Fp.exponent bits) := if_neg hm
    rw [e]
    split
    · obtain ⟨c, cs, ds, e1, g1, g2, g3⟩ := trimmed (sign := if Fp.signBit bits then [45] else []) hs.digits hne
      refine ⟨_, _, rfl, ?_, ?_, hs.reads⟩
      · rw [g3]
        refine ⟨_, [c], if cs = [] then [] else 46 :: cs, 101 :: (if (shortest (Fp.mantissa bits) (Fp.exponent bits)).dp - 1 < 0 then 45 else 43) :: ds, by simp, sign_or bits, ⟨⟨by simp, ?_⟩, fun _ => ?_⟩, ?_, ?_⟩
        · intro b hb
          rw [List.mem_singleton.1 hb]
          exact hs.digits c (by rw [e1]; exact List.mem_cons_self)
        · rw [e1] at hh
          rename_i hc
          exact absurd hc hh
        · split
          · exact .inl rfl
          · rename_i hcs
            exact .inr ⟨cs, rfl, hcs, fun b hb => hs.digits b (by rw [e1]; exact List.mem_cons_of_mem _ hb)⟩
        · refine .inr ⟨101, [if (shortest (Fp.mantissa bits) (Fp.exponent bits)).dp - 1 < 0 then 45 else 43], ds, by simp, .inl rfl, ?_, g1⟩
          split
          · exact .inr (.inr rfl)
          · exact .inr (.inl rfl)
      · rw [g3, ← Fp.negative_eq]
        refine Fp.readNumber_sign ?_ _
        have hex : Fp.readExp (101 :: (if (shortest (Fp.mantissa bits) (Fp.exponent bits)).dp - 1 < 0 then 45 else 43) :: ds) =
            some ((shortest (Fp.mantissa bits) (Fp.exponent bits)).dp - 1) := by
          have := Fp.readExp_text (x := (shortest (Fp.mantissa bits) (Fp.exponent bits)).dp - 1) (by omega)
          rw [Fp.expText_eq] at this
          have p1 : Fp.expDigits ((shortest (Fp.mantissa bits) (Fp.exponent bits)).dp - 1).natAbs ≠ [] ∧
              (Fp.expDigits ((shortest (Fp.mantissa bits) (Fp.exponent bits)).dp - 1).natAbs).all isDig = true :=
            ⟨Fp.expDigits_ne _, List.all_eq_true.2 (Fp.expDigits_dig _)⟩
          have p2 : ds ≠ [] ∧ ds.all isDig = true := ⟨g1.1, List.all_eq_true.2 g1.2⟩
          simp only [Fp.readExp, if_true] at this ⊢
          rw [if_pos p1] at this
          rw [if_pos p2, g2]
          exact this
        rw [Fp.readAbs_parts (fun b hb => by rw [List.mem_singleton.1 hb]; exact hs.digits c (by rw [e1]; exact List.mem_cons_self)) (by simp)
          (fun b hb => hs.digits b (by rw [e1]; exact List.mem_cons_of_mem _ hb)) hex (by
            intro b hb
            simp only [List.head?_cons, Option.some.injEq] at hb
            subst hb
            decide)]
        congr 1
        rw [Dec.value, e1]
        simp only [List.cons_append, List.nil_append, List.length_cons]
        congr 2
        push_cast
        ring
    · obtain ⟨int, frac, g1, g2, g3⟩ := fmtF_parts hs.digits hh (.inl hne)
      refine ⟨_, _, rfl, ?_, ?_, hs.reads⟩
      · rw [g1]
        exact ⟨_, int, frac, [], by simp, sign_or bits, g2, g3, .inl rfl⟩
      · rw [← Fp.negative_eq]
        exact Fp.readNumber_sign (Fp.read_fmtF hs.digits (.inl hne)) _

end Verif.Jn
