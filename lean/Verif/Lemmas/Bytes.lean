import Verif.Model.Bytes
/-! Helper lemmas on decimal printing and big-endian integers. -/
namespace Verif

def isDigit (b : UInt8) : Prop := 48 ≤ b.toNat ∧ b.toNat < 58

theorem digit_toNat {d : Nat} (h : d < 10) : (digit d).toNat = 48 + d := by
  simp only [digit, UInt8.toNat_ofNat']; omega

theorem digit_isDigit {d : Nat} (h : d < 10) : isDigit (digit d) := by
  simp only [isDigit, digit_toNat h]; omega

theorem digit_inj {a b : Nat} (ha : a < 10) (hb : b < 10) (h : digit a = digit b) : a = b := by
  have := congrArg UInt8.toNat h
  rw [digit_toNat ha, digit_toNat hb] at this; omega

theorem decFuel_eq {f g n : Nat} (hf : n < f) (hg : n < g) : decFuel f n = decFuel g n := by
  induction f generalizing g n with
  | zero => omega
  | succ f ih =>
    cases g with
    | zero => omega
    | succ g =>
      simp only [decFuel]
      split
      · rfl
      · rw [ih (n := n / 10) (g := g) (by omega) (by omega)]

theorem dec_eq (n : Nat) : dec n = if n < 10 then [digit n] else dec (n / 10) ++ [digit (n % 10)] := by
  conv => lhs; unfold dec; unfold decFuel
  split
  · rfl
  · rw [decFuel_eq (g := n / 10 + 1) (by omega) (by omega)]; rfl

theorem dec_digits (n : Nat) : ∀ b ∈ dec n, isDigit b := by
  induction n using Nat.strongRecOn with
  | _ n ih =>
    rw [dec_eq]
    split
    · simp only [List.mem_singleton, forall_eq]; exact digit_isDigit (by assumption)
    · intro b hb
      rcases List.mem_append.1 hb with hb | hb
      · exact ih (n / 10) (by omega) b hb
      · rw [List.mem_singleton.1 hb]; exact digit_isDigit (by omega)

theorem dec_ne_nil (n : Nat) : dec n ≠ [] := by
  rw [dec_eq]; split <;> simp

theorem dec_injective {a b : Nat} (h : dec a = dec b) : a = b := by
  induction a using Nat.strongRecOn generalizing b with
  | _ a ih =>
    rw [dec_eq a, dec_eq b] at h
    by_cases ha : a < 10 <;> by_cases hb : b < 10
    · rw [if_pos ha, if_pos hb] at h
      exact digit_inj ha hb (by simpa using h)
    · rw [if_pos ha, if_neg hb] at h
      have := congrArg List.length h
      have h2 : (dec (b / 10)).length ≠ 0 := by simp [dec_ne_nil]
      simp at this; exact absurd this (dec_ne_nil _)
    · rw [if_neg ha, if_pos hb] at h
      have := congrArg List.length h
      simp at this; exact absurd this (dec_ne_nil _)
    · rw [if_neg ha, if_neg hb] at h
      obtain ⟨h1, h2⟩ := List.append_inj' h rfl
      have e1 := ih (a / 10) (by omega) h1
      have e2 := digit_inj (by omega) (by omega) (List.singleton_inj.1 h2)
      omega

/-- No byte of a printed integer is the separator `:` (58). -/
theorem decInt_no_colon (i : Int) : ∀ b ∈ decInt i, b ≠ 58 := by
  intro b hb he
  subst he
  cases i with
  | ofNat n => have := dec_digits n _ hb; simp [isDigit] at this
  | negSucc n =>
    rcases List.mem_cons.1 hb with h | h
    · simp at h
    · have := dec_digits _ _ h; simp [isDigit] at this

theorem decInt_injective {a b : Int} (h : decInt a = decInt b) : a = b := by
  have key : ∀ (n m : Nat), dec n ≠ 45 :: dec m := by
    intro n m e
    have := dec_digits n 45 (by rw [e]; simp)
    simp [isDigit] at this
  cases a <;> cases b <;> simp only [decInt] at h
  · rw [dec_injective h]
  · exact absurd h (key _ _)
  · exact absurd h.symm (key _ _)
  · have := dec_injective (List.cons.inj h).2
    congr 1; omega

theorem decInt_natCast (n : Nat) : decInt (n : Int) = dec n := rfl

/-- Two strings split at their first separator the same way. -/
theorem split_sep {α : Type} {s : α} : ∀ {a b x y : List α}, (∀ c ∈ a, c ≠ s) → (∀ c ∈ b, c ≠ s) →
    a ++ s :: x = b ++ s :: y → a = b ∧ x = y
  | [], [], _, _, _, _, h => by simpa using h
  | [], c :: b, _, _, _, hb, h => by
    have := (List.cons.inj h).1
    exact absurd this.symm (hb c (by simp))
  | c :: a, [], _, _, ha, _, h => by
    have := (List.cons.inj h).1
    exact absurd this (ha c (by simp))
  | c :: a, d :: b, x, y, ha, hb, h => by
    obtain ⟨h1, h2⟩ := List.cons.inj h
    obtain ⟨h3, h4⟩ := split_sep (fun e he => ha e (by simp [he])) (fun e he => hb e (by simp [he])) h2
    exact ⟨by rw [h1, h3], h4⟩

theorem byteAt_toNat (v i : Nat) : (byteAt v i).toNat = v / 256 ^ i % 256 := by
  simp only [byteAt, UInt8.toNat_ofNat']; omega

theorem u64tob_length (v : Nat) : (u64tob v).length = 8 := rfl

theorem btou64_u64tob_append (v : Nat) (r : Bytes) : btou64 (u64tob v ++ r) = some (v % 2 ^ 64) := by
  simp only [u64tob, List.cons_append, btou64, byteAt_toNat, Option.some.injEq]
  omega

theorem btou64_u64tob (v : Nat) : btou64 (u64tob v) = some (v % 2 ^ 64) := by
  simpa using btou64_u64tob_append v []

theorem u64tob_inj {a b : Nat} (ha : a < 2 ^ 64) (hb : b < 2 ^ 64) (h : u64tob a = u64tob b) : a = b := by
  have := congrArg btou64 h
  rw [btou64_u64tob, btou64_u64tob, Option.some.injEq, Nat.mod_eq_of_lt ha, Nat.mod_eq_of_lt hb] at this
  exact this

end Verif
