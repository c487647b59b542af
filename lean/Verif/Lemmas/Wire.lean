import Verif.Spec.Wire
import Verif.Lemmas.Quote
import Mathlib.Tactic.Ring
import Mathlib.Tactic.Linarith
/-!
# The pieces of the wire format
-/
namespace Verif.Pb

theorem toNat_ofNat {n : Nat} (h : n < 256) : (UInt8.ofNat n).toNat = n := by
  rw [UInt8.toNat_ofNat']; exact Nat.mod_eq_of_lt h

/-! ## Varints -/

theorem varint_base (n : Nat) : Base128 (varint n) n := by
  induction n using Nat.strongRecOn with
  | _ n ih =>
  rw [varint]
  split
  · rename_i h
    have := Base128.last (UInt8.ofNat n) (by rw [toNat_ofNat (by omega)]; exact h)
    rwa [toNat_ofNat (by omega)] at this
  · rename_i h
    have e : (UInt8.ofNat (n % 128 + 128)).toNat = n % 128 + 128 := toNat_ofNat (by omega)
    have := Base128.more (UInt8.ofNat (n % 128 + 128)) (by rw [e]; omega) (ih (n / 128) (by omega))
    rw [e] at this
    have e2 : n % 128 + 128 - 128 + 128 * (n / 128) = n := by omega
    rwa [e2] at this

theorem varint_length (k n : Nat) (h : n < 128 ^ (k + 1)) : (varint n).length ≤ k + 1 := by
  induction k generalizing n with
  | zero => rw [varint, if_pos (by simpa using h)]; simp
  | succ k ih =>
    rw [varint]
    split
    · simp
    · rw [List.length_cons]
      have := ih (n / 128) (by rw [Nat.div_lt_iff_lt_mul (by decide), ← Nat.pow_succ]; exact h)
      omega

theorem varint_ok {n : Nat} (h : n < 2 ^ 64) : Varint (varint n) n :=
  ⟨varint_base n, varint_length 9 n (Nat.lt_trans h (by decide)), h⟩

theorem base_ne {b : Bytes} {n : Nat} (h : Base128 b n) : b ≠ [] := by cases h <;> simp

theorem varint_ne (n : Nat) : varint n ≠ [] := base_ne (varint_base n)

theorem varintFrom_base {b : Bytes} {n : Nat} (h : Base128 b n) (i : Nat) (hi : i ≤ 9) (hl : b.length ≤ 10 - i) (hn : n < 2 ^ (64 - 7 * i))
    (r : Bytes) : varintFrom i (b ++ r) = some (n, r) := by
  induction h generalizing i with
  | last c hc =>
    simp only [List.cons_append, List.nil_append]
    rw [varintFrom]
    split
    · rename_i h9
      subst h9
      rw [if_pos (by simpa using hn)]
    · rfl
  | @more c t n hc ht ih =>
    rw [List.cons_append, varintFrom]
    have hpos : 0 < t.length := List.length_pos_iff.2 (base_ne ht)
    rw [List.length_cons] at hl
    rw [if_neg (by omega), if_neg (by omega)]
    have hn' : n < 2 ^ (64 - 7 * (i + 1)) := by
      have e : 2 ^ (64 - 7 * i) = 128 * 2 ^ (64 - 7 * (i + 1)) := by
        rw [show 64 - 7 * i = 7 + (64 - 7 * (i + 1)) by omega, Nat.pow_add]
      rw [e] at hn
      generalize 2 ^ (64 - 7 * (i + 1)) = q at *
      omega
    rw [ih (i + 1) (by omega) (by omega) hn']

theorem readVarint_ok {b : Bytes} {n : Nat} (h : Varint b n) (r : Bytes) : readVarint (b ++ r) = some (n, r) :=
  varintFrom_base h.1 0 (by omega) h.2.1 (by simpa using h.2.2) r

theorem readBytes_ok {s b : Bytes} (h : Delimited s b) (r : Bytes) : readBytes (b ++ r) = some (s, r) := by
  obtain ⟨l, hl, rfl⟩ := h
  unfold readBytes
  rw [List.append_assoc, readVarint_ok hl]
  simp

/-- The shortest varint is the one that is written. -/
theorem base_length {b : Bytes} {n : Nat} (h : Base128 b n) : (varint n).length ≤ b.length := by
  induction h with
  | last c hc => rw [varint, if_pos hc]; simp
  | @more c t n hc ht ih =>
    rw [varint]
    split
    · simp
    · have : (c.toNat - 128 + 128 * n) / 128 = n := by have := c.toNat_lt; omega
      rw [this]; simp only [List.length_cons]; omega

theorem base_eq {b : Bytes} {n : Nat} (h : Base128 b n) (hl : b.length ≤ (varint n).length) : b = varint n := by
  induction h with
  | last c hc => rw [varint, if_pos hc]; simp
  | @more c t n hc ht ih =>
    have hpos : 0 < t.length := List.length_pos_iff.2 (base_ne ht)
    rw [varint] at hl ⊢
    split at hl
    · simp only [List.length_cons, List.length_nil] at hl; omega
    · rename_i h1
      rw [if_neg h1]
      have hlt := c.toNat_lt
      have e : (c.toNat - 128 + 128 * n) / 128 = n := by omega
      have e2 : (c.toNat - 128 + 128 * n) % 128 + 128 = c.toNat := by omega
      rw [e] at hl
      rw [e, e2, ← ih (by simp only [List.length_cons] at hl; omega)]
      simp

theorem shortest_iff {b : Bytes} {n : Nat} (hn : n < 2 ^ 64) : Shortest b n ↔ b = varint n := by
  constructor
  · intro h
    exact base_eq h.1.1 (h.2 _ (varint_base n))
  · rintro rfl
    exact ⟨varint_ok hn, fun b' h => base_length h⟩

/-! ## Fixed numbers -/

theorem fixed_length (k n : Nat) : (fixed k n).length = k := by
  induction k generalizing n with
  | zero => rfl
  | succ k ih => rw [fixed, List.length_cons, ih]

theorem fixed_low (k n : Nat) (h : n < 256 ^ k) : LowFirst (fixed k n) n := by
  induction k generalizing n with
  | zero => rw [Nat.pow_zero] at h; have : n = 0 := by omega
            subst this; exact .nil
  | succ k ih =>
    rw [fixed]
    have := LowFirst.cons (UInt8.ofNat (n % 256)) (ih (n / 256) (by rw [Nat.div_lt_iff_lt_mul (by decide), ← Nat.pow_succ]; exact h))
    rw [toNat_ofNat (by omega)] at this
    have e : n % 256 + 256 * (n / 256) = n := by omega
    rwa [e] at this

theorem low_eq {b : Bytes} {n : Nat} (h : LowFirst b n) : littleEndian b = n := by
  induction h with
  | nil => rfl
  | cons c _ ih => rw [littleEndian, ih]

theorem readFixed_ok {b : Bytes} {k n : Nat} (hl : b.length = k) (h : LowFirst b n) (r : Bytes) : readFixed k (b ++ r) = some (n, r) := by
  subst hl
  unfold readFixed
  simp [low_eq h]

/-! ## Numbers -/

theorem number_ne {k : Kind} {n : Nat} {b : Bytes} (h : Number k n b) : b ≠ [] := by
  obtain ⟨h1, h2⟩ := h
  cases k
  case enum => obtain ⟨w, h, -⟩ := h2; exact base_ne h.1
  case sint32 => obtain ⟨w, h, -⟩ := h2; exact base_ne h.1
  case fixed32 => intro e; rw [e] at h2; simp at h2
  case fixed64 => intro e; rw [e] at h2; simp at h2
  all_goals exact base_ne h2.1

theorem readNum_ok {k : Kind} {n : Nat} {b : Bytes} (h : Number k n b) (r : Bytes) : readNum k (b ++ r) = some (n, r) := by
  obtain ⟨h1, h2⟩ := h
  cases k
  case bool =>
    rw [readNum, readVarint_ok h2]
    have : n < 2 := h1
    simp only [Option.map_some, Option.some.injEq, Prod.mk.injEq, and_true]
    split <;> omega
  case enum =>
    obtain ⟨w, hw, e⟩ := h2
    have hr : n < 2 ^ 32 := h1
    rw [readNum, readVarint_ok hw]
    simp only [Option.map_some, Option.some.injEq, Prod.mk.injEq, and_true]
    unfold signed32 at e
    split at e <;> omega
  case uint32 =>
    have hr : n < 2 ^ 32 := h1
    rw [readNum, readVarint_ok h2]
    simp only [Option.map_some, Option.some.injEq, Prod.mk.injEq, and_true]
    omega
  case sint32 =>
    obtain ⟨w, hw, e⟩ := h2
    have hr : n < 2 ^ 32 := h1
    rw [readNum, readVarint_ok hw]
    simp only [Option.map_some, Option.some.injEq, Prod.mk.injEq, and_true]
    unfold signed32 at e
    by_cases hn : n < 2 ^ 31
    · rw [if_pos hn, if_pos (by omega)] at e
      have e1 : w % 2 ^ 32 = 2 * n := by omega
      rw [e1, if_pos (by omega)]; omega
    · rw [if_neg hn, if_neg (by omega)] at e
      have e1 : w % 2 ^ 32 = 2 * (2 ^ 32 - n) - 1 := by omega
      rw [e1, if_neg (by omega)]; omega
  case fixed32 => exact readFixed_ok h2.1 h2.2 r
  case fixed64 => exact readFixed_ok h2.1 h2.2 r
  all_goals exact readVarint_ok h2 r

theorem encNum_ok {k : Kind} {n : Nat} (h : n < k.range) : Number k n (encNum k n) := by
  refine ⟨h, ?_⟩
  cases k
  case enum =>
    have hr : n < 2 ^ 32 := h
    refine ⟨_, varint_ok ?_, ?_⟩
    · split <;> omega
    · unfold signed32; split <;> omega
  case sint32 =>
    have hr : n < 2 ^ 32 := h
    refine ⟨_, varint_ok ?_, ?_⟩
    · split <;> omega
    · unfold signed32; split <;> split <;> omega
  case fixed32 => exact ⟨fixed_length _ _, fixed_low _ _ (Nat.lt_of_lt_of_le h (by decide))⟩
  case fixed64 => exact ⟨fixed_length _ _, fixed_low _ _ (Nat.lt_of_lt_of_le h (by decide))⟩
  case bool => exact varint_ok (Nat.lt_of_lt_of_le h (by decide))
  case uint32 => exact varint_ok (Nat.lt_of_lt_of_le h (by decide))
  case int64 => exact varint_ok h
  case uint64 => exact varint_ok h
  all_goals exact absurd h (Nat.not_lt_zero _)

theorem numbers_length {k : Kind} {l : List Nat} {b : Bytes} (h : Numbers k l b) : l.length ≤ b.length := by
  induction h with
  | nil => simp
  | cons h1 _ ih => have := List.length_pos_iff.2 (number_ne h1); simp; omega

theorem readNums_ok {k : Kind} {l : List Nat} {b : Bytes} (h : Numbers k l b) (fuel : Nat) (hf : l.length ≤ fuel) : readNums k fuel b = some l := by
  induction h generalizing fuel with
  | nil => cases fuel <;> rfl
  | @cons n l b r h1 h2 ih =>
    obtain ⟨c, b', rfl⟩ := List.exists_cons_of_ne_nil (number_ne h1)
    cases fuel with
    | zero => simp at hf
    | succ fuel =>
      have := readNum_ok h1 r
      rw [List.cons_append] at this ⊢
      rw [readNums, this]
      · simp only [ih fuel (by simpa using hf), Option.map_some]
      · simp

theorem encNums_ok {k : Kind} {l : List Nat} (h : ∀ n ∈ l, n < k.range) : Numbers k l (l.flatMap (encNum k)) := by
  induction l with
  | nil => exact .nil
  | cons n l ih => exact .cons (encNum_ok (h n (by simp))) (ih fun m hm => h m (by simp [hm]))

/-! ## Strings -/

theorem char_length (c : Char) : 0 < (String.utf8EncodeChar c).length := by
  rcases Qt.utf8_bytes c with ⟨-, h⟩ | ⟨-, h, -⟩
  · rw [h]; simp
  · omega

theorem validUtf8_cons {b : UInt8} {s t : Bytes} {c : Char} (e : b :: s = String.utf8EncodeChar c ++ t)
    (hf : Qt.front b s = (c.toNat, (String.utf8EncodeChar c).length)) : validUtf8 (b :: s) = validUtf8 t := by
  rw [validUtf8, hf]
  have h1 : ¬ ((String.utf8EncodeChar c).length = 1 ∧ c.toNat = Qt.runeError) := by
    rintro ⟨h1, h2⟩
    rcases Qt.utf8_bytes c with ⟨h, -⟩ | ⟨-, h, -⟩
    · unfold Qt.runeError at h2; omega
    · omega
  have h2 : s.drop ((String.utf8EncodeChar c).length - 1) = t := by
    have := congrArg (List.drop (String.utf8EncodeChar c).length) e
    rw [List.drop_left] at this
    rw [← this]
    obtain ⟨k, hk⟩ := Nat.exists_eq_add_of_lt (char_length c)
    rw [hk]; simp
  simp only [h2]
  have : ((String.utf8EncodeChar c).length == 1 && c.toNat == Qt.runeError) = false := by
    rw [Bool.eq_false_iff]; intro h; apply h1; simpa using h
  rw [this]; rfl

theorem validUtf8_iff (s : Bytes) : validUtf8 s = true ↔ Utf8 s := by
  generalize hn : s.length = n
  induction n using Nat.strongRecOn generalizing s with
  | _ n ih =>
  cases s with
  | nil => rw [validUtf8]; exact ⟨fun _ => ⟨[], rfl⟩, fun _ => rfl⟩
  | cons b s =>
    constructor
    · intro h
      rcases Qt.front_cases b s with ⟨hf, -⟩ | ⟨c, t, e, hf⟩
      · rw [validUtf8, hf] at h; simp at h
      · rw [validUtf8_cons e hf] at h
        have hl := congrArg List.length e
        have := char_length c
        simp only [List.length_append, List.length_cons] at hl hn
        obtain ⟨cs, hc⟩ := (ih t.length (by omega) t rfl).1 h
        exact ⟨c :: cs, by rw [e, hc]; rfl⟩
    · rintro ⟨cs, e⟩
      cases cs with
      | nil => cases e
      | cons c cs =>
        have e' : b :: s = String.utf8EncodeChar c ++ Qt.utf8 cs := e
        obtain ⟨b', t', h1, h2⟩ := Qt.front_char c (Qt.utf8 cs)
        have e2 := e'
        rw [h1, List.cons_append, List.cons.injEq] at e2
        obtain ⟨rfl, rfl⟩ := e2
        rw [validUtf8_cons e' (by rw [h2, h1]; rfl)]
        have hl := congrArg List.length e'
        have := char_length c
        simp only [List.length_append, List.length_cons] at hl hn
        exact (ih _ (by omega) _ rfl).2 ⟨cs, rfl⟩

end Verif.Pb
