import Verif.Lemmas.Quote
import Verif.Props.RenderExact
/-! # C87: strings are shown as Go string literals -/
namespace Verif.Qt
open Rd (hexDigit)

/-- The characters that are shown as they are: those that Go finds printable. `above`: those above U+00FF. -/
def Shown (above : Nat → Bool) (c : Char) : Prop :=
  (0x20 ≤ c.toNat ∧ c.toNat < 0x7F) ∨ (0xA1 ≤ c.toNat ∧ c.toNat ≤ 0xFF ∧ c.toNat ≠ 0xAD) ∨ (0xFF < c.toNat ∧ above c.toNat = true)

theorem isPrint_iff (above : Nat → Bool) (c : Char) : isPrint above c.toNat = true ↔ Shown above c := by
  unfold isPrint Shown
  generalize c.toNat = n
  by_cases h : n ≤ 0xFF
  · rw [if_pos h]
    by_cases h1 : 0x20 ≤ n ∧ n < 0x7F
    · simp [h1.1, h1.2]
    · rw [if_neg (by simpa using h1)]
      by_cases h2 : 0xA1 ≤ n
      · simp [h, h2]; omega
      · rw [if_neg (by simp; omega)]; simp; omega
  · rw [if_neg h]
    constructor
    · intro e; exact .inr (.inr ⟨by omega, e⟩)
    · rintro (e | e | e)
      · omega
      · omega
      · exact e.2

/-- The text of one token. -/
def tok (above : Nat → Bool) : Char ⊕ UInt8 → Bytes
  | .inl c => escapedRune above c.toNat
  | .inr b => 92 :: 120 :: [hexDigit (b.toNat / 16), hexDigit (b.toNat % 16)]

theorem bad_ge {b : UInt8} {s : Bytes} (h : ∀ c, ¬ String.utf8EncodeChar c <+: b :: s) : front b s = (runeError, 1) := by
  rcases front_cases b s with ⟨h1, -⟩ | ⟨c, t, e, -⟩
  · exact h1
  · exact absurd ⟨t, e.symm⟩ (h c)

theorem quoteBody_reading (above : Nat → Bool) {s : Bytes} {l : List (Char ⊕ UInt8)} (h : Reading s l) : quoteBody above s = l.flatMap (tok above) := by
  induction h with
  | nil => rw [quoteBody]; rfl
  | @char c s l _ ih =>
    obtain ⟨b, t, e, hf⟩ := front_char c s
    have hn : ¬ (t.length + 1 = 1 ∧ c.toNat = runeError) := by
      rintro ⟨h1, h2⟩
      rcases utf8_bytes c with ⟨h3, -⟩ | ⟨-, h3, -⟩
      · rw [h2] at h3; unfold runeError at h3; omega
      · rw [e, List.length_cons] at h3; omega
    rw [e, List.cons_append, quoteBody, hf]
    dsimp only
    rw [if_neg hn, Nat.add_sub_cancel, List.drop_left, ih, List.flatMap_cons]; rfl
  | @bad b s l hb _ ih =>
    rw [quoteBody, bad_ge hb]
    dsimp only
    rw [if_pos ⟨rfl, rfl⟩, List.drop_zero, ih, List.flatMap_cons]; rfl

/-! ## Hexadecimal -/

theorem hexIs_digit {d : Nat} (h : d < 16) : HexIs (hexDigit d) d := by
  refine ⟨h, ?_⟩
  revert h
  revert d
  decide

theorem hexIs_eq {h : UInt8} {d : Nat} (e : HexIs h d) : h = hexDigit d := by
  obtain ⟨h1, c, h2, h3⟩ := e
  obtain ⟨-, c', h4, h5⟩ := hexIs_digit h1
  rw [h2] at h4
  cases h4
  exact UInt8.toNat_inj.1 (by omega)

theorem hexText_digits : ∀ (n r : Nat), r < 16 ^ n → HexText (hexDigits n r) r
  | 0, r, h => by
    have : r = 0 := by simp at h; exact h
    subst this; exact .nil
  | n + 1, r, h => by
    have h1 := hexText_digits n (r / 16) (by rw [Nat.div_lt_iff_lt_mul (by omega)]; rw [Nat.pow_succ] at h; exact h)
    have h2 := HexText.snoc h1 (hexIs_digit (d := r % 16) (by omega))
    rwa [Nat.div_add_mod] at h2

theorem hexDigits_length : ∀ n r, (hexDigits n r).length = n
  | 0, _ => rfl
  | n + 1, r => by simp [hexDigits, hexDigits_length n]

theorem hexDigit_inj {d e : Nat} (h : d < 16) (h' : e < 16) (he : hexDigit d = hexDigit e) : d = e := by
  have : ∀ d < 16, ∀ e < 16, hexDigit d = hexDigit e → d = e := by decide
  exact this d h e h' he

theorem hexText_fun {h : Bytes} {n m : Nat} (e : HexText h n) (e' : HexText h m) : n = m := by
  induction e generalizing m with
  | nil =>
    generalize hx : ([] : Bytes) = x at e'
    cases e' with
    | nil => rfl
    | snoc _ _ => simp at hx
  | @snoc h n c d h1 h2 ih =>
    generalize hx : h ++ [c] = x at e'
    cases e' with
    | nil => simp at hx
    | @snoc h' n' c' d' h1' h2' =>
      have := List.append_inj' hx rfl
      obtain ⟨rfl, hc⟩ := this
      cases hc
      have hn := ih h1'
      have hd : d = d' := hexDigit_inj h2.1 h2'.1 ((hexIs_eq h2).symm.trans (hexIs_eq h2'))
      omega

/-- Hexadecimal digits are shown as they are, and are not control bytes. -/
theorem hexDigit_line {d : Nat} (h : d < 16) : 32 ≤ (hexDigit d).toNat ∧ (hexDigit d).toNat < 127 := by revert h; revert d; decide

theorem hexDigits_line : ∀ (n r : Nat), ∀ b ∈ hexDigits n r, 32 ≤ b.toNat ∧ b.toNat < 127
  | 0, _, b, h => by simp [hexDigits] at h
  | n + 1, r, b, h => by
    simp only [hexDigits, List.mem_append, List.mem_singleton] at h
    rcases h with h | rfl
    · exact hexDigits_line n _ b h
    · exact hexDigit_line (by omega)

/-! ## Pieces -/

theorem Body.one {t s : Bytes} (h : Piece t s) : Body t s := by
  have := Body.cons h .nil
  simpa using this

theorem Body.append {t s t' s' : Bytes} (h : Body t s) (h' : Body t' s') : Body (t ++ t') (s ++ s') := by
  induction h with
  | nil => exact h'
  | cons hp _ ih => rw [List.append_assoc, List.append_assoc]; exact .cons hp ih

theorem Body.raws : ∀ {l : Bytes}, (∀ b ∈ l, b ≠ 34 ∧ b ≠ 92 ∧ b ≠ 10) → Body l l
  | [], _ => .nil
  | b :: l, h => by
    have hb := h b List.mem_cons_self
    exact .cons (t := [b]) (s := [b]) (.raw b hb.1 hb.2.1 hb.2.2) (Body.raws fun c hc => h c (List.mem_cons_of_mem _ hc))

/-- The bytes that a token stands for. -/
def bytesOf : Char ⊕ UInt8 → Bytes
  | .inl c => String.utf8EncodeChar c
  | .inr b => [b]

theorem reading_bytes {s : Bytes} {l : List (Char ⊕ UInt8)} (h : Reading s l) : l.flatMap bytesOf = s := by
  induction h with
  | nil => rfl
  | char _ ih => rw [List.flatMap_cons, ih]; rfl
  | bad _ _ ih => rw [List.flatMap_cons, ih]; rfl

theorem char_ascii {c : Char} (h : c.toNat < 0x80) : String.utf8EncodeChar c = [UInt8.ofNat c.toNat] := by
  rcases utf8_bytes c with h1 | h1
  · exact h1.2
  · omega

theorem char_eq {c d : Char} (h : c.toNat = d.toNat) : c = d := Char.ext (UInt32.toNat_inj.1 h)

/-- The cases of a character. -/
theorem escapedRune_cases (above : Nat → Bool) (c : Char) :
    ((c.toNat = 34 ∨ c.toNat = 92) ∧ escapedRune above c.toNat = [92, UInt8.ofNat c.toNat]) ∨
    ((c.toNat ≠ 34 ∧ c.toNat ≠ 92 ∧ Shown above c) ∧ escapedRune above c.toNat = String.utf8EncodeChar c) ∨
    (¬ Shown above c ∧ ((∃ x, (x, c.toNat) ∈ letters ∧ x.toNat < 0x80 ∧ escapedRune above c.toNat = [92, UInt8.ofNat x.toNat]) ∨
      (∀ x, (x, c.toNat) ∉ letters) ∧ (
        (c.toNat < 0x80 ∧ escapedRune above c.toNat = 92 :: 120 :: hexDigits 2 c.toNat) ∨
        (0x80 ≤ c.toNat ∧ c.toNat < 0x10000 ∧ escapedRune above c.toNat = 92 :: 117 :: hexDigits 4 c.toNat) ∨
        (0x10000 ≤ c.toNat ∧ escapedRune above c.toNat = 92 :: 85 :: hexDigits 8 c.toNat)))) := by
  have hc := char_range c
  unfold escapedRune
  by_cases h0 : c.toNat = 34 ∨ c.toNat = 92
  · left; rw [if_pos h0]; exact ⟨h0, rfl⟩
  right
  rw [if_neg h0]
  by_cases h1 : isPrint above c.toNat = true
  · left; rw [if_pos h1, encodeRune_char]; exact ⟨⟨fun h => h0 (.inl h), fun h => h0 (.inr h), (isPrint_iff above c).1 h1⟩, rfl⟩
  right
  rw [if_neg h1]
  refine ⟨fun h => h1 ((isPrint_iff above c).2 h), ?_⟩
  have hs : ¬ Shown above c := fun h => h1 ((isPrint_iff above c).2 h)
  unfold Shown at hs
  generalize c.toNat = n at hc hs h0
  by_cases h : n = 7; · subst h; left; exact ⟨'a', by decide, by decide, rfl⟩
  by_cases h : n = 8; · subst h; left; exact ⟨'b', by decide, by decide, rfl⟩
  by_cases h : n = 12; · subst h; left; exact ⟨'f', by decide, by decide, rfl⟩
  by_cases h : n = 10; · subst h; left; exact ⟨'n', by decide, by decide, rfl⟩
  by_cases h : n = 13; · subst h; left; exact ⟨'r', by decide, by decide, rfl⟩
  by_cases h : n = 9; · subst h; left; exact ⟨'t', by decide, by decide, rfl⟩
  by_cases h : n = 11; · subst h; left; exact ⟨'v', by decide, by decide, rfl⟩
  right
  refine ⟨fun x hx => by simp [letters] at hx; omega, ?_⟩
  rw [if_neg (by assumption), if_neg (by assumption), if_neg (by assumption), if_neg (by assumption), if_neg (by assumption), if_neg (by assumption), if_neg (by assumption)]
  by_cases ha : n < 32 ∨ n = 0x7F
  · left; rw [if_pos ha]; exact ⟨by omega, rfl⟩
  right
  rw [if_neg ha, if_neg (by omega)]
  by_cases hb : n < 0x10000
  · left; rw [if_pos hb]; exact ⟨by omega, hb, rfl⟩
  · right; rw [if_neg hb]; exact ⟨by omega, rfl⟩

theorem shown_line {above : Nat → Bool} {c : Char} (h : Shown above c) : ∀ b ∈ String.utf8EncodeChar c, 32 ≤ b.toNat ∧ b.toNat ≠ 127 ∧ b.toNat < 0xF5 := by
  intro b hb
  rcases utf8_bytes c with ⟨h1, h2⟩ | ⟨-, -, h2⟩
  · rw [h2, List.mem_singleton] at hb
    subst hb
    have : (UInt8.ofNat c.toNat).toNat = c.toNat := by rw [UInt8.toNat_ofNat']; omega
    rw [this]; unfold Shown at h; omega
  · have := h2 b hb; omega

theorem byteDigits (b : UInt8) : HexText [hexDigit (b.toNat / 16), hexDigit (b.toNat % 16)] b.toNat := by
  have hb := b.toNat_lt
  have := hexText_digits 2 b.toNat (by omega)
  simp only [hexDigits, List.nil_append, List.cons_append] at this
  rwa [Nat.mod_eq_of_lt (a := b.toNat / 16) (by omega)] at this

theorem ne_of_toNat {b c : UInt8} (h : b.toNat ≠ c.toNat) : b ≠ c := fun e => h (by rw [e])

/-- Every token is written in pieces that stand for its bytes. -/
theorem tok_body (above : Nat → Bool) (x : Char ⊕ UInt8) : Body (tok above x) (bytesOf x) := by
  cases x with
  | inr b => exact .one (.byte _ b rfl (byteDigits b))
  | inl c =>
    have hr := char_range c
    show Body (escapedRune above c.toNat) (String.utf8EncodeChar c)
    rcases escapedRune_cases above c with ⟨h, e⟩ | ⟨h, e⟩ | ⟨h, ⟨x, hx, hx', e⟩ | ⟨-, ⟨h1, e⟩ | ⟨h1, h2, e⟩ | ⟨h1, e⟩⟩⟩
    · rw [e, char_ascii (by omega)]
      refine .one (.letter _ _ ?_)
      have : (UInt8.ofNat c.toNat).toNat = c.toNat := by rw [UInt8.toNat_ofNat']; omega
      rcases h with h | h
      · exact ⟨'"', 34, by decide, by rw [this, h]; rfl, by rw [this, h]⟩
      · exact ⟨'\\', 92, by decide, by rw [this, h]; rfl, by rw [this, h]⟩
    · rw [e]
      refine Body.raws fun b hb => ?_
      have h1 := shown_line h.2.2 b hb
      rcases utf8_bytes c with ⟨h2, h3⟩ | ⟨-, -, h3⟩
      · rw [h3, List.mem_singleton] at hb
        subst hb
        have : (UInt8.ofNat c.toNat).toNat = c.toNat := by rw [UInt8.toNat_ofNat']; omega
        rw [this] at h1
        refine ⟨ne_of_toNat ?_, ne_of_toNat ?_, ne_of_toNat ?_⟩ <;> rw [this]
        · exact h.1
        · exact h.2.1
        · show c.toNat ≠ 10; omega
      · have := h3 b hb
        refine ⟨ne_of_toNat ?_, ne_of_toNat ?_, ne_of_toNat ?_⟩
        · show b.toNat ≠ 34; omega
        · show b.toNat ≠ 92; omega
        · show b.toNat ≠ 10; omega
    · have hs : c.toNat < 0x80 := by simp [letters] at hx; omega
      rw [e, char_ascii hs]
      refine .one (.letter _ _ ⟨x, c.toNat, hx, ?_, ?_⟩) <;> rw [UInt8.toNat_ofNat'] <;> omega
    · rw [e, char_ascii h1]
      refine .one (.byte _ _ (hexDigits_length _ _) ?_)
      rw [UInt8.toNat_ofNat', Nat.mod_eq_of_lt (by omega)]
      exact hexText_digits _ _ (by omega)
    · rw [e]; exact .one (.short _ _ (hexDigits_length _ _) (hexText_digits _ _ (by omega)))
    · rw [e]; exact .one (.long _ _ (hexDigits_length _ _) (hexText_digits _ _ (by omega)))

theorem toks_body (above : Nat → Bool) : ∀ l : List (Char ⊕ UInt8), Body (l.flatMap (tok above)) (l.flatMap bytesOf)
  | [] => .nil
  | x :: l => by rw [List.flatMap_cons, List.flatMap_cons]; exact (tok_body above x).append (toks_body above l)

/-- **C87**: a string attribute is shown as a Go string literal that stands for exactly its bytes, whatever they are. -/
theorem C87_literal (above : Nat → Bool) (s : Bytes) : Literal (quote above s) s := by
  obtain ⟨l, hl⟩ := reading s
  refine ⟨quoteBody above s, rfl, ?_⟩
  have := toks_body above l
  rwa [← quoteBody_reading above hl, reading_bytes hl] at this

/-- A piece begins with a byte that is not a quote, and its end can be told from itself. -/
theorem piece_unique {t s t' s' r r' : Bytes} (h : Piece t s) (h' : Piece t' s') (e : t ++ r = t' ++ r') : s = s' ∧ r = r' := by
  cases h with
  | raw b h1 h2 h3 =>
    cases h' with
    | raw b' h1' h2' h3' => simp at e; exact ⟨by rw [e.1], e.2⟩
    | letter => simp at e; exact absurd e.1 h2
    | byte => simp at e; exact absurd e.1 h2
    | short => simp at e; exact absurd e.1 h2
    | long => simp at e; exact absurd e.1 h2
  | letter l v hl =>
    obtain ⟨c, n, hm, hl, hv⟩ := hl
    have hne : l ≠ 120 ∧ l ≠ 117 ∧ l ≠ 85 := by
      refine ⟨ne_of_toNat ?_, ne_of_toNat ?_, ne_of_toNat ?_⟩ <;> rw [hl] <;> simp [letters] at hm <;>
        (rcases hm with h | h | h | h | h | h | h | h | h <;> rw [h.1] <;> decide)
    cases h' with
    | raw b' h1' h2' h3' => simp at e; exact absurd e.1.symm h2'
    | letter l' v' hl' =>
      obtain ⟨c', n', hm', hl', hv'⟩ := hl'
      simp at e
      obtain ⟨rfl, rfl⟩ := e
      refine ⟨?_, rfl⟩
      have hcc : c = c' := char_eq (by omega)
      subst hcc
      have : n = n' := by
        simp [letters] at hm hm'
        rcases hm with h | h | h | h | h | h | h | h | h <;> obtain ⟨rfl, rfl⟩ := h <;> simp at hm' <;> omega
      rw [UInt8.toNat_inj.1 (hv.trans (this.trans hv'.symm))]
    | byte => simp at e; exact absurd e.1 hne.1
    | short => simp at e; exact absurd e.1 hne.2.1
    | long => simp at e; exact absurd e.1 hne.2.2
  | byte h b hlen hh =>
    cases h' with
    | raw b' h1' h2' h3' => simp at e; exact absurd e.1.symm h2'
    | letter l v hl =>
      obtain ⟨c, n, hm, hl, hv⟩ := hl
      have hne : l ≠ 120 := by
        refine ne_of_toNat ?_; rw [hl]; simp [letters] at hm
        (rcases hm with h | h | h | h | h | h | h | h | h <;> rw [h.1] <;> decide)
      simp at e; exact absurd e.1.symm hne
    | byte h' b' hlen' hh' =>
      simp at e
      obtain ⟨rfl, rfl⟩ := List.append_inj e (by omega)
      rw [UInt8.toNat_inj.1 (hexText_fun hh hh')]; exact ⟨rfl, rfl⟩
    | short => simp at e
    | long => simp at e
  | short h c hlen hh =>
    cases h' with
    | raw b' h1' h2' h3' => simp at e; exact absurd e.1.symm h2'
    | letter l v hl =>
      obtain ⟨c, n, hm, hl, hv⟩ := hl
      have hne : l ≠ 117 := by
        refine ne_of_toNat ?_; rw [hl]; simp [letters] at hm
        (rcases hm with h | h | h | h | h | h | h | h | h <;> rw [h.1] <;> decide)
      simp at e; exact absurd e.1.symm hne
    | byte => simp at e
    | short h' c' hlen' hh' =>
      simp at e
      obtain ⟨rfl, rfl⟩ := List.append_inj e (by omega)
      rw [char_eq (hexText_fun hh hh')]; exact ⟨rfl, rfl⟩
    | long => simp at e
  | long h c hlen hh =>
    cases h' with
    | raw b' h1' h2' h3' => simp at e; exact absurd e.1.symm h2'
    | letter l v hl =>
      obtain ⟨c, n, hm, hl, hv⟩ := hl
      have hne : l ≠ 85 := by
        refine ne_of_toNat ?_; rw [hl]; simp [letters] at hm
        (rcases hm with h | h | h | h | h | h | h | h | h <;> rw [h.1] <;> decide)
      simp at e; exact absurd e.1.symm hne
    | byte => simp at e
    | short => simp at e
    | long h' c' hlen' hh' =>
      simp at e
      obtain ⟨rfl, rfl⟩ := List.append_inj e (by omega)
      rw [char_eq (hexText_fun hh hh')]; exact ⟨rfl, rfl⟩

theorem piece_head {t s : Bytes} (h : Piece t s) : ∃ b t', t = b :: t' ∧ b ≠ 34 := by
  cases h with
  | raw b h1 => exact ⟨b, [], rfl, h1⟩
  | letter => exact ⟨92, _, rfl, by decide⟩
  | byte => exact ⟨92, _, rfl, by decide⟩
  | short => exact ⟨92, _, rfl, by decide⟩
  | long => exact ⟨92, _, rfl, by decide⟩

theorem body_unique {t s t' s' r r' : Bytes} (h : Body t s) (h' : Body t' s') (e : t ++ 34 :: r = t' ++ 34 :: r') : s = s' ∧ r = r' := by
  induction h generalizing t' s' with
  | nil =>
    cases h' with
    | nil => simp at e; exact ⟨rfl, e⟩
    | cons hp _ =>
      obtain ⟨b, u, rfl, hb⟩ := piece_head hp
      simp at e; exact absurd e.1.symm hb
  | cons hp _ ih =>
    cases h' with
    | nil =>
      obtain ⟨b, u, rfl, hb⟩ := piece_head hp
      simp at e; exact absurd e.1 hb
    | cons hp' hb' =>
      rw [List.append_assoc, List.append_assoc] at e
      obtain ⟨rfl, e2⟩ := piece_unique hp hp' e
      obtain ⟨rfl, e3⟩ := ih hb' e2
      exact ⟨rfl, e3⟩

/-- **C87**: a string literal can be read back: what it stands for, and where it ends, can be told from the text alone, whatever follows. -/
theorem C87_reads {t s t' s' r r' : Bytes} (h : Literal t s) (h' : Literal t' s') (e : t ++ r = t' ++ r') : t = t' ∧ s = s' ∧ r = r' := by
  obtain ⟨u, rfl, hu⟩ := h
  obtain ⟨u', rfl, hu'⟩ := h'
  have e1 : u ++ 34 :: r = u' ++ 34 :: r' := by simpa using e
  obtain ⟨h1, rfl⟩ := body_unique hu hu' e1
  exact ⟨List.append_cancel_right e, h1, rfl⟩

/-- **C87**: so different strings never look the same, and what C70 asks of the quoting of strings holds of the one that is used. -/
theorem C87_quotes (above : Nat → Bool) (double : Nat → Bytes) : (fmt above double).Quotes :=
  ⟨fun _ => ⟨_, rfl⟩, fun s t _ _ h => (C87_reads (C87_literal above s) (C87_literal above t) h).2⟩

mutual
theorem plain_noNil : ∀ v : Rd.Any, Rd.Plain v → Rd.NoNil v
  | .nil, h => h.elim
  | .unset, h => h.elim
  | .double _, h => h.elim
  | .bytes _, h => h.elim
  | .str _, _ => trivial
  | .bool _, _ => trivial
  | .int _, _ => trivial
  | .array l, h => plainAll_noNil l h
  | .kvs l, h => plainPairs_noNil l h
theorem plainAll_noNil : ∀ l : List Rd.Any, Rd.PlainAll l → Rd.NoNilAll l
  | [], _ => trivial
  | a :: l, h => ⟨plain_noNil a h.1, plainAll_noNil l h.2⟩
theorem plainPairs_noNil : ∀ l : List (Bytes × Rd.Any), Rd.PlainPairs l → Rd.NoNilPairs l
  | [], _ => trivial
  | (_, a) :: l, h => ⟨plain_noNil a h.2.1, plainPairs_noNil l h.2.2⟩
end

/-- **C87**: two attribute lists of strings, booleans, integers, arrays and lists, with keys without spaces, that have the same text are the same. -/
theorem C87_unambiguous (above : Nat → Bool) (double : Nat → Bytes) {l l' : List (Bytes × Rd.Any)} (h : Rd.PlainPairs l) (h' : Rd.PlainPairs l')
    (e : Rd.attr (fmt above double) l = Rd.attr (fmt above double) l') : l = l' :=
  Rd.C70_unambiguous_partial (C87_quotes above double) h h' e fun hn => (Rd.C70_crash _ l).1 hn (plainPairs_noNil l h)

/-- **C87**: with doubles and bytes, they have the same text exactly if they look the same (see C70). -/
theorem C87_exact (above : Nat → Bool) (double : Nat → Bytes) (hd : (fmt above double).Words) {l l' : List (Bytes × Rd.Any)} (h : Rd.SpacelessPairs l)
    (h' : Rd.SpacelessPairs l') : Rd.attr (fmt above double) l = Rd.attr (fmt above double) l' ↔
      Rd.shapePairs (fmt above double) l = Rd.shapePairs (fmt above double) l' :=
  Rd.C70_exact (C87_quotes above double) hd h h'

theorem tok_line (above : Nat → Bool) (x : Char ⊕ UInt8) : ∀ b ∈ tok above x, 32 ≤ b.toNat ∧ b.toNat ≠ 127 ∧ b.toNat < 0xF5 := by
  intro b hb
  cases x with
  | inr y =>
    have := y.toNat_lt
    simp only [tok, List.mem_cons, List.not_mem_nil, or_false] at hb
    rcases hb with rfl | rfl | rfl | rfl
    · decide
    · decide
    · have := hexDigit_line (d := y.toNat / 16) (by omega); omega
    · have := hexDigit_line (d := y.toNat % 16) (by omega); omega
  | inl c =>
    have hb : b ∈ escapedRune above c.toNat := hb
    rcases escapedRune_cases above c with ⟨h, e⟩ | ⟨h, e⟩ | ⟨h, ⟨x, hx, hx', e⟩ | ⟨-, ⟨h1, e⟩ | ⟨h1, h2, e⟩ | ⟨h1, e⟩⟩⟩ <;> rw [e] at hb
    · simp only [List.mem_cons, List.not_mem_nil, or_false] at hb
      rcases hb with rfl | rfl
      · decide
      · rcases h with h | h <;> rw [h] <;> decide
    · exact shown_line h.2.2 b hb
    · simp only [List.mem_cons, List.not_mem_nil, or_false] at hb
      rcases hb with rfl | rfl
      · decide
      · simp [letters] at hx
        rcases hx with h | h | h | h | h | h | h | h | h <;> rw [h.1] <;> decide
    all_goals
      simp only [List.mem_cons] at hb
      rcases hb with rfl | rfl | hb
      · decide
      · decide
      · have := hexDigits_line _ _ b hb; omega

/-- **C87**: whatever the string is, its text is one line without control bytes, so it cannot end a line or a cell of a table. -/
theorem C87_line (above : Nat → Bool) (s : Bytes) : ∀ b ∈ quote above s, 32 ≤ b.toNat ∧ b.toNat ≠ 127 ∧ b.toNat < 0xF5 := by
  intro b hb
  obtain ⟨l, hl⟩ := reading s
  simp only [quote, List.mem_cons, List.mem_append, List.not_mem_nil, or_false] at hb
  rcases hb with rfl | hb | rfl
  · decide
  · rw [quoteBody_reading above hl] at hb
    obtain ⟨x, -, hx⟩ := List.mem_flatMap.1 hb
    exact tok_line above x b hx
  · decide

/-- A byte of ASCII as a character. -/
theorem ascii_utf8 {b : UInt8} (h : b.toNat < 0x80) : ∃ c : Char, String.utf8EncodeChar c = [b] := by
  obtain ⟨c, hc⟩ := char_of b.toNat (by omega)
  exact ⟨c, by rw [char_ascii (by omega), hc, u8 rfl]⟩

theorem asciis_utf8 : ∀ {l : Bytes}, (∀ b ∈ l, b.toNat < 0x80) → ∃ cs, l = utf8 cs
  | [], _ => ⟨[], rfl⟩
  | b :: l, h => by
    obtain ⟨c, hc⟩ := ascii_utf8 (h b List.mem_cons_self)
    obtain ⟨cs, hcs⟩ := asciis_utf8 (l := l) fun x hx => h x (List.mem_cons_of_mem _ hx)
    exact ⟨c :: cs, by rw [utf8, List.flatMap_cons, hc, ← utf8, ← hcs]; rfl⟩

theorem tok_utf8 (above : Nat → Bool) (x : Char ⊕ UInt8) : ∃ cs, tok above x = utf8 cs := by
  cases x with
  | inr y =>
    have := y.toNat_lt
    refine asciis_utf8 fun b hb => ?_
    simp only [tok, List.mem_cons, List.not_mem_nil, or_false] at hb
    rcases hb with rfl | rfl | rfl | rfl
    · decide
    · decide
    · have := hexDigit_line (d := y.toNat / 16) (by omega); omega
    · have := hexDigit_line (d := y.toNat % 16) (by omega); omega
  | inl c =>
    show ∃ cs, escapedRune above c.toNat = utf8 cs
    rcases escapedRune_cases above c with ⟨h, e⟩ | ⟨h, e⟩ | ⟨h, ⟨x, hx, hx', e⟩ | ⟨-, ⟨h1, e⟩ | ⟨h1, h2, e⟩ | ⟨h1, e⟩⟩⟩ <;> rw [e]
    · refine asciis_utf8 fun b hb => ?_
      simp only [List.mem_cons, List.not_mem_nil, or_false] at hb
      rcases hb with rfl | rfl
      · decide
      · rcases h with h | h <;> rw [h] <;> decide
    · exact ⟨[c], by simp [utf8]⟩
    · refine asciis_utf8 fun b hb => ?_
      simp only [List.mem_cons, List.not_mem_nil, or_false] at hb
      rcases hb with rfl | rfl
      · decide
      · rw [UInt8.toNat_ofNat']; omega
    all_goals
      refine asciis_utf8 fun b hb => ?_
      simp only [List.mem_cons] at hb
      rcases hb with rfl | rfl | hb
      · decide
      · decide
      · have := hexDigits_line _ _ b hb; omega

theorem utf8_append (a b : List Char) : utf8 (a ++ b) = utf8 a ++ utf8 b := List.flatMap_append ..

theorem toks_utf8 (above : Nat → Bool) : ∀ l : List (Char ⊕ UInt8), ∃ cs, l.flatMap (tok above) = utf8 cs
  | [] => ⟨[], rfl⟩
  | x :: l => by
    obtain ⟨a, ha⟩ := tok_utf8 above x
    obtain ⟨b, hb⟩ := toks_utf8 above l
    exact ⟨a ++ b, by rw [List.flatMap_cons, ha, hb, utf8_append]⟩

/-- **C87**: the text is always valid UTF-8, even when the string is not. -/
theorem C87_utf8 (above : Nat → Bool) (s : Bytes) : ∃ cs, quote above s = utf8 cs := by
  obtain ⟨l, hl⟩ := reading s
  obtain ⟨cs, hcs⟩ := toks_utf8 above l
  refine ⟨'"' :: (cs ++ ['"']), ?_⟩
  rw [quote, quoteBody_reading above hl, hcs]
  show _ = utf8 (['"'] ++ (cs ++ ['"']))
  rw [utf8_append, utf8_append]; rfl

/-- A string is read in exactly one way. -/
theorem reading_unique {s : Bytes} {l l' : List (Char ⊕ UInt8)} (h : Reading s l) (h' : Reading s l') : l = l' := by
  induction h generalizing l' with
  | nil =>
    generalize hx : ([] : Bytes) = x at h'
    cases h' with
    | nil => rfl
    | @char c s l _ => obtain ⟨b, t, e, -⟩ := front_char c []; rw [e] at hx; simp at hx
    | bad => simp at hx
  | @char c s l _ ih =>
    obtain ⟨b, t, e, hf⟩ := front_char c s
    generalize hx : String.utf8EncodeChar c ++ s = x at h'
    cases h' with
    | nil => rw [e] at hx; simp at hx
    | @char c' s' l' h2 =>
      obtain ⟨b', t', e', hf'⟩ := front_char c' s'
      rw [e, e', List.cons_append, List.cons_append, List.cons.injEq] at hx
      obtain ⟨rfl, hx⟩ := hx
      rw [hx, hf', Prod.mk.injEq] at hf
      obtain ⟨rfl, h3⟩ := List.append_inj hx (by omega)
      subst h3
      rw [char_eq hf.1, ih h2]
    | bad hb => exact absurd ⟨s, hx⟩ (hb c)
  | @bad b s l hb _ ih =>
    generalize hx : b :: s = x at h'
    cases h' with
    | nil => simp at hx
    | @char c' s' l' h2 => exact absurd ⟨s', hx.symm⟩ (hb c')
    | bad hb' h2 =>
      simp only [List.cons.injEq] at hx
      obtain ⟨rfl, rfl⟩ := hx
      rw [ih h2]

theorem tok_seen (above : Nat → Bool) (x : Char ⊕ UInt8) : Seen (Shown above) x (tok above x) := by
  cases x with
  | inr y => exact ⟨_, rfl, byteDigits y, rfl⟩
  | inl c =>
    have hr := char_range c
    have hq : c = '"' ↔ c.toNat = 34 := ⟨fun h => by rw [h]; rfl, fun h => char_eq h⟩
    have hb : c = '\\' ↔ c.toNat = 92 := ⟨fun h => by rw [h]; rfl, fun h => char_eq h⟩
    have hl : ∀ x, (x, c.toNat) ∈ letters → c.toNat < 0x80 := fun x hx => by simp [letters] at hx; omega
    show Seen (Shown above) (.inl c) (escapedRune above c.toNat)
    unfold Seen
    dsimp only
    rw [ne_eq, ne_eq, hq, hb]
    rcases escapedRune_cases above c with ⟨h, e⟩ | ⟨h, e⟩ | ⟨h, h'⟩
    · refine ⟨fun _ => by rw [e, char_ascii (by omega)], fun h1 h2 => absurd h (by omega), fun hn => absurd ?_ hn⟩
      left; omega
    · exact ⟨fun h1 => absurd h1 (by omega), fun _ _ _ => e, fun hn => absurd h.2.2 hn⟩
    · refine ⟨fun h1 => absurd (.inl (by omega)) h, fun _ _ h1 => absurd h1 h, fun _ => ?_⟩
      rcases h' with ⟨x, hx, hx', e⟩ | ⟨hn, ⟨h1, e⟩ | ⟨h1, h2, e⟩ | ⟨h1, e⟩⟩
      · exact ⟨_, e, .inl ⟨x, hx, (char_ascii hx').symm⟩⟩
      · exact ⟨_, e, .inr ⟨hn, _, _, rfl, hexText_digits _ _ (by omega), .inl ⟨h1, rfl, hexDigits_length _ _⟩⟩⟩
      · exact ⟨_, e, .inr ⟨hn, _, _, rfl, hexText_digits _ _ (by omega), .inr (.inl ⟨h1, h2, rfl, hexDigits_length _ _⟩)⟩⟩
      · exact ⟨_, e, .inr ⟨hn, _, _, rfl, hexText_digits _ _ (by omega), .inr (.inr ⟨h1, rfl, hexDigits_length _ _⟩)⟩⟩

/-- **C87**, exactly: every string is read in one way as characters and stray bytes, and its text is, between quotes, what is seen of them one by one:
printable characters as they are, quotes and backslashes behind a backslash, the others by the shortest escape that Go has for them, and stray bytes by number. -/
theorem C87_seen (above : Nat → Bool) (s : Bytes) : ∃ l, Reading s l ∧ (∀ l', Reading s l' → l' = l) ∧
    ∃ ts : List Bytes, ts.length = l.length ∧ (∀ (i : Nat) x t, l[i]? = some x → ts[i]? = some t → Seen (Shown above) x t) ∧ quote above s = 34 :: (ts.flatten ++ [34]) := by
  obtain ⟨l, hl⟩ := reading s
  refine ⟨l, hl, fun l' h => reading_unique h hl, l.map (tok above), by simp, fun i x t h1 h2 => ?_, ?_⟩
  · rw [List.getElem?_map, h1] at h2
    cases h2
    exact tok_seen above x
  · rw [quote, quoteBody_reading above hl, List.flatMap_def]

theorem reading_utf8 : ∀ cs : List Char, Reading (utf8 cs) (cs.map .inl)
  | [] => .nil
  | c :: cs => by
    rw [utf8, List.flatMap_cons]
    exact .char (reading_utf8 cs)

/-- **C87**: text of printable characters without quotes and backslashes is shown as it is. -/
theorem C87_plain (above : Nat → Bool) (cs : List Char) (h : ∀ c ∈ cs, Shown above c ∧ c ≠ '"' ∧ c ≠ '\\') : quote above (utf8 cs) = 34 :: (utf8 cs ++ [34]) := by
  rw [quote, quoteBody_reading above (reading_utf8 cs)]
  have : ∀ cs : List Char, (∀ c ∈ cs, Shown above c ∧ c ≠ '"' ∧ c ≠ '\\') → (cs.map Sum.inl).flatMap (tok above) = utf8 cs := by
    intro cs
    induction cs with
    | nil => intro _; rfl
    | cons c cs ih =>
      intro h
      have hc := h c List.mem_cons_self
      rw [List.map_cons, List.flatMap_cons, ih fun x hx => h x (List.mem_cons_of_mem _ hx), (tok_seen above (.inl c)).2.1 hc.2.1 hc.2.2 hc.1]; rfl
  rw [this cs h]

/-! ## Examples -/

/-- `é€😀` and `"`, a newline, a stray byte 0xE9, U+0085 (not printable) and U+FFFD (printable). -/
def some9 : Bytes := [0xC3, 0xA9, 0xE2, 0x82, 0xAC, 0xF0, 0x9F, 0x98, 0x80, 34, 10, 0xE9, 0xC2, 0x85, 0xEF, 0xBF, 0xBD]

/-- `"é€😀\"\n\xe9\u0085�"` -/
example : quote (fun _ => true) some9 = [34, 0xC3, 0xA9, 0xE2, 0x82, 0xAC, 0xF0, 0x9F, 0x98, 0x80, 92, 34, 92, 110, 92, 120, 101, 57, 92, 117, 48, 48, 56, 53,
    0xEF, 0xBF, 0xBD, 34] := by decide +kernel

/-- A stray continuation byte, a surrogate (three stray bytes) and an overlong slash (two). -/
example : quote (fun _ => true) [0x80, 0xED, 0xA0, 0x80, 0xC0, 0xAF] = 34 :: ([[56, 48], [101, 100], [97, 48], [56, 48], [99, 48], [97, 102]].flatMap fun h =>
    92 :: 120 :: h) ++ [34] := by decide +kernel

/-- `"\U0001f600"`, if the character is not printable. -/
example : quote (fun _ => false) [0xF0, 0x9F, 0x98, 0x80] = [34, 92, 85, 48, 48, 48, 49, 102, 54, 48, 48, 34] := by decide +kernel

example : utf8 ['h', 'é'] = [104, 0xC3, 0xA9] := by decide +kernel
example : quote (fun _ => false) [104, 0xC3, 0xA9] = [34, 104, 0xC3, 0xA9, 34] :=
  C87_plain _ ['h', 'é'] (by intro c hc; simp at hc; rcases hc with rfl | rfl <;> simp [Shown] <;> decide)

/-- Keys are not quoted: a key with a newline breaks the line. -/
example (d : Nat → Bytes) : Rd.attr (fmt (fun _ => true) d) [([97, 10, 98], .bool true)] =
    some [123, 32, 97, 10, 98, 32, 61, 32, 116, 114, 117, 101, 32, 125] := rfl

end Verif.Qt
