import Verif.Model.Bytes
/-!
# String literals

UTF-8 is `String.utf8EncodeChar` of Lean's library.
-/
namespace Verif.Qt

/-- `h` is the hexadecimal digit `d`, lower case. -/
def HexIs (h : UInt8) (d : Nat) : Prop := d < 16 ∧ ∃ c, "0123456789abcdef".toList[d]? = some c ∧ h.toNat = c.toNat

/-- `h` are hexadecimal digits of the number `n`. -/
inductive HexText : Bytes → Nat → Prop
  | nil : HexText [] 0
  | snoc {h : Bytes} {n : Nat} {c : UInt8} {d : Nat} : HexText h n → HexIs c d → HexText (h ++ [c]) (16 * n + d)

/-- The letters after a backslash and the characters that they stand for. -/
def letters : List (Char × Nat) := [('a', 7), ('b', 8), ('f', 12), ('n', 10), ('r', 13), ('t', 9), ('v', 11), ('\\', 92), ('"', 34)]

/-- A piece of a string literal of Go, and the bytes that it stands for. -/
inductive Piece : Bytes → Bytes → Prop
  /-- a byte that is not a quote, a backslash or a newline -/
  | raw (b : UInt8) : b ≠ 34 → b ≠ 92 → b ≠ 10 → Piece [b] [b]
  | letter (l v : UInt8) : (∃ c n, (c, n) ∈ letters ∧ l.toNat = c.toNat ∧ v.toNat = n) → Piece [92, l] [v]
  /-- `\x` and two digits: a byte -/
  | byte (h : Bytes) (b : UInt8) : h.length = 2 → HexText h b.toNat → Piece (92 :: 120 :: h) [b]
  /-- `\u` and four digits: a character -/
  | short (h : Bytes) (c : Char) : h.length = 4 → HexText h c.toNat → Piece (92 :: 117 :: h) (String.utf8EncodeChar c)
  /-- `\U` and eight digits: a character -/
  | long (h : Bytes) (c : Char) : h.length = 8 → HexText h c.toNat → Piece (92 :: 85 :: h) (String.utf8EncodeChar c)

/-- What stands between the quotes of a string literal, and the string. -/
inductive Body : Bytes → Bytes → Prop
  | nil : Body [] []
  | cons {t s t' s' : Bytes} : Piece t s → Body t' s' → Body (t ++ t') (s ++ s')

/-- `text` is a string literal of Go for the bytes `s`. -/
def Literal (text s : Bytes) : Prop := ∃ t, text = 34 :: (t ++ [34]) ∧ Body t s

/-- The UTF-8 of some characters. -/
def utf8 (cs : List Char) : Bytes := cs.flatMap String.utf8EncodeChar

/-- Bytes as they are read: characters, and bytes at which no character starts. -/
inductive Reading : Bytes → List (Char ⊕ UInt8) → Prop
  | nil : Reading [] []
  | char {c : Char} {s : Bytes} {l : List (Char ⊕ UInt8)} : Reading s l → Reading (String.utf8EncodeChar c ++ s) (.inl c :: l)
  | bad {b : UInt8} {s : Bytes} {l : List (Char ⊕ UInt8)} : (∀ c, ¬ String.utf8EncodeChar c <+: b :: s) → Reading s l → Reading (b :: s) (.inr b :: l)

/-- What a reader sees for a character or a byte; `shown`: the characters that are shown as they are. -/
def Seen (shown : Char → Prop) : Char ⊕ UInt8 → Bytes → Prop
  | .inr b, t => ∃ h, h.length = 2 ∧ HexText h b.toNat ∧ t = 92 :: 120 :: h
  | .inl c, t =>
    (c = '"' ∨ c = '\\' → t = 92 :: String.utf8EncodeChar c) ∧
    (c ≠ '"' → c ≠ '\\' → shown c → t = String.utf8EncodeChar c) ∧
    (¬ shown c → ∃ l, t = 92 :: l ∧ ((∃ x, (x, c.toNat) ∈ letters ∧ l = String.utf8EncodeChar x) ∨
      (∀ x, (x, c.toNat) ∉ letters) ∧ ∃ m h, l = m :: h ∧ HexText h c.toNat ∧
        ((c.toNat < 0x80 ∧ m = 120 ∧ h.length = 2) ∨ (0x80 ≤ c.toNat ∧ c.toNat < 0x10000 ∧ m = 117 ∧ h.length = 4) ∨ (0x10000 ≤ c.toNat ∧ m = 85 ∧ h.length = 8))))

end Verif.Qt
