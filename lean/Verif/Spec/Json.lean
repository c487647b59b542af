import Verif.Model.Json
import Verif.Spec.Wire
import Verif.Spec.Float
/-!
# Texts in JSON (RFC 8259), and what metrics in JSON tell
-/
namespace Verif.Jn
open Pb (Val Kind)

/-- Spaces, tabs and line ends. -/
def Ws (w : Bytes) : Prop := ∀ b ∈ w, b = 32 ∨ b = 9 ∨ b = 10 ∨ b = 13

/-- Digits, at least one. -/
def Digits (s : Bytes) : Prop := s ≠ [] ∧ ∀ b ∈ s, Un.isDig b = true

/-- `number = [ minus ] int [ frac ] [ exp ]`, RFC 8259, section 6. -/
def Number (s : Bytes) : Prop :=
  ∃ sign int frac exp, s = sign ++ int ++ frac ++ exp ∧ (sign = [] ∨ sign = [45]) ∧ (Digits int ∧ (int.head? = some 48 → int = [48])) ∧
    (frac = [] ∨ ∃ ds, frac = 46 :: ds ∧ Digits ds) ∧
    (exp = [] ∨ ∃ e sg ds, exp = e :: sg ++ ds ∧ (e = 101 ∨ e = 69) ∧ (sg = [] ∨ sg = [43] ∨ sg = [45]) ∧ Digits ds)

/-- The value of a hexadecimal digit. -/
def hexValue (b : UInt8) : Option Nat :=
  if 48 ≤ b.toNat ∧ b.toNat ≤ 57 then some (b.toNat - 48) else if 97 ≤ b.toNat ∧ b.toNat ≤ 102 then some (b.toNat - 87)
  else if 65 ≤ b.toNat ∧ b.toNat ≤ 70 then some (b.toNat - 55) else none

/-- Escapes of one letter, RFC 8259, section 7: what they stand for, and the letter. -/
def shortEscapes : List (UInt8 × UInt8) := [(34, 34), (92, 92), (47, 47), (8, 98), (12, 102), (10, 110), (13, 114), (9, 116)]

/-- `Chars s t`: the text `t` between the quotes of a string stands for `s`, RFC 8259, section 7. Escapes `\u…` of characters beyond ASCII, which the program does not write, are left
out. -/
inductive Chars : Bytes → Bytes → Prop
  | nil : Chars [] []
  | plain {b : UInt8} {s t : Bytes} : 32 ≤ b.toNat → b ≠ 34 → b ≠ 92 → Chars s t → Chars (b :: s) (b :: t)
  | short {b c : UInt8} {s t : Bytes} : (b, c) ∈ shortEscapes → Chars s t → Chars (b :: s) (92 :: c :: t)
  | hex {x y z w : UInt8} {i j k l : Nat} {s t : Bytes} : hexValue x = some i → hexValue y = some j → hexValue z = some k → hexValue w = some l →
      ((i * 16 + j) * 16 + k) * 16 + l < 128 → Chars s t → Chars (UInt8.ofNat (((i * 16 + j) * 16 + k) * 16 + l) :: s) (92 :: 117 :: x :: y :: z :: w :: t)

/-- A value, the elements of a list, the members of an object. -/
inductive Part where
  | value (x : Json)
  | elements (l : List Json)
  | members (l : List (Bytes × Json))

/-- `Text p t`: the text `t` spells `p` (RFC 8259, sections 2 to 5); lists of elements and members are without their brackets and not empty. -/
inductive Text : Part → Bytes → Prop
  | null : Text (.value .null) (ascii "null")
  | tt : Text (.value (.bool true)) (ascii "true")
  | ff : Text (.value (.bool false)) (ascii "false")
  | num {s : Bytes} : Number s → Text (.value (.num s)) s
  | str {s t : Bytes} : Chars s t → Text (.value (.str s)) (34 :: t ++ [34])
  | noArr {w : Bytes} : Ws w → Text (.value (.arr [])) (91 :: w ++ [93])
  | arr {l : List Json} {t : Bytes} : Text (.elements l) t → Text (.value (.arr l)) (91 :: t ++ [93])
  | noObj {w : Bytes} : Ws w → Text (.value (.obj [])) (123 :: w ++ [125])
  | obj {l : List (Bytes × Json)} {t : Bytes} : Text (.members l) t → Text (.value (.obj l)) (123 :: t ++ [125])
  | element {x : Json} {v w t : Bytes} : Ws v → Text (.value x) t → Ws w → Text (.elements [x]) (v ++ t ++ w)
  | elements {x : Json} {l : List Json} {v w t r : Bytes} : Ws v → Text (.value x) t → Ws w → Text (.elements l) r → Text (.elements (x :: l)) (v ++ t ++ w ++ 44 :: r)
  | member {k : Bytes} {x : Json} {u u' v w c t : Bytes} : Ws u → Chars k c → Ws u' → Ws v → Text (.value x) t → Ws w →
      Text (.members [(k, x)]) (u ++ (34 :: c ++ [34]) ++ u' ++ 58 :: (v ++ t ++ w))
  | members {k : Bytes} {x : Json} {l : List (Bytes × Json)} {u u' v w c t r : Bytes} : Ws u → Chars k c → Ws u' → Ws v → Text (.value x) t → Ws w → Text (.members l) r →
      Text (.members ((k, x) :: l)) (u ++ (34 :: c ++ [34]) ++ u' ++ 58 :: (v ++ t ++ w ++ 44 :: r))

/-! ## What a tree shows of the data -/

/-- RFC 4648, table 1. -/
def alphabet : Bytes := ascii "ABCDEFGHIJKLMNOPQRSTUVWXYZabcdefghijklmnopqrstuvwxyz0123456789+/"

/-- The number with these digits. -/
def fromDigits (base : Nat) (l : List Nat) : Nat := l.foldl (fun a x => base * a + x) 0

/-- `s` is `b` in base64 (RFC 4648, section 4): the letters of groups of six bits of `b`, the last group filled up with zeros, and as many `=` as are missing to a multiple of four. -/
def Base64 (b s : Bytes) : Prop :=
  ∃ (groups : List Nat) (letters : Bytes) (k : Nat), groups.map (alphabet[·]?) = letters.map some ∧ s = letters ++ List.replicate k 61 ∧ k < 4 ∧ s.length % 4 = 0 ∧
    8 * b.length ≤ 6 * groups.length ∧ 6 * groups.length < 8 * b.length + 6 ∧
    fromDigits 64 groups = fromDigits 256 (b.map UInt8.toNat) * 2 ^ (6 * groups.length - 8 * b.length)

/-- `n` is `i` in two's complement. -/
def TwosComplement (k : Nat) (n : Nat) (i : Int) : Prop := -2 ^ (k - 1) ≤ i ∧ i < 2 ^ (k - 1) ∧ i % 2 ^ k = n

/-- Numbers. A finite double is a number that is read as this double, with its sign. -/
inductive NumberShows : Ty → Nat → Json → Prop
  | bool {n : Nat} : NumberShows .bool n (.bool (n ≠ 0))
  | i32 {n : Nat} {i : Int} {s : Bytes} : TwosComplement 32 n i → IntText i s → NumberShows .i32 n (.num s)
  | u32 {n : Nat} {s : Bytes} : NatText n s → NumberShows .u32 n (.num s)
  | u64 {n : Nat} {s : Bytes} : NatText n s → NumberShows .u64 n (.str s)
  | i64 {n : Nat} {i : Int} {s : Bytes} : TwosComplement 64 n i → IntText i s → NumberShows .i64 n (.str s)
  | double {n : Nat} {s : Bytes} {q : ℚ} : Fp.Finite n → Fp.readNumber s = some (Fp.negative n, q) → Fp.Reads q (Fp.absValue n) → NumberShows .double n (.num s)
  | nan {n : Nat} : Fp.IsNaN n → NumberShows .double n (.str (ascii "NaN"))
  | infinity {n : Nat} : ¬ Fp.Finite n → ¬ Fp.IsNaN n → Fp.negative n = false → NumberShows .double n (.str (ascii "Infinity"))
  | minusInfinity {n : Nat} : ¬ Fp.Finite n → ¬ Fp.IsNaN n → Fp.negative n = true → NumberShows .double n (.str (ascii "-Infinity"))
  | unspecified : NumberShows .temporality 0 (.str (ascii "AGGREGATION_TEMPORALITY_UNSPECIFIED"))
  | delta : NumberShows .temporality 1 (.str (ascii "AGGREGATION_TEMPORALITY_DELTA"))
  | cumulative : NumberShows .temporality 2 (.str (ascii "AGGREGATION_TEMPORALITY_CUMULATIVE"))
  | other {n : Nat} {i : Int} {s : Bytes} : 2 < n → TwosComplement 32 n i → IntText i s → NumberShows .temporality n (.num s)

/-- The values of a field, in order. -/
def valuesOf (fs : List (Nat × Val)) (num : Nat) : List Val := fs.filterMap fun e => if e.1 = num then some e.2 else none

/-- The tree `x` shows the value `v` of type `ty`. A message is an object with one member for each of its fields that is set, in the order of their declaration; a list is an array with
one element for each of its values. -/
inductive Shows : Ty → Val → Json → Prop
  | num {ty : Ty} {n : Nat} {x : Json} : NumberShows ty n x → Shows ty (.num n) x
  | str {s : Bytes} : Shows .str (.bytes s) (.str s)
  | bytes {b s : Bytes} : Base64 b s → Shows .bytes (.bytes b) (.str s)
  | nums {ty : Ty} {l : List Nat} {js : List Json} : List.Forall₂ (NumberShows ty) l js → Shows ty (.nums l) (.arr js)
  | msg {t : Nat} {fs : List (Nat × Val)} {u : Bytes} {l : List (Bytes × Json)} :
      l.map (·.1) = ((decls t).filter fun f => !(valuesOf fs f.num).isEmpty).map (·.name) →
      (∀ f ∈ decls t, f.list = false → ∀ x, (f.name, x) ∈ l → ∀ v ∈ valuesOf fs f.num, Shows f.ty v x) →
      (∀ f ∈ decls t, f.list = true → ∀ x, (f.name, x) ∈ l → ∃ js : List Json, x = .arr js ∧ js.length = (valuesOf fs f.num).length) →
      (∀ f ∈ decls t, f.list = true → ∀ js : List Json, (f.name, Json.arr js) ∈ l → ∀ (i : Nat) (v : Val) (y : Json), (valuesOf fs f.num)[i]? = some v → js[i]? = some y → Shows f.ty v y) →
      Shows (.msg t) (.msg fs u) (.obj l)

/-- `v` and `w` are the same, but for bytes of unknown fields, and which of the values that are not a number a double is. -/
inductive Same : Ty → Val → Val → Prop
  | num {ty : Ty} {n : Nat} : Same ty (.num n) (.num n)
  | nan {m n : Nat} : Fp.IsNaN m → Fp.IsNaN n → Same .double (.num m) (.num n)
  | bytes {ty : Ty} {b : Bytes} : Same ty (.bytes b) (.bytes b)
  | nums {ty : Ty} {l m : List Nat} : l.length = m.length → (∀ (i x y : Nat), l[i]? = some x → m[i]? = some y → Same ty (.num x) (.num y)) → Same ty (.nums l) (.nums m)
  | msg {t : Nat} {fs gs : List (Nat × Val)} {u u' : Bytes} : fs.map (·.1) = gs.map (·.1) →
      (∀ f ∈ decls t, ∀ (i : Nat) (v w : Val), fs[i]? = some (f.num, v) → gs[i]? = some (f.num, w) → Same f.ty v w) → Same (.msg t) (.msg fs u) (.msg gs u')

end Verif.Jn
