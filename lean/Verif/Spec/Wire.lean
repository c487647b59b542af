import Verif.Model.Wire
import Verif.Spec.Quote
/-!
# What the wire format is

<https://protobuf.dev/programming-guides/encoding/>
-/
namespace Verif.Pb

/-- `b` are the groups of seven bits of `n`, the lowest first, all but the last with the bit 128. -/
inductive Base128 : Bytes → Nat → Prop
  | last (c : UInt8) : c.toNat < 128 → Base128 [c] c.toNat
  | more (c : UInt8) {r : Bytes} {n : Nat} : 128 ≤ c.toNat → Base128 r n → Base128 (c :: r) (c.toNat - 128 + 128 * n)

/-- `b` is a varint for `n`: at most ten bytes, at most 64 bits. It need not be the shortest. -/
def Varint (b : Bytes) (n : Nat) : Prop := Base128 b n ∧ b.length ≤ 10 ∧ n < 2 ^ 64

/-- The shortest varint for `n`. -/
def Shortest (b : Bytes) (n : Nat) : Prop := Varint b n ∧ ∀ b', Base128 b' n → b.length ≤ b'.length

/-- `b` are the bytes of `n`, the lowest first. -/
inductive LowFirst : Bytes → Nat → Prop
  | nil : LowFirst [] 0
  | cons (c : UInt8) {r : Bytes} {n : Nat} : LowFirst r n → LowFirst (c :: r) (c.toNat + 256 * n)

/-- `b` is `s` with its length before it. -/
def Delimited (s b : Bytes) : Prop := ∃ l, Varint l s.length ∧ b = l ++ s

/-- The bytes are the UTF-8 of some characters. -/
def Utf8 (s : Bytes) : Prop := ∃ cs, s = Qt.utf8 cs

/-- How many numbers a type has. -/
def Kind.range : Kind → Nat
  | .bool => 2
  | .enum | .uint32 | .sint32 | .fixed32 => 2 ^ 32
  | .int64 | .uint64 | .fixed64 => 2 ^ 64
  | .string | .bytes | .msg _ => 0

/-- The number that the 32 bits `n` mean. -/
def signed32 (n : Nat) : Int := if n < 2 ^ 31 then n else (n : Int) - 2 ^ 32

/-- `b` spells the number with the bits `n`. -/
def Number (k : Kind) (n : Nat) (b : Bytes) : Prop :=
  n < k.range ∧
  match k with
  /- sign-extended to 64 bits -/
  | .enum => ∃ w, Varint b w ∧ (w : Int) = signed32 n % 2 ^ 64
  /- 0, -1, 1, -2, 2, … -/
  | .sint32 => ∃ w, Varint b w ∧ (w : Int) = if 0 ≤ signed32 n then 2 * signed32 n else -2 * signed32 n - 1
  | .fixed32 => b.length = 4 ∧ LowFirst b n
  | .fixed64 => b.length = 8 ∧ LowFirst b n
  | _ => Varint b n

/-- Numbers, one after the other. -/
inductive Numbers (k : Kind) : List Nat → Bytes → Prop
  | nil : Numbers k [] []
  | cons {n : Nat} {l : List Nat} {b r : Bytes} : Number k n b → Numbers k l r → Numbers k (n :: l) (b ++ r)

/-- Zero, or empty. -/
def Val.Zero : Val → Prop
  | .num n => n = 0
  | .bytes b => b = []
  | _ => False

/-- What a field asks of its value, beside its type: only lists of numbers are packed; a scalar without presence is not set if it is zero. -/
structure Field.Takes (f : Field) (v : Val) : Prop where
  packed : f.card = .packed ↔ ∃ l, v = .nums l
  zero : f.card = .implicit → ¬ v.Zero

/-- The wire types. -/
def Field.wire (f : Field) : Nat :=
  match f.card, f.kind with
  | .packed, _ => 2
  | _, .bool | _, .enum | _, .int64 | _, .uint32 | _, .uint64 | _, .sint32 => 0
  | _, .fixed64 => 1
  | _, .string | _, .bytes | _, .msg _ => 2
  | _, .fixed32 => 5

/-- The fields that are set are in the order of the type; only lists are set twice; one member of a oneof is set. -/
def InOrder (S : Schema) (t : Nat) (fs : List (Nat × Val)) : Prop :=
  fs.Pairwise fun x y => ∃ (i : Nat) (j : Nat) (f g : Field), (S t)[i]? = some f ∧ (S t)[j]? = some g ∧ f.num = x.1 ∧ g.num = y.1 ∧
    (i < j ∨ i = j ∧ f.card = .repeated) ∧ ∀ o, f.card = .oneof o → g.card ≠ .oneof o

/-- The fields of a group, and the tag that ends it. -/
inductive Items (raw : Nat → Nat → Bytes → Prop) (num : Nat) : Bytes → Prop
  | stop {l : Bytes} : Varint l (num * 8 + 4) → Items raw num l
  | cons {n wt : Nat} {l b r : Bytes} : 1 ≤ n → n < 2 ^ 31 → Varint l (n * 8 + wt) → raw n wt b → Items raw num r → Items raw num (l ++ b ++ r)

/-- The value of some field with number `num`, after its tag, by wire type: a varint, 8 bytes, bytes with their length, 4 bytes, or a group of fields.
Groups are nested at most `d` deep. -/
def Raw : (d num wt : Nat) → Bytes → Prop
  | _, _, 0, b => ∃ n, Varint b n
  | _, _, 1, b => b.length = 8
  | _, _, 2, b => ∃ s, Delimited s b
  | _, _, 5, b => b.length = 4
  | d + 1, num, 3, b => Items (Raw d) num b
  | _, _, _, _ => False

/-- Fields that the message type does not have, or not with this wire type. Groups are nested at most 10001 deep. -/
inductive Unknown (S : Schema) (t : Nat) : Bytes → Prop
  | nil : Unknown S t []
  | cons {num wt : Nat} {l b r : Bytes} : 1 ≤ num → num < 2 ^ 29 → Shortest l (num * 8 + wt) →
      (∀ f ∈ S t, f.num = num → wt ≠ f.wire ∧ (f.card = .packed → wt ≠ { f with card := .repeated : Field }.wire)) →
      Raw 10001 num wt b → Unknown S t r → Unknown S t (l ++ b ++ r)

/-- The fields `fs`, one after the other; `value`: how a value is spelled. -/
inductive Fields (S : Schema) (value : Kind → Val → Bytes → Prop) (t : Nat) : List (Nat × Val) → Bytes → Prop
  | nil : Fields S value t [] []
  | cons {f : Field} {v : Val} {fs : List (Nat × Val)} {l b r : Bytes} : f ∈ S t → f.Takes v → Varint l (f.num * 8 + f.wire) →
      value f.kind v b → Fields S value t fs r → Fields S value t ((f.num, v) :: fs) (l ++ b ++ r)

/-- `b` spells the value `v` of type `k`; messages are nested at most `d` deep. -/
def Value (S : Schema) : Nat → Kind → Val → Bytes → Prop
  | _, k, .num n, b => Number k n b
  | _, .string, .bytes s, b => Utf8 s ∧ Delimited s b
  | _, .bytes, .bytes s, b => Delimited s b
  | _, k, .nums l, b => l ≠ [] ∧ ∃ s, Numbers k l s ∧ Delimited s b
  | d + 1, .msg t, .msg fs u, b => ∃ x, (Fields S (Value S d) t fs x ∧ InOrder S t fs ∧ Unknown S t u) ∧ Delimited (x ++ u) b
  | _, _, _, _ => False

/-- `b` spells the message. -/
def Message (S : Schema) : (d t : Nat) → Val → Bytes → Prop
  | d + 1, t, .msg fs u, b => ∃ x, b = x ++ u ∧ Fields S (Value S d) t fs x ∧ InOrder S t fs ∧ Unknown S t u
  | _, _, _, _ => False

/-- `v` is a value of type `k`; messages are nested at most `d` deep. -/
def Fits (S : Schema) : Nat → Kind → Val → Prop
  | _, k, .num n => n < k.range
  | _, .string, .bytes s => Utf8 s
  | _, .bytes, .bytes _ => True
  | _, k, .nums l => l ≠ [] ∧ ∀ n ∈ l, n < k.range
  | d + 1, .msg t, .msg fs u => (∀ e ∈ fs, ∃ f ∈ S t, f.num = e.1 ∧ f.Takes e.2 ∧ Fits S d f.kind e.2) ∧ InOrder S t fs ∧ Unknown S t u
  | _, _, _ => False

/-- A string somewhere in a value. -/
inductive HasString (S : Schema) : Kind → Val → Bytes → Prop
  | here (s : Bytes) : HasString S .string (.bytes s) s
  | inside {t : Nat} {fs : List (Nat × Val)} {u s : Bytes} {e : Nat × Val} {f : Field} : e ∈ fs → f ∈ S t → f.num = e.1 →
      HasString S f.kind e.2 s → HasString S (.msg t) (.msg fs u) s

/-- The message types are proper: field numbers differ and are in range, messages have presence and are not packed, nor are strings. -/
structure Schema.Proper (S : Schema) : Prop where
  differ : ∀ t, (S t).Pairwise fun f g => f.num ≠ g.num
  range : ∀ t, ∀ f ∈ S t, 1 ≤ f.num ∧ f.num < 2 ^ 29
  packed : ∀ t, ∀ f ∈ S t, f.card = .packed → f.kind ≠ .string ∧ f.kind ≠ .bytes ∧ ∀ t', f.kind ≠ .msg t'
  message : ∀ t, ∀ f ∈ S t, ∀ t', f.kind = .msg t' → f.card ≠ .implicit

/-- The value of an attribute that can be written: strings are UTF-8, numbers have 64 bits, no element of a list is missing; messages are nested
at most `d` deep (a list is two messages, a list of pairs is three). -/
def AnyOk : Nat → Rd.Any → Prop
  | _ + 1, .unset => True
  | _ + 1, .str s => Utf8 s
  | _ + 1, .bool _ => True
  | _ + 1, .int i => -2 ^ 63 ≤ i ∧ i < 2 ^ 63
  | _ + 1, .double n => n < 2 ^ 64
  | _ + 1, .bytes _ => True
  | d + 2, .array l => ∀ x ∈ l, AnyOk d x
  | d + 3, .kvs l => ∀ p ∈ l, Utf8 p.1 ∧ (p.2 = .nil ∨ AnyOk d p.2)
  | _, _ => False

end Verif.Pb
