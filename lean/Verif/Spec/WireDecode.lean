import Verif.Spec.Wire
import Mathlib.Data.List.Forall2
/-!
# What bytes mean

Which bytes are a message, and which: the rules for fields that occur again, in any order, in parts, or that are not known.
<https://protobuf.dev/programming-guides/encoding/#last-one-wins>
-/
namespace Verif.Pb

/-- A field on the wire: its number, its wire type, and the bytes after the tag. -/
structure Piece where
  num : Nat
  wt : Nat
  raw : Bytes

/-- The bytes are these fields, one after the other. -/
inductive Pieces : List Piece → Bytes → Prop
  | nil : Pieces [] []
  | cons {p : Piece} {ps : List Piece} {l r : Bytes} : 1 ≤ p.num → p.num < 2 ^ 29 → Varint l (p.num * 8 + p.wt) → Raw 10001 p.num p.wt p.raw →
      Pieces ps r → Pieces (p :: ps) (l ++ p.raw ++ r)

/-- The wire type of a single value of the field. -/
def Field.single (f : Field) : Nat := { f with card := .repeated : Field }.wire

/-- The piece is for field `f`. The numbers of a packed list may also come one by one. -/
def Field.Has (f : Field) (p : Piece) : Prop := p.num = f.num ∧ (p.wt = f.wire ∨ f.card = .packed ∧ p.wt = f.single)

/-- The piece is for another member of the oneof. -/
def Ousts (S : Schema) (t : Nat) (f : Field) (p : Piece) : Prop :=
  ∃ g ∈ S t, g.num ≠ f.num ∧ g.Has p ∧ ∃ o, f.card = .oneof o ∧ g.card = .oneof o

open Classical in
/-- The pieces for field `f` that count: all, or those after the last one for another member of its oneof. -/
noncomputable def counting (S : Schema) (t : Nat) (f : Field) (ps : List Piece) : List Piece :=
  ps.foldl (fun l p => if f.Has p then l ++ [p] else if Ousts S t f p then [] else l) []

/-- The number that bytes mean. Of a number with 32 bits the lowest of the varint count, and every varint but 0 is true. -/
def Means (k : Kind) (n : Nat) (b : Bytes) : Prop :=
  match k with
  | .bool => ∃ w, Varint b w ∧ n = if w = 0 then 0 else 1
  | .enum | .uint32 => ∃ w, Varint b w ∧ n = w % 2 ^ 32
  | .sint32 => ∃ w, Varint b w ∧ n < 2 ^ 32 ∧ ((w % 2 ^ 32 : Nat) : Int) = if 0 ≤ signed32 n then 2 * signed32 n else -2 * signed32 n - 1
  | .int64 | .uint64 => Varint b n
  | .fixed32 => b.length = 4 ∧ LowFirst b n
  | .fixed64 => b.length = 8 ∧ LowFirst b n
  | .string | .bytes | .msg _ => False

/-- Numbers, one after the other. -/
inductive AllMean (k : Kind) : List Nat → Bytes → Prop
  | nil : AllMean k [] []
  | cons {n : Nat} {l : List Nat} {b r : Bytes} : Means k n b → AllMean k l r → AllMean k (n :: l) (b ++ r)

/-- The value that is not a message. -/
def Scalar (k : Kind) (v : Val) (b : Bytes) : Prop :=
  match k with
  | .string => ∃ s, v = .bytes s ∧ Utf8 s ∧ Delimited s b
  | .bytes => ∃ s, v = .bytes s ∧ Delimited s b
  | k => ∃ n, v = .num n ∧ Means k n b

/-- The numbers of a piece of a packed list. -/
def Part (k : Kind) (p : Piece) (l : List Nat) : Prop :=
  if p.wt = 2 then ∃ s, Delimited s p.raw ∧ AllMean k l s else ∃ n, l = [n] ∧ Means k n p.raw

/-- The piece, by itself, is well-formed; `sub t s v`: the bytes `s` are the message `v` of type `t`. -/
def Sound (sub : Nat → Bytes → Val → Prop) (f : Field) (p : Piece) : Prop :=
  match f.kind with
  | .msg t => ∃ s v, Delimited s p.raw ∧ sub t s v
  | k => if f.card = .packed then ∃ l, Part k p l else ∃ v, Scalar k v p.raw

/-- The values `vs` of field `f`, from the pieces that count for it. Lists: all of them. The parts of a message are put together. Otherwise the last one
counts; a scalar without presence is not set if it is zero. -/
def Result (sub : Nat → Bytes → Val → Prop) (f : Field) (ps : List Piece) (vs : List Val) : Prop :=
  match f.card, f.kind with
  | .repeated, .msg t => List.Forall₂ (fun p v => ∃ s, Delimited s p.raw ∧ sub t s v) ps vs
  | .repeated, k => List.Forall₂ (fun p v => Scalar k v p.raw) ps vs
  | .packed, k => ∃ ls, List.Forall₂ (Part k) ps ls ∧ vs = if ls.flatten = [] then [] else [.nums ls.flatten]
  | _, .msg t => ps = [] ∧ vs = [] ∨
      ps ≠ [] ∧ ∃ (ss : List Bytes) (v : Val), List.Forall₂ (fun p s => Delimited s p.raw) ps ss ∧ sub t ss.flatten v ∧ vs = [v]
  | c, k => ps = [] ∧ vs = [] ∨ ∃ p v, ps.getLast? = some p ∧ Scalar k v p.raw ∧ (c = .implicit ∧ v.Zero ∧ vs = [] ∨ ¬ (c = .implicit ∧ v.Zero) ∧ vs = [v])

/-- The fields that the type does not have are kept. -/
inductive Kept (S : Schema) (t : Nat) : List Piece → Bytes → Prop
  | nil : Kept S t [] []
  | known {f : Field} {p : Piece} {ps : List Piece} {u : Bytes} : f ∈ S t → f.Has p → Kept S t ps u → Kept S t (p :: ps) u
  | unknown {p : Piece} {ps : List Piece} {l u : Bytes} : (∀ f ∈ S t, ¬ f.Has p) → Shortest l (p.num * 8 + p.wt) → Kept S t ps u →
      Kept S t (p :: ps) (l ++ p.raw ++ u)

/-- The values of a field. -/
def valuesOf (n : Nat) (fs : List (Nat × Val)) : List Val := (fs.filter fun e => e.1 = n).map (·.2)

/-- The bytes `b` are the message `v` of type `t`, with messages nested at most `d` deep. -/
def Decodes (S : Schema) : (d t : Nat) → Bytes → Val → Prop
  | d + 1, t, b, .msg fs u => ∃ ps, Pieces ps b ∧ (∀ f ∈ S t, ∀ p ∈ ps, f.Has p → Sound (Decodes S d) f p) ∧ Kept S t ps u ∧
      InOrder S t fs ∧ (∀ e ∈ fs, ∃ f ∈ S t, f.num = e.1) ∧ ∀ f ∈ S t, Result (Decodes S d) f (counting S t f ps) (valuesOf f.num fs)
  | _, _, _, _ => False

end Verif.Pb
