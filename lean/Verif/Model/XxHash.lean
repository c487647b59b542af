import Verif.Model.Bytes
/-!
# xxHash64 (external library github.com/cespare/xxhash/v2)

Modelled from the published algorithm, seed 0, over natural numbers modulo 2^64. A `Digest` is its four accumulators at the
start and the bytes written so far: writing in pieces is the same as writing their concatenation.
-/
namespace Verif.Xx

def two64 : Nat := 2 ^ 64
def prime1 : Nat := 11400714785074694791
def prime2 : Nat := 14029467366897019727
def prime3 : Nat := 1609587929392839161
def prime4 : Nat := 9650029242287828579
def prime5 : Nat := 2870177450012600261

def add (a b : Nat) : Nat := (a + b) % two64
def mul (a b : Nat) : Nat := (a * b) % two64
def rol (x r : Nat) : Nat := ((x <<< r) % two64) ||| (x >>> (64 - r))

/-- Little-endian number of some bytes. -/
def le : Bytes → Nat
  | [] => 0
  | b :: bs => b.toNat + 256 * le bs

def round (acc input : Nat) : Nat := mul (rol (add acc (mul input prime2)) 31) prime1
def mergeRound (acc val : Nat) : Nat := add (mul (Nat.xor acc (round 0 val)) prime1) prime4

/-- The four accumulators. -/
structure Acc where
  v1 : Nat
  v2 : Nat
  v3 : Nat
  v4 : Nat

/-- After `Reset` (and in `Sum64`, `Sum64String`). -/
def Acc.reset : Acc := ⟨(prime1 + prime2) % two64, prime2, 0, two64 - prime1⟩
/-- `var h xxhash.Digest`. -/
def Acc.zero : Acc := ⟨0, 0, 0, 0⟩

def Acc.block (a : Acc) (b : Bytes) : Acc :=
  ⟨round a.v1 (le (b.take 8)), round a.v2 (le ((b.drop 8).take 8)), round a.v3 (le ((b.drop 16).take 8)), round a.v4 (le ((b.drop 24).take 8))⟩

/-- All whole blocks of 32 bytes, and what is left (`fuel` at least the length). -/
def blocks : Nat → Acc → Bytes → Acc × Bytes
  | 0, a, b => (a, b)
  | fuel + 1, a, b => if b.length < 32 then (a, b) else blocks fuel (a.block b) (b.drop 32)

def Acc.converge (a : Acc) : Nat :=
  mergeRound (mergeRound (mergeRound (mergeRound
    (add (add (add (rol a.v1 1) (rol a.v2 7)) (rol a.v3 12)) (rol a.v4 18)) a.v1) a.v2) a.v3) a.v4

def tail8 : Nat → Nat → Bytes → Nat × Bytes
  | 0, h, b => (h, b)
  | fuel + 1, h, b =>
    if b.length < 8 then (h, b)
    else tail8 fuel (add (mul (rol (Nat.xor h (round 0 (le (b.take 8)))) 27) prime1) prime4) (b.drop 8)

def tail4 (h : Nat) (b : Bytes) : Nat × Bytes :=
  if b.length < 4 then (h, b)
  else (add (mul (rol (Nat.xor h (mul (le (b.take 4)) prime1)) 23) prime2) prime3, b.drop 4)

def tail1 (h : Nat) (b : Bytes) : Nat := b.foldl (fun h x => mul (rol (Nat.xor h (mul x.toNat prime5)) 11) prime1) h

def avalanche (h : Nat) : Nat :=
  let h := mul (Nat.xor h (h >>> 33)) prime2
  let h := mul (Nat.xor h (h >>> 29)) prime3
  Nat.xor h (h >>> 32)

/-- `Sum64` of a digest that started with accumulators `a` and was given `b`. -/
def sum (a : Acc) (b : Bytes) : Nat :=
  let s := blocks b.length a b
  let h := if 32 ≤ b.length then s.1.converge else add a.v3 prime5
  let t := tail8 b.length (add h b.length) s.2
  let t := tail4 t.1 t.2
  avalanche (tail1 t.1 t.2)

/-- `xxhash.Sum64`, `xxhash.Sum64String`, and a `Digest` after `Reset`. -/
def sum64 (b : Bytes) : Nat := sum .reset b
/-- A `Digest` used without `Reset`. -/
def sumZero (b : Bytes) : Nat := sum .zero b

/-- Test vectors of the published algorithm. -/
example : sum64 [] = 0xEF46DB3751D8E999 := by decide +kernel
example : sum64 [97] = 0xd24ec4f1a98c6e5b := by decide +kernel
example : sum64 [97, 98, 99] = 0x44bc2cf5ad770999 := by decide +kernel

example : sum64 [67, 97, 108, 108, 32, 109, 101, 32, 73, 115, 104, 109, 97, 101, 108, 46, 32, 83, 111, 109, 101, 32, 121, 101, 97, 114, 115, 32, 97, 103, 111, 45, 45, 110, 101, 118, 101, 114, 32, 109, 105, 110, 100, 32, 104, 111, 119, 32, 108, 111, 110, 103, 32, 112, 114, 101, 99, 105, 115, 101, 108, 121, 45] = 0x02a2e85470d6fd96 := by
  decide +kernel

/-- Values of an independent implementation of the published algorithm, at the lengths where its loops change. -/
example : sum64 (List.map UInt8.ofNat (List.range 4)) = 0xffced8604453cc1e := by decide +kernel
example : sum64 (List.map UInt8.ofNat (List.range 5)) = 0xdd0274386e26030c := by decide +kernel
example : sum64 (List.map UInt8.ofNat (List.range 7)) = 0x14cc643f630c72d2 := by decide +kernel
example : sum64 (List.map UInt8.ofNat (List.range 8)) = 0x884a173614b81b8d := by decide +kernel
example : sum64 (List.map UInt8.ofNat (List.range 9)) = 0x67d85784a7c78c5b := by decide +kernel
example : sum64 (List.map UInt8.ofNat (List.range 11)) = 0x652a564a95365aca := by decide +kernel
example : sum64 (List.map UInt8.ofNat (List.range 12)) = 0x424af23f1f08dca5 := by decide +kernel
example : sum64 (List.map UInt8.ofNat (List.range 15)) = 0xa948f5f0f6abac2d := by decide +kernel
example : sum64 (List.map UInt8.ofNat (List.range 16)) = 0x44b6ef2fb84169f7 := by decide +kernel
example : sum64 (List.map UInt8.ofNat (List.range 31)) = 0xc346d2b59b4d8ee1 := by decide +kernel
example : sum64 (List.map UInt8.ofNat (List.range 32)) = 0xcbf59c5116ff32b4 := by decide +kernel
example : sum64 (List.map UInt8.ofNat (List.range 33)) = 0x0c535d1acafb8ead := by decide +kernel
example : sum64 (List.map UInt8.ofNat (List.range 36)) = 0xdde0ef85e3aef05c := by decide +kernel
example : sum64 (List.map UInt8.ofNat (List.range 40)) = 0xf5da40f1b11741e9 := by decide +kernel
example : sum64 (List.map UInt8.ofNat (List.range 64)) = 0xf7c67301db6713f0 := by decide +kernel

/-- The same without `Reset`. -/
example : sumZero (List.map UInt8.ofNat (List.range 5)) = 15925419018050470668 := by decide +kernel
example : sumZero (List.map UInt8.ofNat (List.range 32)) = 18222642871793164642 := by decide +kernel
example : sumZero (List.map UInt8.ofNat (List.range 45)) = 11719194518623559127 := by decide +kernel

/-- Below 32 bytes the two agree. -/
theorem sumZero_short {b : Bytes} (h : b.length < 32) : sumZero b = sum64 b := by
  have h1 : ∀ n a, blocks n a b = (a, b) := by
    intro n a
    cases n with
    | zero => rfl
    | succ n => simp [blocks, h]
  have h2 : ¬ 32 ≤ b.length := by omega
  simp only [sumZero, sum64, sum, h1, h2, if_false]
  rfl

/-- With 32 bytes they need not. -/
theorem sumZero_long : ∃ b : Bytes, b.length = 32 ∧ sumZero b ≠ sum64 b :=
  ⟨List.replicate 32 97, by decide +kernel, by decide +kernel⟩

end Verif.Xx
