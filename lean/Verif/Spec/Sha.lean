import Mathlib.Data.Nat.Nth
import Mathlib.Data.Nat.Prime.Defs
/-
SHA-256 as in FIPS 180-4 and the ChaCha block function as in its specification (with 8 rounds and a 64-bit counter), on 32-bit vectors (C96).
Independent of the model: the message schedule is the recursion of the standard, the constants are given by the roots they come from.
-/
namespace OnionPIR.Spec

namespace Fips180

abbrev Word := BitVec 32

/-- `k` is the first 32 bits of the fractional part of the cube root of `p`. -/
def CubeRootBits (p : Nat) (k : Word) : Prop :=
  ∃ c : Nat, (c * 2 ^ 32 + k.toNat) ^ 3 ≤ p * (2 ^ 32) ^ 3 ∧ p * (2 ^ 32) ^ 3 < (c * 2 ^ 32 + k.toNat + 1) ^ 3

/-- `k` is the first 32 bits of the fractional part of the square root of `p`. -/
def SquareRootBits (p : Nat) (k : Word) : Prop :=
  ∃ c : Nat, (c * 2 ^ 32 + k.toNat) ^ 2 ≤ p * (2 ^ 32) ^ 2 ∧ p * (2 ^ 32) ^ 2 < (c * 2 ^ 32 + k.toNat + 1) ^ 2

/-- The eight working variables. -/
structure State where
  (a b c d e f g h : Word)

/-- The constants of SHA-256 (4.2.2, 5.3.3): roots of the first primes. -/
structure Constants (K : Nat → Word) (H : State) : Prop where
  round : ∀ t < 64, CubeRootBits (Nat.nth Nat.Prime t) (K t)
  a : SquareRootBits (Nat.nth Nat.Prime 0) H.a
  b : SquareRootBits (Nat.nth Nat.Prime 1) H.b
  c : SquareRootBits (Nat.nth Nat.Prime 2) H.c
  d : SquareRootBits (Nat.nth Nat.Prime 3) H.d
  e : SquareRootBits (Nat.nth Nat.Prime 4) H.e
  f : SquareRootBits (Nat.nth Nat.Prime 5) H.f
  g : SquareRootBits (Nat.nth Nat.Prime 6) H.g
  h : SquareRootBits (Nat.nth Nat.Prime 7) H.h

/-- The functions (4.2)-(4.7). -/
def Ch (x y z : Word) : Word := (x &&& y) ^^^ (~~~x &&& z)
def Maj (x y z : Word) : Word := (x &&& y) ^^^ (x &&& z) ^^^ (y &&& z)
def Sigma0 (x : Word) : Word := x.rotateRight 2 ^^^ x.rotateRight 13 ^^^ x.rotateRight 22
def Sigma1 (x : Word) : Word := x.rotateRight 6 ^^^ x.rotateRight 11 ^^^ x.rotateRight 25
def sigma0 (x : Word) : Word := x.rotateRight 7 ^^^ x.rotateRight 18 ^^^ x >>> 3
def sigma1 (x : Word) : Word := x.rotateRight 17 ^^^ x.rotateRight 19 ^^^ x >>> 10

/-- The message schedule `W_t` (6.2.2, step 1). -/
def schedule (M : Nat → Word) (t : Nat) : Word :=
  if t < 16 then M t
  else sigma1 (schedule M (t - 2)) + schedule M (t - 7) + sigma0 (schedule M (t - 15)) + schedule M (t - 16)

/-- The working variables after `t` rounds (6.2.2, step 3). -/
def after (K M : Nat → Word) (s : State) : Nat → State
  | 0 => s
  | t + 1 =>
      let v := after K M s t
      let T1 := v.h + Sigma1 v.e + Ch v.e v.f v.g + K t + schedule M t
      let T2 := Sigma0 v.a + Maj v.a v.b v.c
      ⟨T1 + T2, v.a, v.b, v.c, v.d + T1, v.e, v.f, v.g⟩

/-- The hash value after one more block (6.2.2, step 4). -/
def compress (K : Nat → Word) (s : State) (M : Nat → Word) : State :=
  let v := after K M s 64
  ⟨s.a + v.a, s.b + v.b, s.c + v.c, s.d + v.d, s.e + v.e, s.f + v.f, s.g + v.g, s.h + v.h⟩

/-- The hash value after `n` blocks of the message words `M`. -/
def chain (K : Nat → Word) (H : State) (M : Nat → Word) : Nat → State
  | 0 => H
  | n + 1 => compress K (chain K H M n) fun i => M (16 * n + i)

/-- The `i`-th word of a list of bytes, the first byte the highest. -/
def word (bytes : List Nat) (i : Nat) : Word :=
  BitVec.ofNat 32 (((bytes.getD (4 * i) 0 * 256 + bytes.getD (4 * i + 1) 0) * 256 + bytes.getD (4 * i + 2) 0) * 256 + bytes.getD (4 * i + 3) 0)

/-- The `k`-byte big-endian form of `x`. -/
def bigEndian (k x : Nat) : List Nat := (List.range k).map fun i => x / 256 ^ (k - 1 - i) % 256

/-- Padding (5.1.1): a one bit, the least number of zero bits that completes the blocks, the length in bits as 64 bits. -/
def Padded (msg padded : List Nat) : Prop :=
  ∃ z, z < 64 ∧ 64 ∣ padded.length ∧ padded = msg ++ [128] ++ List.replicate z 0 ++ bigEndian 8 (8 * msg.length)

/-- The bytes of the hash value. -/
def State.bytes (s : State) : List Nat := [s.a, s.b, s.c, s.d, s.e, s.f, s.g, s.h].flatMap fun w => bigEndian 4 w.toNat

/-- `digest` is the SHA-256 hash of `msg`. -/
def IsSha256 (msg digest : List Nat) : Prop :=
  ∃ K H padded, Constants K H ∧ Padded msg padded ∧ digest = (chain K H (word padded) (padded.length / 64)).bytes

end Fips180

namespace ChaCha

abbrev Word := BitVec 32

/-- The quarter round. -/
def quarterRound (a b c d : Word) : Word × Word × Word × Word :=
  let a := a + b; let d := (d ^^^ a).rotateLeft 16
  let c := c + d; let b := (b ^^^ c).rotateLeft 12
  let a := a + b; let d := (d ^^^ a).rotateLeft 8
  let c := c + d; let b := (b ^^^ c).rotateLeft 7
  (a, b, c, d)

/-- The quarter round on the positions `a`, `b`, `c`, `d` of the state. -/
def quarterAt (a b c d : Nat) (s : Nat → Word) : Nat → Word :=
  let q := quarterRound (s a) (s b) (s c) (s d)
  fun i => if i = a then q.1 else if i = b then q.2.1 else if i = c then q.2.2.1 else if i = d then q.2.2.2 else s i

/-- The four columns, then the four diagonals of the 4x4 matrix. -/
def doubleRound (s : Nat → Word) : Nat → Word :=
  let s := quarterAt 3 7 11 15 (quarterAt 2 6 10 14 (quarterAt 1 5 9 13 (quarterAt 0 4 8 12 s)))
  quarterAt 3 4 9 14 (quarterAt 2 7 8 13 (quarterAt 1 6 11 12 (quarterAt 0 5 10 15 s)))

/-- "expand 32-byte k" in ASCII. -/
def sigma : List Nat := [101, 120, 112, 97, 110, 100, 32, 51, 50, 45, 98, 121, 116, 101, 32, 107]

/-- The `i`-th word of a list of bytes, the first byte the lowest. -/
def word (bytes : List Nat) (i : Nat) : Word :=
  BitVec.ofNat 32 (bytes.getD (4 * i) 0 + 256 * (bytes.getD (4 * i + 1) 0 + 256 * (bytes.getD (4 * i + 2) 0 + 256 * bytes.getD (4 * i + 3) 0)))

/-- The state for a key of 32 bytes and a block number; the nonce is zero. -/
def start (key : List Nat) (n : Nat) (i : Nat) : Word :=
  if i < 4 then word sigma i
  else if i < 12 then word key (i - 4)
  else if i = 12 then BitVec.ofNat 32 n
  else if i = 13 then BitVec.ofNat 32 (n / 2 ^ 32)
  else 0

/-- The `i`-th word of the `n`-th block of the key stream, with 8 rounds. -/
def keyStream (key : List Nat) (n i : Nat) : Word := doubleRound^[4] (start key n) i + start key n i

/-- The `j`-th 64-bit word of the key stream, the first half the lower. -/
def keyStream64 (key : List Nat) (j : Nat) : Nat :=
  (keyStream key (j / 8) (2 * (j % 8))).toNat + 2 ^ 32 * (keyStream key (j / 8) (2 * (j % 8) + 1)).toNat

end ChaCha
end OnionPIR.Spec
