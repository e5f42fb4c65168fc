import Verif.Model.Machine
import Mathlib.Data.Nat.Prime.Basic
import Mathlib.Data.Int.GCD
/-
Model of /repo/src/utils.rs, and of `BfvParameters::generate_moduli` (src/bfv.rs:205-226).
-/
namespace OnionPIR

/-- The `while !value.is_zero()` loop of `bit_vector` (src/utils.rs:17-28); `value & 1` is `value % 2`.
`bit_vec[index] = …` panics when `index` is out of bounds. -/
def bitVectorLoop (value index : Nat) (bits : List Bool) : Res (List Bool) :=
  if h : value = 0 then .ok bits
  else if index < bits.length then
    bitVectorLoop (value / 2) (index + 1) (bits.set index (value % 2 = 1))
  else .error .bounds
termination_by value
decreasing_by omega

/-- `bit_vector` (src/utils.rs:11-31). `vec![false; bit_size]` panics with a capacity overflow above `isize::MAX` bytes. -/
def bitVector (bitSize m : Nat) : Res (List Bool) :=
  if bitSize < 2 ^ 63 then bitVectorLoop m 0 (List.replicate bitSize false) else .error .capacity

/-- `slice::chunks(k)` of the standard library, `k ≥ 1`: consecutive pieces of length `k`, last one shorter. -/
def chunks {α : Type _} (k : Nat) (l : List α) : List (List α) :=
  if h : k = 0 ∨ l = [] then [] else l.take k :: chunks k (l.drop k)
termination_by l.length
decreasing_by
  have h1 : 0 < k := by omega
  have h2 : 0 < l.length := List.length_pos_iff.mpr (by simp_all)
  simp only [List.length_drop]; omega

/-- The digit fold `acc * 2 + (*b as u64)` over the reversed chunk (src/utils.rs:40-43). -/
def chunkValue (pr : Profile) (chunk : List Bool) : Res Nat :=
  foldR (fun acc b => do
    let a2 ← mulW 64 pr acc 2
    addW 64 pr a2 b.toNat) 0 chunk.reverse

/-- `decompose_bits` (src/utils.rs:33-48). `chunks(0)` panics. -/
def decomposeBits (pr : Profile) (m parentBits decompBits : Nat) : Res (List Nat) := do
  let bv ← bitVector parentBits m
  rassert (decompBits ≠ 0)
  mapR (chunkValue pr) (chunks decompBits bv)

/-- State of `sample_vec_cbd`: pool, number of pool bits, words not yet drawn, outputs so far. -/
structure CbdState where
  pool : Nat
  nbits : Nat
  pos : Nat
  out : List Int

/-- One iteration of the loop of `sample_vec_cbd` (src/utils.rs:70-82).
`rng i` is the `i`-th word returned by `rng.next_u64()`. `u128 <<` keeps the low 128 bits. -/
def cbdStep (pr : Profile) (rng : Nat → Nat) (variance : Nat) (s : CbdState) : Res CbdState := do
  let numberBits := 4 * variance
  let maskAdd := ((2 ^ 64 - 1) >>> (64 - numberBits)) >>> (2 * variance)
  let maskSub := (maskAdd <<< (2 * variance)) % 2 ^ 128
  let s := if s.nbits < numberBits then
      { s with pool := s.pool ||| ((rng s.pos <<< s.nbits) % 2 ^ 128), nbits := s.nbits + 64, pos := s.pos + 1 }
    else s
  dassert pr (numberBits ≤ s.nbits)
  let v : Int := (countOnes 128 (s.pool &&& maskAdd) : Int) - (countOnes 128 (s.pool &&& maskSub) : Int)
  let nb ← subW 64 pr s.nbits numberBits
  .ok { pool := s.pool >>> numberBits, nbits := nb, pos := s.pos, out := s.out ++ [v] }

/-- `sample_vec_cbd` (src/utils.rs:54-85). -/
def sampleVecCbd (pr : Profile) (rng : Nat → Nat) (vectorSize variance : Nat) : Res (List Int) := do
  rassert (variance ≥ 1 ∧ variance ≤ 16)
  let s ← foldR (fun s _ => cbdStep pr rng variance s) ⟨0, 0, 0, []⟩ (List.range vectorSize)
  .ok s.out

/-- `ilog2` (src/utils.rs:90-92) for a `w`-bit type. -/
def ilog2 (w : Nat) (pr : Profile) (value : Nat) : Res Nat := subW 64 pr (w - 1) (leadingZeros w value)

/-- `div_ceil` (src/utils.rs:101-104) for a `w`-bit type. -/
def divCeil (w : Nat) (pr : Profile) (a b : Nat) : Res Nat := do
  rassert (b ≠ 0)
  let s ← addW w pr a b
  let s ← subW w pr s 1
  divR s b

/-- `is_prime` (src/utils.rs:110-112): `probably_prime(p, 0)` (Baillie–PSW) is exact below `2^64`
(assumption about the external crate). -/
def isPrime (p : Nat) : Bool := decide p.Prime

/-- `mod_inverse` of the external crate `num-bigint-dig` as used in src/utils.rs:95-99 and src/rns.rs:
the inverse in `[0, q)` when `gcd(v,q) = 1`, otherwise `None` (assumption about the external crate). -/
def modInverse (v q : Nat) : Option Nat :=
  if Nat.gcd v q = 1 then some (((Nat.gcdA v q) % (q : Int)).toNat) else none

/-- First `while` loop of `generate_prime` (src/utils.rs:129-131); `t -= 1` cannot underflow since a value with
the right number of leading zeros is positive. -/
def genPrimeAlign (lz modulo : Nat) (t : Nat) : Nat :=
  if h : t % modulo ≠ 1 ∧ leadingZeros 64 t = lz ∧ 0 < t then genPrimeAlign lz modulo (t - 1) else t
termination_by t
decreasing_by omega

/-- Second `while` loop of `generate_prime` (src/utils.rs:133-138). `modulo = 0` has already panicked. -/
def genPrimeSearch (lz modulo : Nat) (t : Nat) : Nat :=
  if h : leadingZeros 64 t = lz ∧ isPrime t = false ∧ t ≥ modulo ∧ 0 < modulo ∧ 0 < t then
    genPrimeSearch lz modulo (t - modulo) else t
termination_by t
decreasing_by omega

/-- `generate_prime` (src/utils.rs:117-146). -/
def generatePrime (pr : Profile) (numBits modulo upperBound : Nat) : Res (Option Nat) := do
  if ¬ (10 ≤ numBits ∧ numBits ≤ 62) then .ok none
  else do
    dassert pr (2 ^ numBits ≥ upperBound)
    let lz := 64 - numBits
    let t ← subW 64 pr upperBound 1
    if modulo = 0 then .error .divZero
    else
      let t := genPrimeAlign lz modulo t
      let t := genPrimeSearch lz modulo t
      if leadingZeros 64 t = lz ∧ isPrime t = true then .ok (some t) else .ok none

/-- `struct U256(u64, u64, u64, u64)` (src/utils.rs:153), least significant limb first. -/
structure U256 where
  l0 : Nat
  l1 : Nat
  l2 : Nat
  l3 : Nat
  deriving DecidableEq, Repr

/-- `u64::overflowing_add`. -/
def ovAdd (a b : Nat) : Nat × Bool := ((a + b) % 2 ^ 64, decide (2 ^ 64 ≤ a + b))
/-- `u64::overflowing_sub`. -/
def ovSub (a b : Nat) : Nat × Bool := ((a + 2 ^ 64 - b) % 2 ^ 64, decide (a < b))

namespace U256

/-- `U256::zero` (src/utils.rs:157-159). -/
def zero : U256 := ⟨0, 0, 0, 0⟩

/-- `wrapping_add_assign` (src/utils.rs:162-174). -/
def wrappingAdd (x y : U256) : U256 :=
  let (a, c1) := ovAdd x.l0 y.l0
  let (b, c2) := ovAdd x.l1 y.l1
  let (c, c3) := ovAdd b c1.toNat
  let (d, c4) := ovAdd x.l2 y.l2
  let (e, c5) := ovAdd d (c2 || c3).toNat
  let f := (x.l3 + y.l3) % 2 ^ 64
  let g := (f + (c4 || c5).toNat) % 2 ^ 64
  ⟨a, c, e, g⟩

/-- `wrapping_sub_assign` (src/utils.rs:177-189). -/
def wrappingSub (x y : U256) : U256 :=
  let (a, b1) := ovSub x.l0 y.l0
  let (b, b2) := ovSub x.l1 y.l1
  let (c, b3) := ovSub b b1.toNat
  let (d, b4) := ovSub x.l2 y.l2
  let (e, b5) := ovSub d (b2 || b3).toNat
  let f := (x.l3 + 2 ^ 64 - y.l3) % 2 ^ 64
  let g := (f + 2 ^ 64 - (b4 || b5).toNat) % 2 ^ 64
  ⟨a, c, e, g⟩

/-- `msb` (src/utils.rs:192-194). -/
def msb (x : U256) : Nat := x.l3 >>> 63

/-- `From<[u64; 4]>` (src/utils.rs:197-201). -/
def ofU64s (a b c d : Nat) : U256 := ⟨a, b, c, d⟩

/-- `From<[u128; 2]>` (src/utils.rs:203-212). -/
def ofU128s (a b : Nat) : U256 := ⟨a % 2 ^ 64, (a >>> 64) % 2 ^ 64, b % 2 ^ 64, (b >>> 64) % 2 ^ 64⟩

/-- `From<&U256> for u128` (src/utils.rs:229-234); the sum cannot overflow for 64-bit limbs. -/
def toU128 (pr : Profile) (x : U256) : Res Nat := do
  dassert pr (x.l2 = 0 ∧ x.l3 = 0)
  addW 128 pr x.l0 (x.l1 <<< 64)

/-- `From<U256> for [u128; 2]` (src/utils.rs:220-227). -/
def toU128s (pr : Profile) (x : U256) : Res (Nat × Nat) := do
  let a ← addW 128 pr x.l0 (x.l1 <<< 64)
  let b ← addW 128 pr x.l2 (x.l3 <<< 64)
  .ok (a, b)

/-- `Not for U256` (src/utils.rs:236-242). -/
def not (x : U256) : U256 := ⟨2 ^ 64 - 1 - x.l0, 2 ^ 64 - 1 - x.l1, 2 ^ 64 - 1 - x.l2, 2 ^ 64 - 1 - x.l3⟩

/-- `u64 << k`, `k < 64`. -/
def shl64 (a k : Nat) : Nat := (a <<< k) % 2 ^ 64

/-- `ShrAssign<usize>` (src/utils.rs:254-290). For `rhs ≥ 256` the debug profile panics at the `debug_assert!`;
in the release profile the shift amount `rhs - 192` is taken modulo 64. -/
def shr (pr : Profile) (x : U256) (rhs : Nat) : Res U256 := do
  dassert pr (rhs < 256)
  if rhs ≥ 192 then .ok ⟨x.l3 >>> ((rhs - 192) % 64), 0, 0, 0⟩
  else if rhs > 128 then .ok ⟨(x.l2 >>> (rhs - 128)) ||| shl64 x.l3 (192 - rhs), x.l3 >>> (rhs - 128), 0, 0⟩
  else if rhs = 128 then .ok ⟨x.l2, x.l3, 0, 0⟩
  else if rhs > 64 then .ok ⟨(x.l1 >>> (rhs - 64)) ||| shl64 x.l2 (128 - rhs),
      (x.l2 >>> (rhs - 64)) ||| shl64 x.l3 (128 - rhs), x.l3 >>> (rhs - 64), 0⟩
  else if rhs = 64 then .ok ⟨x.l1, x.l2, x.l3, 0⟩
  else if rhs > 0 then .ok ⟨(x.l0 >>> rhs) ||| shl64 x.l1 (64 - rhs), (x.l1 >>> rhs) ||| shl64 x.l2 (64 - rhs),
      (x.l2 >>> rhs) ||| shl64 x.l3 (64 - rhs), x.l3 >>> rhs⟩
  else .ok x

end U256

/-- The inner `loop` of `generate_moduli` (src/bfv.rs:211-222). The bound decreases at every iteration, so
`fuel = 2^size` iterations suffice (`c11_terminates` shows that the fuel never runs out). -/
def genModuliLoop (pr : Profile) (size degree : Nat) (moduli : List Nat) : (fuel : Nat) → (upperBound : Nat) →
    Res (Option (List Nat))
  | 0, _ => .error .diverge
  | fuel + 1, upperBound => do
      let d2 ← mulW 64 pr 2 degree
      match ← generatePrime pr size d2 upperBound with
      | some prime =>
        if moduli.contains prime then genModuliLoop pr size degree moduli fuel prime
        else .ok (some (moduli ++ [prime]))
      | none => .ok none

/-- The outer loop of `generate_moduli` (src/bfv.rs:207-223). -/
def genModuliSizes (pr : Profile) (degree : Nat) : List Nat → List Nat → Res (Option (List Nat))
  | [], moduli => .ok (some moduli)
  | size :: sizes, moduli => do
      rassert (size ≤ 62 ∧ size ≥ 10)
      match ← genModuliLoop pr size degree moduli (2 ^ size) (2 ^ size) with
      | some moduli => genModuliSizes pr degree sizes moduli
      | none => .ok none

/-- `BfvParameters::generate_moduli` (src/bfv.rs:205-226). -/
def generateModuli (pr : Profile) (sizes : List Nat) (degree : Nat) : Res (Option (List Nat)) :=
  genModuliSizes pr degree sizes []

end OnionPIR
