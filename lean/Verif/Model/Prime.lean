import Verif.Model.Utils

/-! Model of `probably_prime(x, 0)` of the external crate `num-bigint-dig` 0.8.1 (pinned in /repo/Cargo.lock), which `is_prime` calls
(/repo/src/utils.rs:110-112). It is written from the published source of that crate: src/prime.rs (`probably_prime`,
`probably_prime_miller_rabin`, `probably_prime_lucas`) and src/algorithms/jacobi.rs. `BigUint` and `BigInt` are `Nat` and `Int`; a difference
of `BigUint`s panics below zero. -/

namespace OnionPIR.Prime

/-- `trailing_zeros` of a positive number; `fuel` bounds the number of steps. -/
def twos : Nat → Nat → Nat
  | 0, _ => 0
  | fuel + 1, n => if n % 2 = 0 then twos fuel (n / 2) + 1 else 0

/-- `BigUint::modpow` by repeated squaring; `fuel` bounds the number of bits of the exponent. -/
def modpow : Nat → Nat → Nat → Nat → Nat
  | 0, _, _, n => 1 % n
  | fuel + 1, b, e, n => if e = 0 then 1 % n else
      let r := modpow fuel (b * b % n) (e / 2) n
      if e % 2 = 1 then r * b % n else r

/-- The loop of `jacobi` (src/algorithms/jacobi.rs); `b` is positive. `get_limb(0) & 7` is the remainder modulo 8. -/
def jacobiLoop : Nat → Int → Nat → Int → Int
  | 0, _, _, j => j
  | fuel + 1, a, b, j =>
    if b = 1 then j
    else if a = 0 then 0
    else
      let a := (a % b).toNat
      if a = 0 then 0
      else
        let s := twos (a.log2 + 1) a
        let j := if s % 2 ≠ 0 ∧ (b % 8 = 3 ∨ b % 8 = 5) then -j else j
        let c := a >>> s
        let j := if b % 4 = 3 ∧ c % 4 = 3 then -j else j
        jacobiLoop fuel b c j

/-- `jacobi(x, y)` for positive `y`; panics if `y` is even. -/
def jacobi (x : Int) (y : Nat) : Res Int := do
  rassert (y % 2 = 1)
  .ok (jacobiLoop (y + 1) x y 1)

/-- The inner loop of `probably_prime_miller_rabin`, `for _ in 1..k`: `true` at `break 'nextrandom`. -/
def millerRabinLoop (n : Nat) : Nat → Nat → Bool
  | 0, _ => false
  | k + 1, y =>
    let y := modpow 2 y 2 n
    if y = n - 1 then true
    else if y = 1 then false
    else millerRabinLoop n k y

/-- `probably_prime_miller_rabin(n, 1, true)`: one round, whose base is 2. The numbers drawn for further rounds are not used. -/
def millerRabin (n : Nat) : Bool :=
  let nm1 := n - 1
  let k := twos (nm1.log2 + 1) nm1
  let q := nm1 >>> k
  let y := modpow (q.log2 + 1) 2 q n
  if y = 1 ∨ y = nm1 then true
  else millerRabinLoop n (k - 1) y

/-- What the search for `p` in `probably_prime_lucas` ends with. -/
inductive Found where
  /-- `break`, with the value of `p` -/
  | param (p : Nat)
  /-- `return` -/
  | result (b : Bool)
deriving DecidableEq, Repr

/-- The first `loop` of `probably_prime_lucas`; `fuel` bounds the number of iterations. -/
def searchP (n : Nat) : Nat → Nat → Res Found
  | 0, _ => .error .diverge
  | fuel + 1, p =>
    if p > 10000 then .error .assert
    else do
      let j ← jacobi ((p * p - 4 : Nat) : Int) n
      if j = -1 then .ok (.param p)
      else if j = 0 then .ok (.result (decide (n = p + 2)))
      else if p = 40 ∧ n.sqrt * n.sqrt = n then .ok (.result false)
      else searchP n fuel (p + 1)

/-- A difference of `BigUint`s. -/
def bigSub (a b : Nat) : Res Nat := if b ≤ a then .ok (a - b) else .error .overflow

/-- One iteration of the loop over the bits of `s`: `(V(k), V(k+1))` becomes `(V(2k), V(2k+1))` or `(V(2k+1), V(2k+2))`. -/
def lucasStep (n p s : Nat) (v : Nat × Nat) (i : Nat) : Res (Nat × Nat) :=
  if s.testBit i then do
    let t ← bigSub (v.1 * v.2 + n) p
    .ok (t % n, (v.2 * v.2 + (n - 2)) % n)
  else do
    let t ← bigSub (v.1 * v.2 + n) p
    .ok ((v.1 * v.1 + (n - 2)) % n, t % n)

/-- The last loop of `probably_prime_lucas`, `for _ in 0..r - 1`. -/
def lucasLoop (n : Nat) : Nat → Nat → Res Bool
  | 0, _ => .ok false
  | r + 1, vk =>
    if vk = 0 then .ok true
    else if vk = 2 then .ok false
    else do
      let t ← bigSub (vk * vk) 2
      lucasLoop n r (t % n)

/-- `probably_prime_lucas`. -/
def lucas (n : Nat) : Res Bool :=
  if n = 0 ∨ n = 1 then .ok false
  else if n = 2 then .ok false
  else do
    match ← searchP n 10000 3 with
    | .result b => .ok b
    | .param p => do
      let r := twos ((n + 1).log2 + 1) (n + 1)
      let s := (n + 1) >>> r
      let (vk, vk1) ← foldR (lucasStep n p s) (2, p) (List.range (s.log2 + 1)).reverse
      let t1 := vk * p
      let t2 := 2 * vk1
      if (vk = 2 ∨ vk = n - 2) ∧ (max t1 t2 - min t1 t2) % n = 0 then .ok true
      else lucasLoop n (r - 1) vk

/-- `PRIMES_A` -/
def primesA : Nat := 3 * 5 * 7 * 11 * 13 * 17 * 19 * 23 * 37
/-- `PRIMES_B` -/
def primesB : Nat := 29 * 31 * 41 * 43 * 47 * 53
/-- `PRIME_BIT_MASK`: the bits at the primes below 64. -/
def primeBitMask : Nat :=
  1 <<< 2 ||| 1 <<< 3 ||| 1 <<< 5 ||| 1 <<< 7 ||| 1 <<< 11 ||| 1 <<< 13 ||| 1 <<< 17 ||| 1 <<< 19 ||| 1 <<< 23 ||| 1 <<< 29 ||| 1 <<< 31 |||
  1 <<< 37 ||| 1 <<< 41 ||| 1 <<< 43 ||| 1 <<< 47 ||| 1 <<< 53 ||| 1 <<< 59 ||| 1 <<< 61

/-- `probably_prime(x, 0)`. -/
def probablyPrime (x : Nat) : Res Bool :=
  if x = 0 then .ok false
  else if x < 64 then .ok (decide (primeBitMask &&& (1 <<< x) ≠ 0))
  else if x % 2 = 0 then .ok false
  else
    let ra := x % primesA
    let rb := x % primesB
    if ra % 3 = 0 ∨ ra % 5 = 0 ∨ ra % 7 = 0 ∨ ra % 11 = 0 ∨ ra % 13 = 0 ∨ ra % 17 = 0 ∨ ra % 19 = 0 ∨ ra % 23 = 0 ∨ ra % 37 = 0 ∨
        rb % 29 = 0 ∨ rb % 31 = 0 ∨ rb % 41 = 0 ∨ rb % 43 = 0 ∨ rb % 47 = 0 ∨ rb % 53 = 0 then .ok false
    else if millerRabin x then lucas x
    else .ok false

/-! `generate_prime` and `generate_moduli` with this test in the place of `is_prime`. -/

/-- First `while` loop of `generate_prime` (/repo/src/utils.rs:129-131) with explicit fuel. -/
def alignT (lz modulo : Nat) : Nat → Nat → Nat
  | 0, t => t
  | fuel + 1, t => if t % modulo ≠ 1 ∧ leadingZeros 64 t = lz then alignT lz modulo fuel (t - 1) else t

/-- Second `while` loop of `generate_prime` (/repo/src/utils.rs:133-138) with explicit fuel. -/
def searchT (lz modulo : Nat) : Nat → Nat → Res Nat
  | 0, _ => .error .diverge
  | fuel + 1, t =>
    if leadingZeros 64 t = lz then do
      let b ← probablyPrime t
      if b = false ∧ t ≥ modulo then searchT lz modulo fuel (t - modulo) else .ok t
    else .ok t

/-- `generate_prime` (/repo/src/utils.rs:117-146). -/
def generatePrimeT (pr : Profile) (numBits modulo upperBound : Nat) : Res (Option Nat) := do
  if ¬ (10 ≤ numBits ∧ numBits ≤ 62) then .ok none
  else do
    dassert pr (2 ^ numBits ≥ upperBound)
    let lz := 64 - numBits
    let t ← subW 64 pr upperBound 1
    if modulo = 0 then .error .divZero
    else
      let t := alignT lz modulo (t + 1) t
      let t ← searchT lz modulo (t + 1) t
      if leadingZeros 64 t = lz then do
        let b ← probablyPrime t
        .ok (if b then some t else none)
      else .ok none

/-- The inner loop of `generate_moduli` (/repo/src/bfv.rs:211-222). -/
def genModuliLoopT (pr : Profile) (size degree : Nat) (moduli : List Nat) : Nat → Nat → Res (Option (List Nat))
  | 0, _ => .error .diverge
  | fuel + 1, upperBound => do
      let d2 ← mulW 64 pr 2 degree
      match ← generatePrimeT pr size d2 upperBound with
      | some prime =>
        if moduli.contains prime then genModuliLoopT pr size degree moduli fuel prime
        else .ok (some (moduli ++ [prime]))
      | none => .ok none

/-- The outer loop of `generate_moduli` (/repo/src/bfv.rs:207-223). -/
def genModuliSizesT (pr : Profile) (degree : Nat) : List Nat → List Nat → Res (Option (List Nat))
  | [], moduli => .ok (some moduli)
  | size :: sizes, moduli => do
      rassert (size ≤ 62 ∧ size ≥ 10)
      match ← genModuliLoopT pr size degree moduli (2 ^ size) (2 ^ size) with
      | some moduli => genModuliSizesT pr degree sizes moduli
      | none => .ok none

/-- `BfvParameters::generate_moduli` (/repo/src/bfv.rs:205-226). -/
def generateModuliT (pr : Profile) (sizes : List Nat) (degree : Nat) : Res (Option (List Nat)) :=
  genModuliSizesT pr degree sizes []

end OnionPIR.Prime
