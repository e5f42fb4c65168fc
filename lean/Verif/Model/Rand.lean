import Verif.Model.Pvw
import Verif.Model.Rq
/-
Model of the sampling code of the crates `rand` 0.8.5, `rand_core` 0.6.4 and `rand_chacha` 0.3.1 (the versions of /repo/Cargo.lock), as far
as /repo calls it. The crates are not part of /repo; the definitions follow their published source. Everything reads a list of words, the
output of the generator from here on, and returns the words not yet used; running out of words is `.diverge`. The other files of the
model take the sampled values as tapes; Props/Random (C88) connects the two.
-/
namespace OnionPIR

namespace Rand

/-- The rejection loop of `UniformInt::<u64>::sample` and `sample_single_inclusive` (rand 0.8.5, src/distributions/uniform.rs) for the
range `0..n`: the high word of `word * n`, accepted if the low word is at most `zone`. -/
def draw (n zone : Nat) : List Nat → Res (Nat × List Nat)
  | [] => .error .diverge
  | w :: ws => if w * n % 2 ^ 64 ≤ zone then .ok (w * n / 2 ^ 64, ws) else draw n zone ws

/-- `zone` of a `Uniform::from(0..n)` (rand 0.8.5, `UniformInt::new_inclusive` and `sample`): `MAX - (MAX - n + 1) % n`. -/
def uniformZone (n : Nat) : Nat := 2 ^ 64 - 1 - (2 ^ 64 - 1 - n + 1) % n

/-- `zone` of `gen_range(0..n)` (rand 0.8.5, `sample_single_inclusive`): `(n << n.leading_zeros()) - 1`. -/
def singleZone (n : Nat) : Nat := (n <<< leadingZeros 64 n) % 2 ^ 64 - 1

/-- `rng.sample(Uniform::from(0..n))`; an empty range panics. -/
def uniform (n : Nat) (ws : List Nat) : Res (Nat × List Nat) := do
  rassert (0 < n)
  draw n (uniformZone n) ws

/-- `rng.gen_range(0..n)`; an empty range panics. -/
def genRange (n : Nat) (ws : List Nat) : Res (Nat × List Nat) := do
  rassert (0 < n)
  draw n (singleZone n) ws

/-- `size` samples in a row: `sample_iter(..).take(size)`. -/
def times {α : Type} (f : List Nat → Res (α × List Nat)) : (size : Nat) → List Nat → Res (List α × List Nat)
  | 0, ws => .ok ([], ws)
  | k + 1, ws => do
      let (x, ws) ← f ws
      let (xs, ws) ← times f k ws
      .ok (x :: xs, ws)

/-- One sample for every element of a list, in order. -/
def each {α β : Type} (f : β → List Nat → Res (α × List Nat)) : List β → List Nat → Res (List α × List Nat)
  | [], ws => .ok ([], ws)
  | b :: bs, ws => do
      let (x, ws) ← f b ws
      let (xs, ws) ← each f bs ws
      .ok (x :: xs, ws)

end Rand

/-- `Modulus::random` (src/modulus.rs:244-247). -/
def Modulus.random (m : Modulus) (ws : List Nat) : Res (Nat × List Nat) := Rand.uniform m.p ws

/-- `Modulus::random_vec` (src/modulus.rs:249-252). The distribution is built (and its range checked) even if `size` is 0. -/
def Modulus.randomVec (m : Modulus) (size : Nat) (ws : List Nat) : Res (List Nat × List Nat) := do
  rassert (0 < m.p)
  Rand.times (Rand.uniform m.p) size ws

/-- `Poly::random` (src/rq.rs:460-475) reading words. -/
def Poly.randomWords (ctx : RqContext) (rep : Representation) (ws : List Nat) : Res (Poly × List Nat) := do
  let (rows, ws) ← Rand.each (fun q => Modulus.randomVec q ctx.degree) ctx.moduli ws
  .ok ({ context := ctx, representation := rep, coefficients := rows }, ws)

/-- `PvwSk::gen_sk` (src/pvw.rs:40-52) reading words. -/
def Pvw.genSkWords (params : PvwParams) (ws : List Nat) : Res (PvwSk × List Nat) := do
  let q ← Modulus.new params.q
  Rand.times (q.randomVec params.n) params.ell ws

/-- The `for _ in 0..100` loop of `primitive_root` (src/ntt.rs:216-225) reading words. -/
def primitiveRootLoopWords (pr : Profile) (p : Modulus) (n lambda : Nat) : (fuel : Nat) → List Nat → Res Nat
  | 0, _ => .error .assert
  | fuel + 1, ws => do
      let (root, ws) ← Rand.genRange p.p ws
      let root ← p.pow pr root lambda
      let n2 ← mulW 64 pr 2 n
      let ok ← isPrimitiveRoot pr root n2 p
      if ok then .ok root else primitiveRootLoopWords pr p n lambda fuel ws

/-- `primitive_root` (src/ntt.rs:211-226) with the output of the generator it creates. -/
def primitiveRootWords (pr : Profile) (n : Nat) (p : Modulus) (ws : List Nat) : Res Nat := do
  let a ← subW 64 pr p.p 1
  let b ← mulW 64 pr 2 n
  let lambda ← divR a b
  primitiveRootLoopWords pr p n lambda 100 ws

namespace ChaCha8

/-- `u32` addition. -/
def add (a b : Nat) : Nat := (a + b) % 2 ^ 32

/-- `u32::rotate_left`. -/
def rotl (x k : Nat) : Nat := (x <<< k) % 2 ^ 32 ||| x >>> (32 - k)

/-- The quarter round of ChaCha on the words `a`, `b`, `c`, `d` of the state. -/
def quarter (a b c d : Nat) : Nat × Nat × Nat × Nat :=
  let a := add a b; let d := rotl (d ^^^ a) 16
  let c := add c d; let b := rotl (b ^^^ c) 12
  let a := add a b; let d := rotl (d ^^^ a) 8
  let c := add c d; let b := rotl (b ^^^ c) 7
  (a, b, c, d)

/-- A column round and a diagonal round. -/
def doubleRound : List Nat → List Nat
  | [x0, x1, x2, x3, x4, x5, x6, x7, x8, x9, x10, x11, x12, x13, x14, x15] =>
    let (x0, x4, x8, x12) := quarter x0 x4 x8 x12
    let (x1, x5, x9, x13) := quarter x1 x5 x9 x13
    let (x2, x6, x10, x14) := quarter x2 x6 x10 x14
    let (x3, x7, x11, x15) := quarter x3 x7 x11 x15
    let (x0, x5, x10, x15) := quarter x0 x5 x10 x15
    let (x1, x6, x11, x12) := quarter x1 x6 x11 x12
    let (x2, x7, x8, x13) := quarter x2 x7 x8 x13
    let (x3, x4, x9, x14) := quarter x3 x4 x9 x14
    [x0, x1, x2, x3, x4, x5, x6, x7, x8, x9, x10, x11, x12, x13, x14, x15]
  | s => s

/-- The block function with 8 rounds for a key of 8 words, a 64-bit counter and stream number 0. -/
def block (key : List Nat) (counter : Nat) : List Nat :=
  let s := [0x61707865, 0x3320646e, 0x79622d32, 0x6b206574] ++ key ++ [counter % 2 ^ 32, counter / 2 ^ 32, 0, 0]
  List.zipWith add s (doubleRound (doubleRound (doubleRound (doubleRound s))))

/-- Consecutive pairs of 32-bit words as 64-bit words, the first the lower half (`BlockRng::next_u64`). -/
def pairs : List Nat → List Nat
  | lo :: hi :: r => (hi <<< 32 ||| lo) :: pairs r
  | _ => []

/-- The first `8 * blocks` results of `next_u64`. -/
def words (key : List Nat) (blocks : Nat) : List Nat := (List.range blocks).flatMap fun i => pairs (block key i)

/-- `u32::rotate_right`. -/
def rotr (x k : Nat) : Nat := x >>> k ||| (x <<< (32 - k)) % 2 ^ 32

/-- The key made by `seed_from_u64` (rand_core 0.6.4, src/lib.rs): successive outputs of PCG32. -/
def expandSeed : (count : Nat) → (state : Nat) → List Nat
  | 0, _ => []
  | k + 1, state =>
      let state := (state * 6364136223846793005 + 11634580027462260723) % 2 ^ 64
      rotr ((((state >>> 18) ^^^ state) >>> 27) % 2 ^ 32) (state >>> 59) :: expandSeed k state

/-- The first `8 * blocks` words of `ChaCha8Rng::seed_from_u64(seed)`, as created with seed 0 by `primitive_root` (src/ntt.rs:214). -/
def seeded (seed blocks : Nat) : List Nat := words (expandSeed 8 seed) blocks

end ChaCha8
end OnionPIR
