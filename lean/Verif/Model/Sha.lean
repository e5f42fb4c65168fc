import Verif.Model.Bfv
import Verif.Model.Rand
/-
Model of `Poly::random_from_seed` (src/rq.rs:478-499) down to the bytes of the seed: SHA-256 of the crate `sha2` 0.10.6 and
`ChaCha8Rng::from_seed` of `rand_chacha` 0.3.1. The crates are not part of /repo; the definitions follow the portable implementations
(a window of 16 schedule words, updated in place). Bytes and 32-bit words are `Nat`s.
-/
namespace OnionPIR

namespace Sha256

/-- `u32::wrapping_add`. -/
def add (a b : Nat) : Nat := (a + b) % 2 ^ 32

/-- `!x` of a `u32`. -/
def not (x : Nat) : Nat := 2 ^ 32 - 1 - x

/-- The initial state (sha2, src/consts.rs `H256_256`). -/
def init : List Nat := [
    0x6a09e667, 0xbb67ae85, 0x3c6ef372, 0xa54ff53a, 0x510e527f, 0x9b05688c, 0x1f83d9ab, 0x5be0cd19]

/-- The round constants (sha2, src/consts.rs `K32`). -/
def roundConstants : List Nat := [
    0x428a2f98, 0x71374491, 0xb5c0fbcf, 0xe9b5dba5, 0x3956c25b, 0x59f111f1, 0x923f82a4, 0xab1c5ed5,
    0xd807aa98, 0x12835b01, 0x243185be, 0x550c7dc3, 0x72be5d74, 0x80deb1fe, 0x9bdc06a7, 0xc19bf174,
    0xe49b69c1, 0xefbe4786, 0x0fc19dc6, 0x240ca1cc, 0x2de92c6f, 0x4a7484aa, 0x5cb0a9dc, 0x76f988da,
    0x983e5152, 0xa831c66d, 0xb00327c8, 0xbf597fc7, 0xc6e00bf3, 0xd5a79147, 0x06ca6351, 0x14292967,
    0x27b70a85, 0x2e1b2138, 0x4d2c6dfc, 0x53380d13, 0x650a7354, 0x766a0abb, 0x81c2c92e, 0x92722c85,
    0xa2bfe8a1, 0xa81a664b, 0xc24b8b70, 0xc76c51a3, 0xd192e819, 0xd6990624, 0xf40e3585, 0x106aa070,
    0x19a4c116, 0x1e376c08, 0x2748774c, 0x34b0bcb5, 0x391c0cb3, 0x4ed8aa4a, 0x5b9cca4f, 0x682e6ff3,
    0x748f82ee, 0x78a5636f, 0x84c87814, 0x8cc70208, 0x90befffa, 0xa4506ceb, 0xbef9a3f7, 0xc67178f2]

/-- The functions of the rounds. -/
def bigSigma0 (x : Nat) : Nat := ChaCha8.rotr x 2 ^^^ ChaCha8.rotr x 13 ^^^ ChaCha8.rotr x 22
def bigSigma1 (x : Nat) : Nat := ChaCha8.rotr x 6 ^^^ ChaCha8.rotr x 11 ^^^ ChaCha8.rotr x 25
def smallSigma0 (x : Nat) : Nat := ChaCha8.rotr x 7 ^^^ ChaCha8.rotr x 18 ^^^ x >>> 3
def smallSigma1 (x : Nat) : Nat := ChaCha8.rotr x 17 ^^^ ChaCha8.rotr x 19 ^^^ x >>> 10
def ch (x y z : Nat) : Nat := (x &&& y) ^^^ (not x &&& z)
def maj (x y z : Nat) : Nat := (x &&& y) ^^^ (x &&& z) ^^^ (y &&& z)

/-- One round on the working variables `a..h`. -/
def round : List Nat → (k w : Nat) → List Nat
  | [a, b, c, d, e, f, g, h], k, w =>
      let t1 := add (add (add (add h (bigSigma1 e)) (ch e f g)) k) w
      let t2 := add (bigSigma0 a) (maj a b c)
      [add t1 t2, a, b, c, add d t1, e, f, g]
  | st, _, _ => st

/-- The word that enters the window of the last 16 schedule words. -/
def next (w : List Nat) : Nat :=
  add (add (add (smallSigma1 (w.getD 14 0)) (w.getD 9 0)) (smallSigma0 (w.getD 1 0))) (w.getD 0 0)

/-- The rounds for the constants `ks`; the window moves by one word in each. -/
def rounds : (ks : List Nat) → (w : List Nat) → (st : List Nat) → List Nat
  | [], _, st => st
  | k :: ks, w, st => rounds ks (w.tail ++ [next w]) (round st k (w.getD 0 0))

/-- The compression function on a block of 16 words. -/
def compress (st : List Nat) (block : List Nat) : List Nat := List.zipWith add st (rounds roundConstants block st)

/-- Four bytes as a word, the first the highest (`u32::from_be_bytes`). -/
def wordsBE : List Nat → List Nat
  | a :: b :: c :: d :: r => (a <<< 24 ||| b <<< 16 ||| c <<< 8 ||| d) :: wordsBE r
  | _ => []

/-- The bytes of a word, the highest first (`u32::to_be_bytes`). -/
def bytesBE (x : Nat) : List Nat := [(x >>> 24) % 256, (x >>> 16) % 256, (x >>> 8) % 256, x % 256]

/-- The padding for a message of `len` bytes: `0x80`, zeros, the length in bits as 8 bytes. -/
def padding (len : Nat) : List Nat :=
  let bits := len * 8 % 2 ^ 64
  0x80 :: List.replicate ((119 - len % 64) % 64) 0 ++ bytesBE (bits >>> 32) ++ bytesBE (bits % 2 ^ 32)

/-- The compressions of the blocks of 16 words. -/
def blocks : (count : Nat) → (st ws : List Nat) → List Nat
  | 0, st, _ => st
  | k + 1, st, ws => blocks k (compress st (ws.take 16)) (ws.drop 16)

/-- `Sha256::new()`, `update(msg)`, `finalize()`: the 32 bytes of the digest. -/
def hash (msg : List Nat) : List Nat :=
  let padded := msg ++ padding msg.length
  (blocks (padded.length / 64) init (wordsBE padded)).flatMap bytesBE

end Sha256

namespace ChaCha8

/-- Four bytes as a word, the first the lowest (`read_u32le`). -/
def wordsLE : List Nat → List Nat
  | a :: b :: c :: d :: r => (a ||| b <<< 8 ||| c <<< 16 ||| d <<< 24) :: wordsLE r
  | _ => []

/-- The first `8 * blocks` words of `ChaCha8Rng::from_seed(seed)`. -/
def fromSeed (seed : List Nat) (blocks : Nat) : List Nat := words (wordsLE seed) blocks

end ChaCha8

/-- `Poly::random_from_seed` (src/rq.rs:478-499) on the bytes of the seed, reading at most `blocks` blocks of the generator; `.diverge` if
they do not suffice. -/
def Poly.randomFromBytes (ctx : RqContext) (rep : Representation) (seed : List Nat) (blocks : Nat) : Res Poly := do
  let (p, _) ← Poly.randomWords ctx rep (ChaCha8.fromSeed (Sha256.hash seed) blocks)
  .ok p

/-- `encrypt_poly` (src/bfv.rs:299-329) with the mask expanded from the bytes that `thread_rng().fill` writes into `seed`. -/
def SecretKey.encryptPolyBytes (pr : Profile) (sk : SecretKey) (pt : Poly) (seed : List Nat) (blocks : Nat) (rng : Nat → Nat) : Res BfvCipherText := do
  let s ← sk.polyNtt pr pt.context
  let a ← Poly.randomFromBytes pt.context .ntt seed blocks
  let as ← a.mul pr s
  let b ← Poly.randomSmall pr pt.context .ntt sk.params.variance rng
  let b ← b.sub pr as
  let b ← b.add pr pt
  .ok { cts := [b, a], params := sk.params, level := 0 }

/-- `encrypt` (src/bfv.rs:331-334). -/
def SecretKey.encryptBytes (pr : Profile) (sk : SecretKey) (pt : Plaintext) (seed : List Nat) (blocks : Nat) (rng : Nat → Nat) : Res BfvCipherText := do
  let poly ← pt.toPoly pr
  sk.encryptPolyBytes pr poly seed blocks rng

end OnionPIR
