import Mathlib.Data.Nat.Prime.Basic
/- Specification vocabulary for the arguments of `BfvParameters::new`. -/
namespace OnionPIR.Spec

/-- `q` is a prime below `2^62` that is 1 modulo `2N`: the primes for which there is a number theoretic transform of degree `N`. -/
def NttPrime (N q : Nat) : Prop := q.Prime ∧ q < 2 ^ 62 ∧ q % (2 * N) = 1

/-- The degree `N`, plaintext modulus `t` and ciphertext moduli `l` fit together: `N` is a power of two and at least 8, `t` and the moduli are NTT
primes, the moduli are distinct and there is at least one, and there are more NTT primes of 62 bits outside of `l` than there are moduli. -/
structure Acceptable (N t : Nat) (l : List Nat) : Prop where
  degree : ∃ K, 3 ≤ K ∧ N = 2 ^ K
  plain : NttPrime N t
  ne : l ≠ []
  nodup : l.Nodup
  moduli : ∀ q ∈ l, NttPrime N q
  spare : ∃ ps : List Nat, ps.Nodup ∧ ps.length = l.length + 1 ∧ ∀ p ∈ ps, NttPrime N p ∧ 2 ^ 61 ≤ p ∧ p ∉ l

/-- The sampler draws below its bound, and among its first 100 draws modulo an NTT prime there is a quadratic non-residue. -/
def GoodSampler (N : Nat) (sample : Nat → Nat → Nat) : Prop :=
  (∀ p i, 0 < p → sample p i < p) ∧ ∀ q, NttPrime N q → ∃ i, i < 100 ∧ sample q i ^ ((q - 1) / 2) % q = q - 1

end OnionPIR.Spec
