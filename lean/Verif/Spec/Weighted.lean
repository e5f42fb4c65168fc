import Verif.Spec.Pir
/- What a server computes whose selectors are arbitrary weights, instead of one 1 and otherwise 0 for every dimension. -/
namespace OnionPIR.Spec

/-- The `c`-th block of `n` entries of `r`, summed with the weights `a`. -/
def weigh {R : Type} [CommRing R] (n : Nat) (a : Nat → ℤ) (r : Nat → R) (c : Nat) : R :=
  ∑ k ∈ Finset.range n, (a k : R) * r (c * n + k)

/-- The same for one dimension of size `dim` after the other. -/
def weighAll {R : Type} [CommRing R] (dim : Nat) : List (Nat → ℤ) → (Nat → R) → Nat → R
  | [], r => r
  | a :: as, r => weighAll dim as (weigh dim a r)

/-- A noise of `V` after `d` dimensions, each of which multiplies it by at most `A` and adds at most `E`. -/
def weighNoise (A E : ℤ) : Nat → ℤ → ℤ
  | 0, V => V
  | d + 1, V => weighNoise A E d (A * V + E)

end OnionPIR.Spec
