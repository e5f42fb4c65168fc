import Mathlib.Algebra.BigOperators.Ring.Finset
import Mathlib.Data.ZMod.Basic
/- Specification vocabulary for transforms and negacyclic polynomials, independent of the model. -/
namespace OnionPIR.Spec

/-- Reversal of the low `K` bits: bit `b` moves to position `K-1-b`. -/
def bitrev (K i : Nat) : Nat := ∑ b ∈ Finset.range K, (i.testBit b).toNat * 2 ^ (K - 1 - b)

/-- Coefficient `k` of the product of two polynomials of degree below `n` modulo `X^n + 1`. -/
def negacyclic {R : Type*} [CommRing R] (n : Nat) (a b : Nat → R) (k : Nat) : R :=
  ∑ i ∈ Finset.range n, ∑ j ∈ Finset.range n,
    if i + j = k then a i * b j else if i + j = k + n then - (a i * b j) else 0

/-- All entries canonical, and the right length. -/
def IsVec (p n : Nat) (a : List Nat) : Prop := a.length = n ∧ ∀ x ∈ a, x < p

end OnionPIR.Spec
