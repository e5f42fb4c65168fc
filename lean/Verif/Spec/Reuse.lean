import Verif.Spec.Rlwe
/-
Specification vocabulary for C133: what someone who sees a key-switching key computes from two pairs with the same mask.
-/
namespace OnionPIR.Spec

/-- The representative of `x` modulo `q` nearest to zero. -/
def nearZero (q x : Nat) : ℤ := if 2 * x < q then x else (x : ℤ) - q

/-- A program that sees the key-switching key only: subtract the first components of the pairs `j` and `j'`, and halve the difference of the residues modulo the moduli
`j` and `j'`. -/
def readSource (pr : Profile) (k : Ksk) (j j' : Nat) : Res (List ℤ) := do
  let b ← idx k.c0 j
  let b' ← idx k.c0 j'
  let d ← b.sub pr b'
  let d ← d.changeRepresentation pr .powerBasis
  let x ← idx d.coefficients j
  let y ← idx d.coefficients j'
  let q ← idx d.context.moduli64 j
  let q' ← idx d.context.moduli64 j'
  .ok ((x.zip y).map fun z => (nearZero q z.1 - nearZero q' z.2) / 2)

/-- The coefficients of the polynomial `A` with `X^y` in place of `X`, modulo `X^N + 1`. -/
def substCoeffs (N y : Nat) (A : List ℤ) : List ℤ :=
  (List.range N).map fun j => ∑ i ∈ Finset.range N, if i * y % N = j then A.getD i 0 * (-1) ^ (i * y / N) else 0

end OnionPIR.Spec
