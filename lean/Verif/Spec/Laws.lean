import Verif.Spec.Rlwe
/-
Specification vocabulary for C131: the carries of a sum modulo the moduli of a level.
-/
namespace OnionPIR.Spec
open Rg

variable {N : Nat}

/-- The coefficients where the sum of the residues of `f` and `g` modulo the `j`-th modulus of level `i` is reduced. -/
noncomputable def carry (l : List Nat) (i j : Nat) (f g : Rg N) : Rg N :=
  ofCoeffs N fun k => if ((levelModuli l i).getD j 1 : ℤ) ≤ cf f k % ((levelModuli l i).getD j 1 : ℤ) + cf g k % ((levelModuli l i).getD j 1 : ℤ) then 1 else 0

/-- No sum of residues is reduced. -/
def NoCarry (l : List Nat) (i : Nat) (f g : Rg N) : Prop :=
  ∀ q ∈ levelModuli l i, ∀ k, k < N → cf f k % (q : ℤ) + cf g k % (q : ℤ) < q

end OnionPIR.Spec
