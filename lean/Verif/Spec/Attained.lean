import Verif.Spec.Rlwe
/-
Specification vocabulary for C130: inputs for which the noise is as large as the bounds allow.
-/
namespace OnionPIR.Spec
open Rg

/-- All coefficients are `-1`: the residues modulo every modulus are as large as they can be. -/
noncomputable def allMinusOne (N : Nat) : Rg N := ofCoeffs N fun _ => -1

/-- The noise of one key switch at level `i` when all digits and all errors, at most `B`, are as large as they can be. -/
def topNoise (N : Nat) (l : List Nat) (i B : Nat) : Nat := N * B * ((levelModuli l i).map fun q => q - 1).sum

end OnionPIR.Spec
