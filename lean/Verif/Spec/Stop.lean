import Verif.Spec.Ring
import Verif.Spec.Cost
/- Specification vocabulary for C126: the stopped expansion. -/
namespace OnionPIR.Spec
open Rg

variable {N : Nat}

/-- The coefficients of `f` at positions `j, j + m, j + 2m, …`, placed at positions `0, m, 2m, …`. -/
noncomputable def comb (m j : Nat) (f : Rg N) : Rg N := ofCoeffs N fun k => if m ∣ k then cf f (j + k) else 0

/-- Transforms of rows in an answer whose expansions stop after `e` stages: `expandRows` with `2^e` for the degree. -/
def stoppedRows (e n len fd dim k : Nat) : Nat := (n + 1) * expandRows (2 ^ e) n + answerProducts n len fd dim k * (2 * (n ^ 2 + n))
/-- Products of rows in such an answer. -/
def stoppedWords (e n len fd dim k : Nat) : Nat :=
  (n + 1) * expandWords (2 ^ e) n + answerProducts n len fd dim k * (2 * (2 * n ^ 2 + n)) + len * (2 * n)

end OnionPIR.Spec
