import Verif.Spec.ClueLength
/- Specification vocabulary for C142: reading a clue with the selector it was made with. -/
namespace OnionPIR.Spec

/-- The bits of a clue for someone who knows the public key and the selector: zero where nothing is left after the chosen columns are taken away. -/
def openClue (params : PvwParams) (pk : PvwPk) (e : Nat → Nat) (ct : PvwCiphertext) : List Nat :=
  (List.range params.ell).map fun l =>
    if (params.q : ℤ) ∣ (ct.b.getD l 0 : ℤ) - ∑ m ∈ Finset.range params.m, ((pk.getD m ⟨[], []⟩).b.getD l 0 : ℤ) * (e m : ℤ) then 0 else 1

end OnionPIR.Spec
