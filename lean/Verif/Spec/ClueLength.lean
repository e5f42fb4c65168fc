import Verif.Spec.Poly
import Verif.Model.Pvw
/- Specification vocabulary for C111: messages and clues of any length. -/
namespace OnionPIR.Spec

/-- The first `ell` entries of a message, continued by zeros. -/
def padded (ell : Nat) (msg : List Nat) : List Nat := (List.range ell).map fun l => msg.getD l 0

/-- A public key of the parameters: at least `m` rows of canonical values. -/
def IsPvwPk (params : PvwParams) (pk : PvwPk) : Prop :=
  ∀ m, m < params.m → ∃ c, pk[m]? = some c ∧ IsVec params.q params.n c.a ∧ IsVec params.q params.ell c.b

/-- A secret key of the parameters. -/
def IsPvwSk (params : PvwParams) (sk : PvwSk) : Prop := ∀ l, l < params.ell → ∃ s, sk[l]? = some s ∧ IsVec params.q params.n s

end OnionPIR.Spec
