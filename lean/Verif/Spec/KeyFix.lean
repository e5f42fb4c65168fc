import Verif.Spec.PvwPrivacy
/- Specification vocabulary for C140: public matrices that leave the secret key open. -/
namespace OnionPIR.Spec

/-- With the matrix `A`, `gen_pk` makes one and the same public key of two different secret keys, for some random words. -/
def Ambiguous (pr : Profile) (params : PvwParams) (A : Fin params.m → Fin params.n → Fin params.q) : Prop :=
  ∃ (S S' : Fin params.ell → Fin params.n → Fin params.q) (rng rng' : Nat → Nat → Nat) (sk sk' : PvwSk) (pk : PvwPk),
    S ≠ S' ∧ (∀ l i, rng l i < 2 ^ 64) ∧ (∀ l i, rng' l i < 2 ^ 64) ∧
    Pvw.genSk params (tableTape S) = .ok sk ∧ Pvw.genSk params (tableTape S') = .ok sk' ∧
    Pvw.genPk pr sk params (tableTape A) rng = .ok pk ∧ Pvw.genPk pr sk' params (tableTape A) rng' = .ok pk

end OnionPIR.Spec
