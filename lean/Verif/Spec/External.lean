import Verif.Model.Rgsw
/-
Specification vocabulary for C137: sums of RGSW ciphertexts.
-/
namespace OnionPIR.Spec

/-- The pairs of `c` are the sums of the pairs of `a` and `b`. -/
def SumKsk (pr : Profile) (a b c : Ksk) : Prop :=
  (∀ (j : Nat) (p q : Poly), a.c0[j]? = some p → b.c0[j]? = some q → ∃ r, c.c0[j]? = some r ∧ p.add pr q = .ok r) ∧
    ∀ (j : Nat) (p q : Poly), a.c1[j]? = some p → b.c1[j]? = some q → ∃ r, c.c1[j]? = some r ∧ p.add pr q = .ok r

end OnionPIR.Spec
