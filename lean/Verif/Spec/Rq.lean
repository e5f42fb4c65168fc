import Verif.Model.Rq
import Verif.Spec.Poly
/- Specification vocabulary for polynomials modulo `X^N + 1` stored by residues. -/
namespace OnionPIR.Spec

/-- Every row has `N` canonical residues for its modulus. -/
def ValidRows (c : RqContext) (rows : List (List Nat)) : Prop :=
  rows.length = c.moduli64.length ∧ ∀ i, i < c.moduli64.length → IsVec (c.moduli64.getD i 1) c.degree (rows.getD i [])

/-- The rows of residues of the integers `A 0, …, A (N-1)`. -/
def rowsOf (c : RqContext) (A : Nat → ℤ) : List (List Nat) :=
  c.moduli64.map fun (q : Nat) => (List.range c.degree).map fun k => (A k % (q : ℤ)).toNat

/-- `p` is a polynomial of the context `c` in the representation `r`, stored canonically, and its power-basis form holds
the residues of the integers `A`. -/
def Denotes (c : RqContext) (r : Representation) (A : Nat → ℤ) (p : Poly) : Prop :=
  p.context = c ∧ p.representation = r ∧ ValidRows c p.coefficients ∧
    ∃ p', p.changeRepresentation .debug .powerBasis = .ok p' ∧ p'.coefficients = rowsOf c A

/-- Coefficient `j` of `A(X^k)` modulo `X^n + 1`. -/
def subst (n k : Nat) (A : Nat → ℤ) (j : Nat) : ℤ :=
  ∑ i ∈ Finset.range n, if i * k % (2 * n) = j then A i else if i * k % (2 * n) = j + n then - A i else 0

end OnionPIR.Spec
