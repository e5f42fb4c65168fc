import Mathlib.Data.Int.ModEq
/- Specification vocabulary, independent of the model. -/
namespace OnionPIR.Spec

/-- `r` is the canonical representative of the integer `x` modulo `p`. -/
def IsResidue (p : Nat) (x : Int) (r : Nat) : Prop := r < p ∧ (r : Int) ≡ x [ZMOD p]

/-- `r` is a lazy representative of `x` modulo `p`: congruent and below `2p`. -/
def IsLazyResidue (p : Nat) (x : Int) (r : Nat) : Prop := r < 2 * p ∧ (r : Int) ≡ x [ZMOD p]

end OnionPIR.Spec
