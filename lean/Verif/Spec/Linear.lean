import Verif.Model.Bfv
import Verif.Spec.Bfv
/-
C117: expressions of the linear operators on ciphertexts.
-/
namespace OnionPIR.Spec
open Rg

variable {N : Nat}

/-- An expression of the operators `ct + ct`, `ct - ct`, `ct * poly` and `ct * big integer`. -/
inductive LinExpr where
  | ct (k : Nat)
  | add (a b : LinExpr)
  | sub (a b : LinExpr)
  | mulPoly (a : LinExpr) (j : Nat)
  | mulBig (a : LinExpr) (n : Nat)

/-- What the code computes for the expression. -/
def LinExpr.run (pr : Profile) (cts : Nat → BfvCipherText) (ps : Nat → Poly) : LinExpr → Res BfvCipherText
  | .ct k => .ok (cts k)
  | .add a b => do
      let x ← a.run pr cts ps
      let y ← b.run pr cts ps
      x.add pr y
  | .sub a b => do
      let x ← a.run pr cts ps
      let y ← b.run pr cts ps
      x.sub pr y
  | .mulPoly a j => do
      let x ← a.run pr cts ps
      x.mulPoly pr (ps j)
  | .mulBig a n => do
      let x ← a.run pr cts ps
      x.mulBig pr n

/-- The value of one component of the expression in the ring. -/
noncomputable def LinExpr.value (f : Nat → Rg N) (g : Nat → Rg N) : LinExpr → Rg N
  | .ct k => f k
  | .add a b => a.value f g + b.value f g
  | .sub a b => a.value f g - b.value f g
  | .mulPoly a j => a.value f g * g j
  | .mulBig a n => a.value f g * n

end OnionPIR.Spec
