import Mathlib.RingTheory.AdjoinRoot
/- The ring `Z[X]/(X^N+1)`: coefficients, the maps `X ↦ X^k`, sizes. -/
namespace OnionPIR
open Polynomial

/-- `Z[X]/(X^N+1)`. -/
abbrev Rg (N : Nat) := AdjoinRoot (X ^ N + 1 : ℤ[X])

namespace Rg
variable {N : Nat}

/-- The class of `X`. -/
noncomputable def xx : Rg N := AdjoinRoot.root _

/-- Coefficient `k` of the representative of degree below `N`. -/
noncomputable def cf (f : Rg N) (k : Nat) : ℤ :=
  (Function.surjInv AdjoinRoot.mk_surjective f %ₘ (X ^ N + 1)).coeff k

/-- The element with the given coefficients. -/
noncomputable def ofCoeffs (N : Nat) (c : Nat → ℤ) : Rg N := ∑ k ∈ Finset.range N, (c k : Rg N) * xx ^ k

/-- Value of the representative of degree below `N` at `z`. -/
noncomputable def ev {S : Type*} [CommRing S] (z : S) (f : Rg N) : S := ∑ k ∈ Finset.range N, (cf f k : S) * z ^ k

/-- `f(X) ↦ f(X^k)`. -/
noncomputable def sg (k : Nat) (f : Rg N) : Rg N := ev ((xx : Rg N) ^ k) f

/-- All coefficients have absolute value at most `B`. -/
def Bdd (B : ℤ) (f : Rg N) : Prop := ∀ k, k < N → |cf f k| ≤ B

end Rg
end OnionPIR
