import Verif.Spec.Ksk
/- Specification vocabulary for C77 and C78: masks, sampled errors and the exact error of a key switch. -/
namespace OnionPIR.Spec
open Rg

variable {N : Nat}

/-- A list of small integers as a ring element. -/
noncomputable def smallRing (N : Nat) (e : List Int) : Rg N := ofCoeffs N fun k => e.getD k 0

/-- `a` is the mask of level `i` drawn with the tape: the polynomial whose NTT values are the tape. -/
def IsMask (P : BfvParameters) (i : Nat) (tape : Nat → Nat → Nat) (a : Rg N) : Prop :=
  ∃ c, P.qCtxs[i]? = some c ∧ PolyAt P i a (Poly.random c tape .ntt)

/-- A choice of the values read from a tape for level `i`: for every modulus, `N` values below it. -/
abbrev Rows (N : Nat) (l : List Nat) (i : Nat) : Type := (k : Fin (levelModuli l i).length) → Fin N → Fin ((levelModuli l i).getD k 1)

/-- The tape that begins with the given values. -/
def Rows.tape {l : List Nat} {i : Nat} (r : Rows N l i) (k j : Nat) : Nat :=
  if h : k < (levelModuli l i).length ∧ j < N then r ⟨k, h.1⟩ ⟨j, h.2⟩ else 0

/-- The pairs of the key are RLWE samples under `s` with masks `a` and errors `e`, plus `src` times the Garner coefficients. -/
def RlweKsk (P : BfvParameters) (l : List Nat) (i : Nat) (s src : Rg N) (a : Nat → Rg N) (e : Nat → List Int) (k : Ksk) : Prop :=
  ∃ g : Nat → ℤ, (∀ j, j < (levelModuli l i).length → IsGarner l i j (g j)) ∧
    List.Forall₂ (PolyAt P i) ((List.range (levelModuli l i).length).map fun j => smallRing N (e j) - a j * s + src * (g j : Rg N)) k.c0 ∧
    List.Forall₂ (PolyAt P i) ((List.range (levelModuli l i).length).map a) k.c1

/-- The coefficients of `f` modulo the `j`-th modulus of level `i`. -/
noncomputable def digitRing (l : List Nat) (i j : Nat) (f : Rg N) : Rg N := ofCoeffs N fun k => cf f k % ((levelModuli l i).getD j 1 : ℤ)

/-- The error of switching `f` at level `i` with a key whose `j`-th pair has the error `e j`. -/
noncomputable def switchError (l : List Nat) (i : Nat) (f : Rg N) (e : Nat → List Int) : Rg N :=
  ∑ j ∈ Finset.range (levelModuli l i).length, digitRing l i j f * smallRing N (e j)

end OnionPIR.Spec
