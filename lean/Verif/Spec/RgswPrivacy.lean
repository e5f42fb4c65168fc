import Verif.Spec.Privacy
/- Specification vocabulary for C82: coins and stored pairs of key-switching keys and RGSW ciphertexts. -/
namespace OnionPIR.Spec
open Rg

variable {N Q n k W : Nat} {l : List Nat} {i : Nat}

/-- `key` is the key-switching key of level `i` that stores the pairs `x`. -/
def StoredKsk (P : BfvParameters) (i : Nat) (x : Fin n → Rq N Q × Rq N Q) (key : Ksk) : Prop :=
  ∃ f₀ f₁ : Fin n → Rg N, (∀ j, toRq Q (f₀ j) = (x j).1 ∧ toRq Q (f₁ j) = (x j).2) ∧ key.params = P ∧
    P.qCtxs[i]? = some key.ctContext ∧ key.kskContext = key.ctContext ∧
    List.Forall₂ (PolyAt P i) (List.ofFn f₀) key.c0 ∧ List.Forall₂ (PolyAt P i) (List.ofFn f₁) key.c1

/-- `g` is the RGSW ciphertext of level `i` whose halves store the first and the last `n` of the pairs. -/
def StoredRgsw (P : BfvParameters) (i : Nat) (x : Fin (n + n) → Rq N Q × Rq N Q) (g : RgswCt) : Prop :=
  StoredKsk P i (fun j => x (Fin.castAdd n j)) g.ksk0 ∧ StoredKsk P i (fun j => x (Fin.natAdd n j)) g.ksk1

/-- The coins of a key of `k` pairs of level `i`: the values of the masks and the words of the errors. -/
abbrev KskCoins (N : Nat) (l : List Nat) (i k W : Nat) : Type := Fin k → Rows N l i × Words W

/-- The tape of the mask of the `j`-th pair. -/
def KskCoins.tape (c : KskCoins N l i k W) (j : Nat) : Nat → Nat → Nat := if h : j < k then (c ⟨j, h⟩).1.tape else fun _ _ => 0

/-- The stream of words of the error of the `j`-th pair. -/
def KskCoins.words (c : KskCoins N l i k W) (j : Nat) : Nat → Nat := if h : j < k then stream (c ⟨j, h⟩).2 else fun _ => 0

/-- The coins of the two halves of an RGSW ciphertext. -/
def KskCoins.left (c : KskCoins N l i (n + n) W) : KskCoins N l i n W := fun j => c (Fin.castAdd n j)

@[inherit_doc KskCoins.left]
def KskCoins.right (c : KskCoins N l i (n + n) W) : KskCoins N l i n W := fun j => c (Fin.natAdd n j)

/-- The distinguisher that adds `u j` to the `j`-th pair and asks `D` about the object that stores the result. -/
def shiftedBy {Aux Obj : Type} (St : (Fin k → Rq N Q × Rq N Q) → Obj → Prop) (u : Fin k → Rg N × Rg N) (D : Aux → Obj → Prop) (z : Aux)
    (x : Fin k → Rq N Q × Rq N Q) : Prop :=
  ∃ o, St (fun j => x j + (toRq Q (u j).1, toRq Q (u j).2)) o ∧ D z o

/-- What an RGSW ciphertext of `m` adds to RLWE samples: multiples of the Garner coefficients `g`, in the second components of the first
half and in the first components of the second half. -/
noncomputable def rgswShift (g : Nat → ℤ) (m : Rg N) : Fin (n + n) → Rg N × Rg N :=
  Fin.addCases (fun j => (0, m * (g j : Rg N))) (fun j => (m * (g j : Rg N), 0))

end OnionPIR.Spec
