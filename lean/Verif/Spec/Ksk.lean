import Verif.Spec.Bfv
import Verif.Model.Rgsw
/- Specification vocabulary for key-switching keys and RGSW ciphertexts. -/
namespace OnionPIR.Spec
open Rg

variable {N : Nat}

/-- `g` is 1 modulo the `j`-th modulus of level `i` and 0 modulo the others. -/
def IsGarner (l : List Nat) (i j : Nat) (g : ℤ) : Prop :=
  ∀ k, k < (levelModuli l i).length → ((levelModuli l i).getD k 1 : ℤ) ∣ g - if k = j then 1 else 0

/-- `(b, a)` is an RLWE pair of level `i` for `m` times the `j`-th Garner coefficient, with error at most `B`, under the key `s`. -/
def RlweGarner (l : List Nat) (i j : Nat) (s m : Rg N) (B : ℤ) (b a : Rg N) : Prop :=
  ∃ g, IsGarner l i j g ∧ ∃ e : Rg N, Bdd B e ∧ Cong (levelQ l i) (b + a * s) (m * (g : Rg N) + e)

/-- `k` is a key-switching key of level `i` from `src` to the key `s`, with errors at most `B`: pair `j` is an RLWE pair for
`src` times the `j`-th Garner coefficient. -/
def IsKsk (P : BfvParameters) (l : List Nat) (i : Nat) (s src : Rg N) (B : ℤ) (k : Ksk) : Prop :=
  P.qCtxs[i]? = some k.ctContext ∧ k.kskContext = k.ctContext ∧
    ∃ bs as : List (Rg N), List.Forall₂ (PolyAt P i) bs k.c0 ∧ List.Forall₂ (PolyAt P i) as k.c1 ∧
      bs.length = (levelModuli l i).length ∧ as.length = (levelModuli l i).length ∧
      ∀ j, j < (levelModuli l i).length → RlweGarner l i j s src B (bs.getD j 0) (as.getD j 0)

/-- `g` is an RGSW ciphertext of `m` of level `i` under the key `s`, with errors at most `B0` and `B1` in its two halves. -/
def IsRgsw (P : BfvParameters) (l : List Nat) (i : Nat) (s m : Rg N) (B0 B1 : ℤ) (g : RgswCt) : Prop :=
  IsKsk P l i s (s * m) B0 g.ksk0 ∧ IsKsk P l i s m B1 g.ksk1

/-- `p` is a polynomial of level `i` in power basis holding `f`. -/
def PowerAt (P : BfvParameters) (i : Nat) (f : Rg N) (p : Poly) : Prop :=
  ∃ c, P.qCtxs[i]? = some c ∧ Denotes c .powerBasis (cf f) p

/-- Worst-case growth factor of the error in one key switch at level `i`: degree times the sum of the moduli. -/
def switchNoise (N : Nat) (l : List Nat) (i : Nat) : ℤ := N * ((levelModuli l i).sum : Nat)

/-- Noise of a relinearized product: `S` bounds the key, `V1` and `V2` the noises of the operands, `B` the errors of the key. -/
def productNoise (N t : Nat) (l : List Nat) (i : Nat) (S V1 V2 B : ℤ) : ℤ :=
  N * t * (N * S + 3) * (V1 + V2) + N * V2 + t * (1 + N * S + N * S * (N * S)) + t * (switchNoise N l i * B)

end OnionPIR.Spec
