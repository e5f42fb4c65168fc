import Verif.Spec.Ksk
import Verif.Model.Pir
/- Specification vocabulary for the PIR protocol. -/
namespace OnionPIR.Spec
open Rg

variable {N : Nat}

/-- `g` works as a Galois key of level `i` for `X ↦ X^e` under the key `s`: it maps every ciphertext with phase `φ` to one with phase
`φ(X^e)` up to an error of size at most `B`, in both builds. -/
def GaloisFor (P : BfvParameters) (l : List Nat) (i : Nat) (s : Rg N) (e : Nat) (B : ℤ) (g : GaliosKey) : Prop :=
  ∀ pr ct, ∀ f0 f1 : Rg N, IsCt P i [f0, f1] ct → ∃ ct', ∃ r0 r1 E : Rg N, g.relinearize pr ct = .ok ct' ∧ IsCt P i [r0, r1] ct' ∧
    Bdd B E ∧ Cong (levelQ l i) (phase s [r0, r1]) (sg e (phase s [f0, f1]) + E)

/-- Evaluation keys: a Galois key of error `B` for every exponent `N/2^i + 1` and an RGSW ciphertext of the secret key, at level 0. -/
structure IsEval (P : BfvParameters) (l : List Nat) (s : Rg N) (B B0 B1 : ℤ) (ev : Evaluation) : Prop where
  gk : ∀ i, 2 ^ i < N → ∃ g, ev.gk.lookup (N / 2 ^ i + 1) = some g ∧ GaloisFor P l 0 s (N / 2 ^ i + 1) B g
  rgsw : IsRgsw P l 0 s s B0 B1 ev.skRgsw

/-- The monomials `X^(-2^i) = -X^(N-2^i)` in power basis, which the comments in `gen_x_pows` describe. -/
def IsMonomials (N : Nat) (P : BfvParameters) (xPows : List Poly) : Prop :=
  ∀ i, 2 ^ i < N → ∃ p, xPows[i]? = some p ∧ PowerAt P 0 (-(xx ^ (N - 2 ^ i)) : Rg N) p

/-- `ct` is a two-component ciphertext of level 0 encoding `m` under the key `s` with noise at most `V`. -/
def CtEncodes (P : BfvParameters) (l : List Nat) (t : Nat) (s m : Rg N) (V : ℤ) (ct : BfvCipherText) : Prop :=
  ∃ f0 f1 : Rg N, IsCt P 0 [f0, f1] ct ∧ Encodes t (levelQ l 0) m (phase s [f0, f1]) V

/-- The constant 1 at position `i`, 0 elsewhere. -/
noncomputable def bit (N j i : Nat) : Rg N := if j = i then 1 else 0

/-- The number `i1 + dim (i2 + dim (i3 + …))` that the coordinates `[i1, i2, i3, …]` denote. -/
def address (dim : Nat) : List Nat → Nat
  | [] => 0
  | i :: is => i + dim * address dim is

end OnionPIR.Spec
