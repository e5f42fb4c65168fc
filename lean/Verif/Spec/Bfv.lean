import Verif.Model.Bfv
import Verif.Spec.Ring
import Verif.Spec.Rq
/- Specification vocabulary for the BFV scheme: messages, phases and noise in `Z[X]/(X^N+1)`. -/
namespace OnionPIR.Spec
open Rg

variable {N : Nat}

/-- Parameters returned by `BfvParameters::new` for degree `N`, plaintext modulus `t`, moduli `l` and the given variance, for any
outcome of the sampler inside `primitive_root`. The plaintext modulus is below every modulus; the sizes fit in memory. -/
def IsParams (N t : Nat) (l : List Nat) (variance : Nat) (P : BfvParameters) : Prop :=
  N < 2 ^ 63 ∧ l.length ≤ 2 ^ 30 ∧ (∀ q ∈ l, t < q) ∧
    ∃ pr sample bd, (∀ p i, 0 < p → sample p i < p) ∧ BfvParameters.new pr sample N t l variance bd = .ok P

/-- The moduli in use at level `i`. -/
def levelModuli (l : List Nat) (i : Nat) : List Nat := l.take (l.length - i)

/-- The ciphertext modulus at level `i`. -/
def levelQ (l : List Nat) (i : Nat) : Nat := (levelModuli l i).prod

/-- Equality modulo `Q`. -/
def Cong (Q : Nat) (f g : Rg N) : Prop := ((Q : ℤ) : Rg N) ∣ f - g

/-- `p` is a polynomial of level `i` in NTT form holding `f` modulo the ciphertext modulus of that level. -/
def PolyAt (P : BfvParameters) (i : Nat) (f : Rg N) (p : Poly) : Prop :=
  ∃ c, P.qCtxs[i]? = some c ∧ Denotes c .ntt (cf f) p

/-- `ct` is a ciphertext of level `i` with the components `fs`. -/
def IsCt (P : BfvParameters) (i : Nat) (fs : List (Rg N)) (ct : BfvCipherText) : Prop :=
  ct.params = P ∧ ct.level = i ∧ List.Forall₂ (PolyAt P i) fs ct.cts

/-- A secret key for `P` with `i64` coefficients; the degree bounds their number. -/
def IsKey (P : BfvParameters) (sk : SecretKey) : Prop :=
  sk.params = P ∧ sk.coeffs.length ≤ P.degree ∧ ∀ x ∈ sk.coeffs, -2 ^ 63 ≤ x ∧ x < 2 ^ 63

/-- The secret key as a ring element. -/
noncomputable def keyRing (N : Nat) (sk : SecretKey) : Rg N := ofCoeffs N fun k => sk.coeffs.getD k 0

/-- A vector of machine words as a ring element. -/
noncomputable def msgRing (N : Nat) (v : List Nat) : Rg N := ofCoeffs N fun k => (v.getD k 0 : ℤ)

/-- `f_0 + f_1 s + f_2 s^2 + …` -/
noncomputable def phase (s : Rg N) : List (Rg N) → Rg N
  | [] => 0
  | f :: fs => f + s * phase s fs

/-- The phase `phi` encodes the message `m` with noise at most `V`: `t phi = Q m + v` modulo `t Q`, where every coefficient of
`v` is at most `V` in absolute value. -/
def Encodes (t Q : Nat) (m phi : Rg N) (V : ℤ) : Prop :=
  ∃ v w : Rg N, Bdd V v ∧ ((t : ℤ) : Rg N) * phi = ((Q : ℤ) : Rg N) * m + v + ((t : ℤ) : Rg N) * (((Q : ℤ) : Rg N) * w)

/-- The coefficients of `m` modulo `t`. -/
noncomputable def residues (t : Nat) (m : Rg N) : List Nat := (List.range N).map fun k => (cf m k % (t : ℤ)).toNat

/-- A tape for `Poly::random` at level `i`: the values drawn for each modulus are below it. -/
def TapeAt (l : List Nat) (i : Nat) (tape : Nat → Nat → Nat) : Prop :=
  ∀ k j, k < (levelModuli l i).length → tape k j < (levelModuli l i).getD k 1

end OnionPIR.Spec
