import Mathlib.Data.ZMod.Basic
import Verif.Model.Pvw
import Verif.Spec.Privacy
/- Specification vocabulary for C81: LWE samples, the advantage of a distinguisher, and the coins of PVW encryption. -/
namespace OnionPIR.Spec

variable {params : PvwParams} {W : Nat}

/-- A PVW ciphertext (or column of a public key) over the integers modulo `q`. -/
abbrev PvwVec (params : PvwParams) : Type := (Fin params.n → ZMod params.q) × (Fin params.ell → ZMod params.q)

/-- The ciphertext that stores the canonical representatives of a pair. -/
def storeCt (x : PvwVec params) : PvwCiphertext := ⟨List.ofFn fun i => (x.1 i).val, List.ofFn fun l => (x.2 l).val⟩

/-- The public key that stores `m` pairs. -/
def storePk (x : Fin params.m → PvwVec params) : PvwPk := List.ofFn fun j => storeCt (x j)

/-- The tape that begins with the given values. -/
def tableTape {a b q : Nat} (f : Fin a → Fin b → Fin q) (i j : Nat) : Nat := if h : i < a ∧ j < b then f ⟨i, h.1⟩ ⟨j, h.2⟩ else 0

/-- The stream that begins with the given bits. -/
def bitTape {m : Nat} (e : Fin m → Fin 2) (j : Nat) : Nat := if h : j < m then e ⟨j, h⟩ else 0

/-- The coins of key generation: the secret key, the public matrix and the words of the errors. -/
abbrev PvwKeyCoins (params : PvwParams) (W : Nat) : Type :=
  (Fin params.ell → Fin params.n → Fin params.q) × (Fin params.m → Fin params.n → Fin params.q) × (Fin params.ell → Words W)

/-- `m` LWE samples `(a, S a + e)` for a secret matrix `S`. -/
def lweSamples (c : PvwKeyCoins params W) (j : Fin params.m) : PvwVec params :=
  (fun i => ((c.2.1 j i : Nat) : ZMod params.q),
    fun l => ∑ i, ((c.1 l i : Nat) : ZMod params.q) * ((c.2.1 j i : Nat) : ZMod params.q) + (cbd (stream (c.2.2 l)) params.variance j : ZMod params.q))

/-- The advantage of `A`, which tosses coins from `Aux`, in telling `m` LWE samples from `m` uniform pairs. -/
noncomputable def lweAdvantage {Aux : Type} (params : PvwParams) (W : Nat) (A : (Fin params.m → PvwVec params) → Aux → Prop) : ℝ :=
  |prob (fun x : PvwKeyCoins params W × Aux => A (lweSamples x.1) x.2) - prob (fun x : (Fin params.m → PvwVec params) × Aux => A x.1 x.2)|

/-- `D` holds of the public key and of the encryption of `msg` that the code makes of the coins. -/
def pvwView (pr : Profile) (params : PvwParams) (msg : List Nat) (D : PvwPk → PvwCiphertext → Prop)
    (x : PvwKeyCoins params W × (Fin params.m → Fin 2)) : Prop :=
  ∃ sk pk ct, Pvw.genSk params (tableTape x.1.1) = .ok sk ∧ Pvw.genPk pr sk params (tableTape x.1.2.1) (streams x.1.2.2) = .ok pk ∧
    Pvw.encrypt pr pk params msg (bitTape x.2) = .ok ct ∧ D pk ct

/-- The distinguisher that takes the pairs as a public key, encrypts `msg` itself and asks `D`. -/
def pvwDistinguisher (pr : Profile) (msg : List Nat) (D : PvwPk → PvwCiphertext → Prop) (x : Fin params.m → PvwVec params)
    (e : Fin params.m → Fin 2) : Prop :=
  ∃ ct, Pvw.encrypt pr (storePk x) params msg (bitTape e) = .ok ct ∧ D (storePk x) ct

end OnionPIR.Spec
