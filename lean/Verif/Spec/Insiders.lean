import Verif.Spec.Recipients
/- Specification vocabulary for C114: clues seen by other recipients. -/
namespace OnionPIR.Spec

variable {params : PvwParams} {W R k R' k' : Nat}

/-- The secret keys, public keys and clues that the code makes of the coins. -/
def Makes (pr : Profile) (params : PvwParams) (dest : Fin k → Fin R) (msg : Fin k → List Nat) (x : OmrCoins params W R k)
    (sk : Fin R → PvwSk) (pk : Fin R → PvwPk) (ct : Fin k → PvwCiphertext) : Prop :=
  (∀ r, Pvw.genSk params (tableTape (x.1 r).1) = .ok (sk r) ∧
    Pvw.genPk pr (sk r) params (tableTape (x.1 r).2.1) (streams (x.1 r).2.2) = .ok (pk r)) ∧
  ∀ i, Pvw.encrypt pr (pk (dest i)) params (msg i) (bitTape (x.2 i)) = .ok (ct i)

/-- `D` holds of the public keys of `R` recipients and of `k` clues for them, and of all that `R'` others have: their secret keys, their public keys
and `k'` clues for them. -/
def insiderView (pr : Profile) (params : PvwParams) (dest : Fin k → Fin R) (msg : Fin k → List Nat) (dest' : Fin k' → Fin R') (msg' : Fin k' → List Nat)
    (D : (Fin R → PvwPk) → (Fin k → PvwCiphertext) → (Fin R' → PvwSk) → (Fin R' → PvwPk) → (Fin k' → PvwCiphertext) → Prop)
    (x : OmrCoins params W R k × OmrCoins params W R' k') : Prop :=
  ∃ sk pk ct sk' pk' ct', Makes pr params dest msg x.1 sk pk ct ∧ Makes pr params dest' msg' x.2 sk' pk' ct' ∧ D pk ct sk' pk' ct'

/-- The distinguisher that takes the pairs as the public key of recipient `r`, makes the other keys, all the clues and what the others have itself and
asks `D`. -/
def insiderDistinguisher (pr : Profile) (dest : Fin k → Fin R) (msg : Fin k → List Nat) (dest' : Fin k' → Fin R') (msg' : Fin k' → List Nat)
    (D : (Fin R → PvwPk) → (Fin k → PvwCiphertext) → (Fin R' → PvwSk) → (Fin R' → PvwPk) → (Fin k' → PvwCiphertext) → Prop) (r : Fin R)
    (x : Fin params.m → PvwVec params)
    (aux : ((Fin R → PvwKeyCoins params W) × (Fin R → Fin params.m → PvwVec params) × (Fin k → Fin params.m → Fin 2)) × OmrCoins params W R' k') : Prop :=
  ∃ sk' pk' ct', Makes pr params dest' msg' aux.2 sk' pk' ct' ∧ omrDistinguisher pr dest msg (fun pk ct => D pk ct sk' pk' ct') r x aux.1

end OnionPIR.Spec
