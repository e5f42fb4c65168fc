import Verif.Spec.PvwPrivacy
/- Specification vocabulary for C112: clues for several recipients. -/
namespace OnionPIR.Spec

variable {params : PvwParams} {W R k : Nat}

/-- The coins of the keys of `R` recipients and of `k` clues. -/
abbrev OmrCoins (params : PvwParams) (W R k : Nat) : Type := (Fin R → PvwKeyCoins params W) × (Fin k → Fin params.m → Fin 2)

/-- `D` holds of the public keys of `R` recipients and of `k` clues, where clue `i` is for recipient `dest i` and the message `msg i`. -/
def omrView (pr : Profile) (params : PvwParams) (dest : Fin k → Fin R) (msg : Fin k → List Nat) (D : (Fin R → PvwPk) → (Fin k → PvwCiphertext) → Prop)
    (x : OmrCoins params W R k) : Prop :=
  ∃ (sk : Fin R → PvwSk) (pk : Fin R → PvwPk) (ct : Fin k → PvwCiphertext),
    (∀ r, Pvw.genSk params (tableTape (x.1 r).1) = .ok (sk r) ∧
      Pvw.genPk pr (sk r) params (tableTape (x.1 r).2.1) (streams (x.1 r).2.2) = .ok (pk r)) ∧
    (∀ i, Pvw.encrypt pr (pk (dest i)) params (msg i) (bitTape (x.2 i)) = .ok (ct i)) ∧ D pk ct

/-- The pairs `x` in place `r`, uniform pairs before and LWE samples after it. -/
def mixedKeys (r : Fin R) (x : Fin params.m → PvwVec params) (c : Fin R → PvwKeyCoins params W) (u : Fin R → Fin params.m → PvwVec params)
    (r' : Fin R) : Fin params.m → PvwVec params :=
  if r' < r then u r' else if r' = r then x else lweSamples (c r')

/-- The distinguisher that takes the pairs as the public key of recipient `r`, makes the other keys and all the clues itself and asks `D`. -/
def omrDistinguisher (pr : Profile) (dest : Fin k → Fin R) (msg : Fin k → List Nat) (D : (Fin R → PvwPk) → (Fin k → PvwCiphertext) → Prop) (r : Fin R)
    (x : Fin params.m → PvwVec params)
    (aux : (Fin R → PvwKeyCoins params W) × (Fin R → Fin params.m → PvwVec params) × (Fin k → Fin params.m → Fin 2)) : Prop :=
  ∃ ct : Fin k → PvwCiphertext,
    (∀ i, Pvw.encrypt pr (storePk (mixedKeys r x aux.1 aux.2.1 (dest i))) params (msg i) (bitTape (aux.2.2 i)) = .ok (ct i)) ∧
    D (fun r' => storePk (mixedKeys r x aux.1 aux.2.1 r')) ct

end OnionPIR.Spec
