import Verif.Spec.Bfv
/- Lowering the level of a ciphertext. The code has `mod_switch_to` for polynomials (src/rq.rs:427-433) and no such
operation on ciphertexts; this one applies it to every component and records the new level. -/
namespace OnionPIR

/-- The product of the moduli of level `i` that level `j > i` lacks. -/
def Spec.missing (l : List Nat) (i j : Nat) : Nat := ((Spec.levelModuli l i).drop (l.length - j)).prod

/-- A polynomial in NTT form is switched through power basis. -/
def Spec.switchPoly (pr : Profile) (ctx : RqContext) (p : Poly) : Res Poly := do
  let p ← p.changeRepresentation pr .powerBasis
  let p ← p.modSwitchTo pr ctx
  p.changeRepresentation pr .ntt

/-- Every component is switched to the context of level `j`. -/
def Spec.switchCt (pr : Profile) (ct : BfvCipherText) (j : Nat) : Res BfvCipherText := do
  let ctx ← idx ct.params.qCtxs j
  let cts ← mapR (switchPoly pr ctx) ct.cts
  .ok { params := ct.params, cts := cts, level := j }

/-- Rounding noise of `k` components under a key with coefficients at most `S`: `1 + N S + (N S)^2 + …`. -/
def Spec.roundingNoise (N : Nat) (S : ℤ) : Nat → ℤ
  | 0 => 0
  | k + 1 => 1 + N * S * roundingNoise N S k

end OnionPIR
