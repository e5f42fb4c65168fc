import Verif.Spec.Reuse
import Verif.Spec.Rq
import Verif.Model.Pvw
/-
Specification vocabulary for C135: what someone who knows the words from which the error of one encryption was sampled computes.
-/
namespace OnionPIR.Spec

/-- A program that sees one ciphertext and knows its message and the words from which its error was sampled: sample the error again, remove
error and message from the first component, and divide by the second. -/
def divideOut (pr : Profile) (P : BfvParameters) (p : Plaintext) (rng : Nat → Nat) (ct : BfvCipherText) : Res (List ℤ) := do
  let m ← p.toPoly pr
  let e ← Poly.randomSmall pr m.context .ntt P.variance rng
  let x ← e.add pr m
  let c0 ← idx ct.cts 0
  let x ← x.sub pr c0
  let c1 ← idx ct.cts 1
  let i ← c1.inverse pr
  let s ← x.mul pr i
  let s ← s.changeRepresentation pr .powerBasis
  let row ← idx s.coefficients 0
  let q ← idx s.context.moduli64 0
  .ok (row.map (nearZero q))

/-- A program that sees one clue and the public key and knows the selector: make a clue of zeros with the same selector and compare. -/
def compareClue (pr : Profile) (pk : PvwPk) (params : PvwParams) (e : Nat → Nat) (ct : PvwCiphertext) : Res (List Nat) := do
  let y ← Pvw.encrypt pr pk params (List.replicate params.ell 0) e
  .ok ((List.range params.ell).map fun k => if ct.b.getD k 0 = y.b.getD k 0 then 0 else 1)

/-- The words of a mask: for every modulus of `l` and every position a residue. -/
def MaskWords (N : Nat) (l : List Nat) : Type := (i : Fin l.length) → Fin N → Fin (l.get i)

/-- The tape on which these words are written. -/
def MaskWords.tape {N : Nat} {l : List Nat} (w : MaskWords N l) (i j : Nat) : Nat :=
  if h : i < l.length ∧ j < N then (w ⟨i, h.1⟩ ⟨j, h.2⟩).val else 0

end OnionPIR.Spec
