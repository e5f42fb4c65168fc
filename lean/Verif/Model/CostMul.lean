import Verif.Model.CostClient
import Verif.Model.Omr
/-
The arithmetic work of the multiplications of ciphertexts (src/rq.rs, src/bfv.rs, src/omr.rs), with the counters of Model/Cost, and a variant of
`multiply_with_strategy` that transforms less. Proofs/CostMul shows that the values are those of the first model.

Not counted, beyond what Model/Cost leaves out: the arithmetic inside the scalers.
-/
namespace OnionPIR
open Cw

variable (pr : Profile)

/-- `scale` (src/rq.rs:107-151). -/
def RqScaler.scaleC (s : RqScaler) (p : Poly) : Cw Poly := do
  Cw.lift (rassert (p.context = s.src))
  if p.representation = .powerBasis then Cw.lift (s.scalePower pr p)
  else do
    let tmp ← p.changeRepresentationC pr .powerBasis
    let tmp ← Cw.lift (s.scalePower pr tmp)
    tmp.changeRepresentationC pr p.representation

/-- `relinearize_poly` (src/bfv.rs:762-770). -/
def RelinearizationKey.relinearizePolyC (k : RelinearizationKey) (p : Poly) : Cw (Poly × Poly) :=
  if p.representation = .ntt then do
    let tmp ← p.changeRepresentationC pr .powerBasis
    k.ksk.keySwitchC pr tmp
  else k.ksk.keySwitchC pr p

/-- `multiply_with_strategy` (src/bfv.rs:657-695). -/
def multiplyWithStrategyC (lhs rhs : BfvCipherText) (rlk : RelinearizationKey) : Cw BfvCipherText := do
  Cw.lift (rassert (lhs.level = rhs.level))
  Cw.lift (rassert (lhs.params = rhs.params))
  Cw.lift (rassert (lhs.params = rlk.params))
  Cw.lift (rassert (lhs.cts.length = 2))
  Cw.lift (rassert (rhs.cts.length = 2))
  let mp ← Cw.lift (idx lhs.params.mulParams lhs.level)
  let l0 ← Cw.lift (idx lhs.cts 0)
  let c00 ← mp.upScaler.scaleC pr l0
  let l1 ← Cw.lift (idx lhs.cts 1)
  let c01 ← mp.upScaler.scaleC pr l1
  let r0 ← Cw.lift (idx rhs.cts 0)
  let c10 ← mp.upScaler.scaleC pr r0
  let r1 ← Cw.lift (idx rhs.cts 1)
  let c11 ← mp.upScaler.scaleC pr r1
  let c0 ← c00.mulC pr c10
  let x ← c00.mulC pr c11
  let y ← c10.mulC pr c01
  let c1 ← Cw.lift (x.add pr y)
  let c2 ← c01.mulC pr c11
  let c0 ← mp.downScaler.scaleC pr c0
  let c1 ← mp.downScaler.scaleC pr c1
  let c2 ← mp.downScaler.scaleC pr c2
  let (e0, e1) ← rlk.relinearizePolyC pr c2
  let c0 ← Cw.lift (c0.add pr e0)
  let c1 ← Cw.lift (c1.add pr e1)
  pure { cts := [c0, c1], params := lhs.params, level := lhs.level }

/-- Not in the code: `multiply_with_strategy` where the third component is transformed before it is scaled down, so that it reaches the key switch in the
power basis. The code scales it as it scales the other two: `scale` transforms the result forward and `relinearize_poly` transforms it back. -/
def Repair.multiplyOnceC (lhs rhs : BfvCipherText) (rlk : RelinearizationKey) : Cw BfvCipherText := do
  Cw.lift (rassert (lhs.level = rhs.level))
  Cw.lift (rassert (lhs.params = rhs.params))
  Cw.lift (rassert (lhs.params = rlk.params))
  Cw.lift (rassert (lhs.cts.length = 2))
  Cw.lift (rassert (rhs.cts.length = 2))
  let mp ← Cw.lift (idx lhs.params.mulParams lhs.level)
  let l0 ← Cw.lift (idx lhs.cts 0)
  let c00 ← mp.upScaler.scaleC pr l0
  let l1 ← Cw.lift (idx lhs.cts 1)
  let c01 ← mp.upScaler.scaleC pr l1
  let r0 ← Cw.lift (idx rhs.cts 0)
  let c10 ← mp.upScaler.scaleC pr r0
  let r1 ← Cw.lift (idx rhs.cts 1)
  let c11 ← mp.upScaler.scaleC pr r1
  let c0 ← c00.mulC pr c10
  let x ← c00.mulC pr c11
  let y ← c10.mulC pr c01
  let c1 ← Cw.lift (x.add pr y)
  let c2 ← c01.mulC pr c11
  let c0 ← mp.downScaler.scaleC pr c0
  let c1 ← mp.downScaler.scaleC pr c1
  let c2 ← c2.changeRepresentationC pr .powerBasis
  let c2 ← mp.downScaler.scaleC pr c2
  let (e0, e1) ← rlk.relinearizePolyC pr c2
  let c0 ← Cw.lift (c0.add pr e0)
  let c1 ← Cw.lift (c1.add pr e1)
  pure { cts := [c0, c1], params := lhs.params, level := lhs.level }

/-- `Mul<&Plaintext>` (src/bfv.rs:516-534). -/
def BfvCipherText.mulPlainC (a : BfvCipherText) (p : Plaintext) : Cw BfvCipherText := do
  Cw.lift (rassert (a.level = p.level))
  let ctx ← Cw.lift (idx a.params.qCtxs a.level)
  let poly ← Cw.lift (Poly.tryFromVecU64 pr ctx p.values)
  let poly ← poly.changeRepresentationC pr .ntt
  let a0 ← Cw.lift (idx a.cts 0)
  let c0 ← a0.mulC pr poly
  let a1 ← Cw.lift (idx a.cts 1)
  let c1 ← a1.mulC pr poly
  pure { params := a.params, cts := [c0, c1], level := a.level }

namespace Omr

/-- See `ipStep` (src/omr.rs:13-16). -/
def ipStepC (cts : List BfvCipherText) (polys : List Poly) (product : BfvCipherText) (i : Nat) : Cw BfvCipherText := do
  let c ← Cw.lift (idx cts i)
  let q ← Cw.lift (idx polys i)
  let p ← c.mulPolyC pr q
  Cw.lift (product.add pr p)

/-- `inner_product` (src/omr.rs:9-19). -/
def innerProductC (cts : List BfvCipherText) (polys : List Poly) : Cw BfvCipherText := do
  Cw.lift (rassert (cts.length = polys.length))
  let c0 ← Cw.lift (idx cts 0)
  let p0 ← Cw.lift (idx polys 0)
  let product ← c0.mulPolyC pr p0
  Cw.fold (fun st i => ipStepC pr cts polys st (i + 1)) product (List.range (cts.length - 1))

end Omr
end OnionPIR
