import Verif.Model.Leak
/-
A copy of the scaling of src/rns.rs:298-431 that selects by masks where the code branches on the sign of `w` (lines 384-392 and 415), with the trace of
Model/Leak, and `decrypt` calling it. Nothing else is changed.
-/
namespace OnionPIR.Repair
open RnsScaler

/-- `0.wrapping_sub(b)` on `n` bits: all ones for 1, zero for 0. -/
def mask (n b : Nat) : Nat := (2 ^ n - b) % 2 ^ n

/-- Exclusive or of every limb with a word. -/
def flip (x : U256) (m : Nat) : U256 := ⟨x.l0 ^^^ m, x.l1 ^^^ m, x.l2 ^^^ m, x.l3 ^^^ m⟩

/-- `(b, round(sum / 2^127))` in place of src/rns.rs:384-392: the number or its complement is selected by a mask, and
`(w + 1) / 2` (wrapping) serves both signs. -/
def roundWL (pr : Profile) (sum : U256) : Lk (Nat × Nat) := do
  let b := sum.msb
  let x ← shr126L pr (flip sum (mask 64 b))
  let w ← toU128L pr x
  pure (b, (w + 1) % 2 ^ 128 / 2)

/-- src/rns.rs:330-393. -/
def scaleWL (pr : Profile) (s : RnsScaler) (rests : List Nat) (v : Nat) : Lk (Nat × Nat) := do
  let b ← Lk.test (!s.scalingFactor.isOne)
  if b then do
    let sum ← sumThetaOmegaL pr s.thetaOmegaLo s.thetaOmegaHi s.thetaOmegaSign rests U256.zero
    let vt ← vThetaGammaL pr v s.thetaGammaLo s.thetaGammaHi
    let g ← Lk.test s.thetaGammaSign
    let sum := if g then sum.wrappingAdd vt else sum.wrappingSub vt
    roundWL pr sum
  else pure (0, 0)

/-- `wi` or `2 * qi - wi` (wrapping), selected by a mask, in place of src/rns.rs:415. -/
def signedW (qi : Modulus) (b wi : Nat) : Nat :=
  ((2 * qi.p % 2 ^ 64 + 2 ^ 64 - wi) % 2 ^ 64 &&& mask 64 b) ||| (wi &&& (2 ^ 64 - 1 - mask 64 b))

/-- src/rns.rs:413-416. -/
def addWTermL (pr : Profile) (s : RnsScaler) (qi : Modulus) (b w yi : Nat) : Lk Nat := do
  let c ← Lk.test (!s.scalingFactor.isOne)
  if c then do
    let wi ← qi.lazyReduceU128L pr w
    Lk.add 128 pr yi (signedW qi b wi)
  else pure yi

/-- src/rns.rs:396-429. -/
def scaleOutL (pr : Profile) (s : RnsScaler) (rests : List Nat) (v b w j : Nat) : Lk Nat := do
  let qi ← Lk.idx s.dst.moduli j
  let om ← Lk.idx s.omega j
  let oms ← Lk.idx s.omegaShoup j
  let g ← Lk.idx s.gamma j
  let gs ← Lk.idx s.gammaShoup j
  let vr ← qi.reduceU128L pr v
  let l ← qi.lazyMulShoupL pr vr g gs
  let q2 ← Lk.mul 64 pr qi.p 2
  let yi ← Lk.sub 64 pr q2 l
  let yi ← addWTermL pr s qi b w yi
  let yi ← addOmegaL pr qi rests om oms 0 yi
  qi.reduceU128L pr yi

/-- `RnsScaler::scale` (src/rns.rs:298-431). -/
def scaleL (pr : Profile) (s : RnsScaler) (rests : List Nat) (outLen startingIndex : Nat) : Lk (List Nat) := do
  Lk.dassert pr (rests.length = s.src.moduliU64.length)
  Lk.dassert pr (outLen ≠ 0)
  Lk.dassert pr (startingIndex + outLen ≤ s.dst.moduliU64.length)
  let v ← scaleVL pr s rests
  let w ← scaleWL pr s rests v
  Lk.map (fun i => scaleOutL pr s rests v w.1 w.2 (startingIndex + i)) (List.range outLen)

/-- src/rq.rs:132-143. -/
def scaleColumnsL (pr : Profile) (s : RqScaler) (p : Poly) : Lk (List (List Nat)) := do
  let b ← Lk.test (decide (s.numberCommonModuli < s.dst.moduli64.length))
  if b then
    Lk.map (fun j => do
      let col ← RqScaler.columnL p j
      scaleL pr s.rnsScaler col (s.dst.moduli.length - s.numberCommonModuli) s.numberCommonModuli) (List.range s.src.degree)
  else pure []

/-- src/rq.rs:119-150. -/
def scalePowerL (pr : Profile) (s : RqScaler) (p : Poly) : Lk Poly := do
  let cols ← scaleColumnsL pr s p
  let rows ← Lk.lift (mapR (fun i =>
    if i < s.numberCommonModuli then idx p.coefficients i
    else mapR (fun col => idx col (i - s.numberCommonModuli)) cols) (List.range s.dst.moduli.length))
  pure { context := s.dst, representation := .powerBasis, coefficients := rows }

/-- `RqScaler::scale` (src/rq.rs:107-151). -/
def scalePolyL (pr : Profile) (s : RqScaler) (p : Poly) : Lk Poly := do
  Lk.rassert (p.context = s.src)
  let b ← Lk.test (decide (p.representation ≠ .powerBasis))
  if b then do
    let tmp ← p.changeRepresentationL pr .powerBasis
    let tmp ← scalePowerL pr s tmp
    tmp.changeRepresentationL pr p.representation
  else scalePowerL pr s p

/-- `decrypt` (src/bfv.rs:347-382) calling this copy of the scaling. -/
def decryptL (pr : Profile) (sk : SecretKey) (ct : BfvCipherText) : Lk Plaintext := do
  let m ← sk.phaseL pr ct.cts
  let m ← m.changeRepresentationL pr .powerBasis
  let scaler ← Lk.idx sk.params.scalars ct.level
  let m ← scalePolyL pr scaler m
  let row ← Lk.lift (idx m.coefficients 0)
  let row ← Lk.map (fun a => Lk.add 64 pr a sk.params.plaintextModulus) row
  let row ← Lk.lift (takeR row sk.params.degree)
  let ctx ← Lk.idx sk.params.qCtxs ct.level
  let q ← Lk.lift (idx ctx.moduli 0)
  let row ← q.reduceVecU64L pr row
  let tm ← Lk.lift (Modulus.new sk.params.plaintextModulus)
  let row ← tm.reduceVecU64L pr row
  pure { params := sk.params, values := row, level := ct.level, encoding := .none }

end OnionPIR.Repair
