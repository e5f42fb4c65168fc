import Verif.Model.Modulus
import Verif.Model.Utils
/-
Model of /repo/src/rns.rs. `BigUint` is `Nat`; `Arc<T>` is `T`. The derived field `product_dig` (the same number as
`product` in another big-integer type) is represented by `product`.
-/
namespace OnionPIR

/-- `struct RnsContext` (src/rns.rs:13-22). -/
structure RnsContext where
  moduliU64 : List Nat
  moduli : List Modulus
  qStar : List Nat
  qTilde : List Nat
  garner : List Nat
  product : Nat
  deriving DecidableEq, Repr

namespace RnsContext

/-- `RnsContext::new` (src/rns.rs:39-70). -/
def new (moduliU64 : List Nat) : Res RnsContext := do
  let moduli ← mapR Modulus.new moduliU64
  let product := moduliU64.foldl (fun acc q => acc * q) 1
  let qStar ← mapR (fun qi => divR product qi) moduliU64
  let qTilde ← mapR (fun qi => do
    let d ← divR product qi
    let v ← unwrapR (modInverse d qi)
    unwrapR (if v < 2 ^ 64 then some v else none)) moduliU64
  let garner := List.zipWith (fun qs qt => qs * qt) qStar qTilde
  .ok { moduliU64 := moduliU64, moduli := moduli, qStar := qStar, qTilde := qTilde, garner := garner, product := product }

/-- `project` (src/rns.rs:73-78). -/
def project (c : RnsContext) (a : Nat) : Res (List Nat) :=
  mapR (fun q => do
    let r ← modR a q
    unwrapR (if r < 2 ^ 64 then some r else none)) c.moduliU64

/-- The accumulation loop of `lift` (src/rns.rs:81-84). -/
def liftSum : List Nat → List Nat → Nat → Nat
  | x :: xs, g :: gs, res => liftSum xs gs (res + g * x)
  | _, _, res => res

/-- `lift` (src/rns.rs:80-86). -/
def lift (c : RnsContext) (rests : List Nat) : Res Nat := modR (liftSum rests c.garner 0) c.product

/-- `modulus` (src/rns.rs:88-90). -/
def modulus (c : RnsContext) : Nat := c.product

end RnsContext

/-- `struct ScalingFactor` (src/rns.rs:94-99). -/
structure ScalingFactor where
  numerator : Nat
  denominator : Nat
  isOne : Bool
  deriving DecidableEq, Repr

/-- `ScalingFactor::new` (src/rns.rs:101-108). -/
def ScalingFactor.new (numerator denominator : Nat) : Res ScalingFactor := do
  rassert (denominator ≠ 0)
  .ok { isOne := decide (numerator = denominator), numerator := numerator, denominator := denominator }

/-- `struct RnsScaler` (src/rns.rs:115-136). -/
structure RnsScaler where
  src : RnsContext
  dst : RnsContext
  scalingFactor : ScalingFactor
  gamma : List Nat
  gammaShoup : List Nat
  thetaGammaLo : Nat
  thetaGammaHi : Nat
  thetaGammaSign : Bool
  omega : List (List Nat)
  omegaShoup : List (List Nat)
  thetaOmegaLo : List Nat
  thetaOmegaHi : List Nat
  thetaOmegaSign : List Bool
  thetaGarnerLo : List Nat
  thetaGarnerHi : List Nat
  thetaGarnerShift : Nat
  deriving DecidableEq, Repr

/-- `u128::next_power_of_two`: the least power of two `≥ x`; panics (debug) or returns 0 (release) on overflow. -/
def nextPowerOfTwo (pr : Profile) (x : Nat) : Res Nat :=
  if x ≤ 1 then .ok 1 else fit 128 pr (2 ^ ((x - 1).log2 + 1))

/-- `BigUint::to_u64().unwrap()`. -/
def toU64R (x : Nat) : Res Nat := unwrapR (if x < 2 ^ 64 then some x else none)

namespace RnsScaler

/-- The flipping of `theta` in `extract_projection_and_theta` (src/rns.rs:254-270): `(theta, theta_sign)`. -/
def flipTheta (theta denominator : Nat) : Nat × Bool :=
  if denominator > 1 then
    if denominator % 2 = 1 then
      if theta > denominator >>> 1 then (denominator - theta, true) else (theta, false)
    else
      if theta ≥ denominator >>> 1 then (denominator - theta, true) else (theta, false)
  else (theta, false)

/-- The scaling of `theta` by `2^127` (src/rns.rs:273-283). -/
def scaleTheta (theta denominator : Nat) (sign roundUp : Bool) : Nat :=
  if roundUp then
    if sign then (theta <<< 127) / denominator
    else ((theta <<< 127) + denominator - 1) / denominator
  else if sign then ((theta <<< 127) + denominator - 1) / denominator
  else (theta <<< 127) / denominator

/-- `extract_projection_and_theta` (src/rns.rs:244-290): `(projected, theta_lo, theta_hi, theta_sign)`.
The denominator is nonzero (`ScalingFactor::new`), a zero one would panic. -/
def extractProjectionAndTheta (ctx : RnsContext) (input numerator denominator : Nat) (roundUp : Bool) :
    Res (List Nat × Nat × Nat × Bool) := do
  let gamma ← divR (numerator * input + (denominator >>> 1)) denominator
  let projected ← ctx.project gamma
  let theta ← modR (numerator * input) denominator
  let (theta, sign) := flipTheta theta denominator
  let theta := scaleTheta theta denominator sign roundUp
  let hi := theta >>> 64
  let lo ← toU64R (theta - (hi <<< 64))
  let hi ← toU64R hi
  .ok (projected, lo, hi, sign)

/-- `theta_garner_shift` (src/rns.rs:191-204). -/
def garnerShift (pr : Profile) (src : RnsContext) : Res Nat := do
  let shifts ← mapR (fun qi => do
    let prod ← mulW 128 pr qi src.moduliU64.length
    let np ← nextPowerOfTwo pr prod
    let l ← ilog2 128 pr np
    subW 64 pr 191 l) src.moduliU64
  let m ← unwrapR shifts.min?
  .ok (min m 127)

/-- `RnsScaler::new` (src/rns.rs:142-236). The `omega` matrix is filled column by column in the code; here each row
`j` is the list of the `j`-th projections reduced by the `j`-th modulus. -/
def new (pr : Profile) (src dst : RnsContext) (sf : ScalingFactor) : Res RnsScaler := do
  let (gamma, tgLo, tgHi, tgSign) ← extractProjectionAndTheta dst src.product sf.numerator sf.denominator false
  let gammaShoup ← zipR (fun wi q => Modulus.shoup pr q wi) gamma dst.moduli
  let cols ← mapR (fun g => extractProjectionAndTheta dst g sf.numerator sf.denominator true) src.garner
  let omega ← mapR (fun j => do
    let qj ← idx dst.moduli j
    mapR (fun (c : List Nat × Nat × Nat × Bool) => do
      let w ← idx c.1 j
      Modulus.reduce pr qj w) cols) (List.range dst.moduli.length)
  let omegaShoup ← zipR (fun qj row => mapR (fun w => Modulus.shoup pr qj w) row) dst.moduli omega
  let shift ← garnerShift pr src
  let thetas ← mapR (fun g => do
    let theta ← divR ((g <<< shift) + (src.product >>> 1)) src.product
    let hi := theta >>> 64
    let lo ← toU64R (theta - (hi <<< 64))
    let hi ← toU64R hi
    .ok (lo, hi)) src.garner
  .ok { src := src, dst := dst, scalingFactor := sf, gamma := gamma, gammaShoup := gammaShoup, thetaGammaLo := tgLo,
        thetaGammaHi := tgHi, thetaGammaSign := tgSign, omega := omega, omegaShoup := omegaShoup,
        thetaOmegaLo := cols.map (fun c => c.2.1), thetaOmegaHi := cols.map (fun c => c.2.2.1),
        thetaOmegaSign := cols.map (fun c => c.2.2.2), thetaGarnerLo := thetas.map (·.1), thetaGarnerHi := thetas.map (·.2),
        thetaGarnerShift := shift }

/-- The 128×64-bit product `ri * (lo + 2^64 hi)` as three words (src/rns.rs:315-321 and 335-336): `(w0, w1, w2)`. -/
def mulWords (pr : Profile) (ri tLo tHi : Nat) : Res (Nat × Nat × Nat) := do
  let lo ← mulW 128 pr ri tLo
  let h ← mulW 128 pr ri tHi
  let hi ← addW 128 pr h (lo >>> 64)
  .ok (lo % 2 ^ 64, hi % 2 ^ 64, (hi >>> 64) % 2 ^ 64)

/-- The loop summing `theta_garner_i * r_i` in a `U192` (src/rns.rs:309-322); `U192` is a number modulo `2^192`. -/
def sumThetaGarner (pr : Profile) : List Nat → List Nat → List Nat → Nat → Res Nat
  | tl :: tls, th :: ths, r :: rs, acc => do
      let (w0, w1, w2) ← mulWords pr r tl th
      sumThetaGarner pr tls ths rs ((acc + (w0 + w1 * 2 ^ 64 + w2 * 2 ^ 128)) % 2 ^ 192)
  | _, _, _, acc => .ok acc

/-- `v = round(sum_theta_garner / 2^theta_garner_shift)` (src/rns.rs:309-326). The top word is dropped. -/
def scaleV (pr : Profile) (s : RnsScaler) (rests : List Nat) : Res Nat := do
  let sum ← sumThetaGarner pr s.thetaGarnerLo s.thetaGarnerHi rests 0
  let k ← subW 64 pr s.thetaGarnerShift 1
  let sum := sum >>> k
  divCeil 128 pr (sum % 2 ^ 128) 2

/-- The loop summing `± theta_omega_i * r_i` in a `U256` (src/rns.rs:333-357). -/
def sumThetaOmega (pr : Profile) : List Nat → List Nat → List Bool → List Nat → U256 → Res U256
  | tl :: tls, th :: ths, sg :: sgs, r :: rs, acc => do
      let (w0, w1, w2) ← mulWords pr r tl th
      let t := U256.ofU64s w0 w1 w2 0
      sumThetaOmega pr tls ths sgs rs (if sg then acc.wrappingSub t else acc.wrappingAdd t)
  | _, _, _, _, acc => .ok acc

/-- `v * theta_gamma` as a `U256` (src/rns.rs:360-366). -/
def vThetaGamma (pr : Profile) (v tLo tHi : Nat) : Res U256 := do
  let loLo ← mulW 128 pr (v % 2 ^ 64) tLo
  let loHi ← mulW 128 pr (v % 2 ^ 64) tHi
  let hiLo ← mulW 128 pr (v >>> 64) tLo
  let hiHi ← mulW 128 pr (v >>> 64) tHi
  let m1 ← addW 128 pr (loLo >>> 64) (loHi % 2 ^ 64)
  let mi ← addW 128 pr m1 (hiLo % 2 ^ 64)
  let h1 ← addW 128 pr (loHi >>> 64) (mi >>> 64)
  let hi ← addW 128 pr h1 (hiHi % 2 ^ 64)
  .ok (U256.ofU64s (loLo % 2 ^ 64) (mi % 2 ^ 64) (hi % 2 ^ 64) 0)

/-- `w = round(sum_theta_omega / 2^127)` with its sign (src/rns.rs:384-392). -/
def roundW (pr : Profile) (sum : U256) : Res (Bool × Nat) :=
  if sum.msb > 0 then do
    let x ← (sum.not).shr pr 126
    let w ← x.toU128 pr
    let w ← addW 128 pr w 1
    .ok (true, w / 2)
  else do
    let x ← sum.shr pr 126
    let w ← x.toU128 pr
    let w ← divCeil 128 pr w 2
    .ok (false, w)

/-- The computation of `(w_sign, w)` (src/rns.rs:330-393). -/
def scaleW (pr : Profile) (s : RnsScaler) (rests : List Nat) (v : Nat) : Res (Bool × Nat) :=
  if s.scalingFactor.isOne then .ok (false, 0)
  else do
    let sum ← sumThetaOmega pr s.thetaOmegaLo s.thetaOmegaHi s.thetaOmegaSign rests U256.zero
    let vt ← vThetaGamma pr v s.thetaGammaLo s.thetaGammaHi
    let sum := if s.thetaGammaSign then sum.wrappingAdd vt else sum.wrappingSub vt
    roundW pr sum

/-- The inner product added to `yi` (src/rns.rs:420-426). -/
def addOmega (pr : Profile) (qi : Modulus) : List Nat → List Nat → List Nat → Nat → Res Nat
  | r :: rs, o :: os, sh :: shs, yi => do
      let l ← qi.lazyMulShoup pr r o sh
      let yi ← addW 128 pr yi l
      addOmega pr qi rs os shs yi
  | [], _, _, yi => .ok yi
  | _, _, _, _ => .error .bounds

/-- `wi` or `2 * qi - wi` (src/rns.rs:415). -/
def signedW (pr : Profile) (qi : Modulus) (wSign : Bool) (wi : Nat) : Res Nat :=
  if wSign then do
    let q2 ← mulW 64 pr qi.p 2
    subW 64 pr q2 wi
  else .ok wi

/-- The addition of `± w` to `yi` unless the factor is one (src/rns.rs:413-416). -/
def addWTerm (pr : Profile) (s : RnsScaler) (qi : Modulus) (wSign : Bool) (w yi : Nat) : Res Nat :=
  if s.scalingFactor.isOne then .ok yi else do
    let wi ← qi.lazyReduceU128 pr w
    let t ← signedW pr qi wSign wi
    addW 128 pr yi t

/-- One output residue (src/rns.rs:396-429). `get_unchecked` accesses are checked here. -/
def scaleOut (pr : Profile) (s : RnsScaler) (rests : List Nat) (v : Nat) (wSign : Bool) (w j : Nat) : Res Nat := do
  let qi ← idx s.dst.moduli j
  let om ← idx s.omega j
  let oms ← idx s.omegaShoup j
  let g ← idx s.gamma j
  let gs ← idx s.gammaShoup j
  let vr ← qi.reduceU128 pr v
  let l ← qi.lazyMulShoup pr vr g gs
  let q2 ← mulW 64 pr qi.p 2
  let yi ← subW 64 pr q2 l
  let yi ← addWTerm pr s qi wSign w yi
  let yi ← addOmega pr qi rests om oms yi
  qi.reduceU128 pr yi

/-- `RnsScaler::scale` (src/rns.rs:298-431): the residues written to `out`, `outLen = out.len()`. -/
def scale (pr : Profile) (s : RnsScaler) (rests : List Nat) (outLen startingIndex : Nat) : Res (List Nat) := do
  dassert pr (rests.length = s.src.moduliU64.length)
  dassert pr (outLen ≠ 0)
  dassert pr (startingIndex + outLen ≤ s.dst.moduliU64.length)
  let v ← scaleV pr s rests
  let (wSign, w) ← scaleW pr s rests v
  mapR (fun i => scaleOut pr s rests v wSign w (startingIndex + i)) (List.range outLen)

end RnsScaler
end OnionPIR
