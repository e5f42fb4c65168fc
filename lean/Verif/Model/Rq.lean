import Verif.Model.Ntt
import Verif.Model.Rns
/-
Model of /repo/src/rq.rs. `Arc<T>` is `T`; an `Array2<u64>` is the list of its rows; `&mut self` methods return the new
value. The field `coefficients_decomp` of `Poly` is `None` in every constructor and never written, and is omitted.
`Debug` formatting is in Model/Debug, the `#[cfg(test)]` module in Model/Tests and Model/Prints.
`sample q i` is the `i`-th value drawn by `primitive_root` for the modulus `q` (ChaCha8 seeded with 0: a function of `q`).
-/
namespace OnionPIR

/-- `struct BitDecomposition` (src/rq.rs:63-67). -/
structure BitDecomposition where
  base : Nat
  l : Nat
  deriving DecidableEq, Repr

/-- The fields of `struct RqContext` (src/rq.rs:155-167) other than `next_ctx`. -/
structure RqCore where
  moduli64 : List Nat
  moduli : List Modulus
  rns : RnsContext
  nttOps : List NttOperator
  degree : Nat
  bitDecomposition : BitDecomposition
  qLastInvMod : List Nat
  qLastInvModShoup : List Nat
  bitrev : List Nat
  deriving DecidableEq, Repr

/-- `struct RqContext` (src/rq.rs:155-167). The chain `next_ctx`, `next_ctx.next_ctx`, … is stored as a list. -/
structure RqContext extends RqCore where
  chain : List RqCore
  deriving DecidableEq, Repr

namespace RqContext

/-- The field `next_ctx`. -/
def nextCtx (c : RqContext) : Option RqContext :=
  match c.chain with
  | [] => none
  | d :: ds => some { toRqCore := d, chain := ds }

/-- The cores of the optional next context, in order. -/
def chainOf : Option RqContext → List RqCore
  | none => []
  | some c => c.toRqCore :: c.chain

/-- One element of `q_last_inv_mod` with its Shoup representation (src/rq.rs:204-210). -/
def lastInv (pr : Profile) (qLast : Nat) (qi : Modulus) : Res (Nat × Nat) := do
  let r ← qi.reduce pr qLast
  let inv ← qi.inv pr r
  let s ← qi.shoup pr inv
  .ok (inv, s)

/-- The body of `RqContext::new` (src/rq.rs:186-229) after the recursive call for `next_ctx`. -/
def finish (pr : Profile) (moduli64 : List Nat) (degree : Nat) (bd : BitDecomposition) (rns : RnsContext)
    (ops : List NttOperator) (next : Option RqContext) : Res RqContext := do
  let last ← unwrapR rns.moduli.getLast?
  let invs ← mapR (lastInv pr last.p) (rns.moduli.take (rns.moduli.length - 1))
  .ok { moduli64 := moduli64, moduli := rns.moduli, rns := rns, nttOps := ops, degree := degree, bitDecomposition := bd,
        qLastInvMod := invs.map (·.1), qLastInvModShoup := invs.map (·.2),
        bitrev := (List.range degree).map (bitrevIndex degree), chain := chainOf next }

/-- The recursion of `RqContext::new` (src/rq.rs:186-229); `fuel` is the number of moduli. -/
def newAux (pr : Profile) (sample : Nat → Nat → Nat) (degree : Nat) (bd : BitDecomposition) :
    (fuel : Nat) → (moduli64 : List Nat) → Res RqContext
  | 0, moduli64 => do
      let rns ← RnsContext.new moduli64
      let ops ← mapR (fun (m : Modulus) => NttOperator.new pr (sample m.p) m degree) rns.moduli
      finish pr moduli64 degree bd rns ops none
  | fuel + 1, moduli64 => do
      let rns ← RnsContext.new moduli64
      let ops ← mapR (fun (m : Modulus) => NttOperator.new pr (sample m.p) m degree) rns.moduli
      if 2 ≤ moduli64.length then do
        let next ← newAux pr sample degree bd fuel (moduli64.take (moduli64.length - 1))
        finish pr moduli64 degree bd rns ops (some next)
      else finish pr moduli64 degree bd rns ops none

/-- `RqContext::new` (src/rq.rs:186-229). -/
def new (pr : Profile) (sample : Nat → Nat → Nat) (moduli64 : List Nat) (degree : Nat) (bd : BitDecomposition) :
    Res RqContext := newAux pr sample degree bd moduli64.length moduli64

/-- The loop of `switch_iterations` (src/rq.rs:239-246). -/
def switchLoop (tgt : RqContext) : List RqCore → Nat → Option Nat
  | [], _ => none
  | d :: ds, count => if ({ toRqCore := d, chain := ds } : RqContext) = tgt then some (count + 1) else switchLoop tgt ds (count + 1)

/-- `switch_iterations` (src/rq.rs:231-249). -/
def switchIterations (c tgt : RqContext) : Option Nat := if c = tgt then some 0 else switchLoop tgt c.chain 0

end RqContext

/-- `struct Substitution` (src/rq.rs:30-34). -/
structure Substitution where
  exponent : Nat
  powersBitrev : List Nat
  deriving DecidableEq, Repr

namespace Substitution

/-- The closure mapped over `0..degree` (src/rq.rs:47-54). -/
def powersLoop (pr : Profile) (degree exponent : Nat) : (count : Nat) → (power : Nat) → Res (List Nat)
  | 0, _ => .ok []
  | count + 1, power => do
      let v := bitrevIndex degree (power &&& (degree - 1))
      let power ← addW 64 pr power exponent
      let r ← powersLoop pr degree exponent count power
      .ok (v :: r)

/-- `Substitution::new` (src/rq.rs:37-60). -/
def new (pr : Profile) (ctx : RqContext) (exponent : Nat) : Res Substitution := do
  let d2 ← mulW 64 pr 2 ctx.degree
  let exponent ← modR exponent d2
  rassert (exponent &&& 1 = 1)
  let p ← powersLoop pr ctx.degree exponent ctx.degree ((exponent - 1) >>> 1)
  .ok { exponent := exponent, powersBitrev := p }

end Substitution

/-- `enum Representation` (src/rq.rs:252-257). -/
inductive Representation where
  | powerBasis
  | ntt
  | nttShoup
  deriving DecidableEq, Repr

/-- `struct Poly` (src/rq.rs:259-265). -/
structure Poly where
  context : RqContext
  representation : Representation
  coefficients : List (List Nat)
  deriving DecidableEq, Repr

/-- `izip!(dst.iter_mut(), b, c)` : `*a = f(*a, b, c)?` (stops at the shortest, tail of `dst` kept). -/
def zip3MutM {α β γ : Type _} (f : α → β → γ → Res α) : List α → List β → List γ → Res (List α)
  | a :: as, b :: bs, c :: cs => do
      let x ← f a b c
      let r ← zip3MutM f as bs cs
      .ok (x :: r)
  | as, _, _ => .ok as

/-- `dst.copy_from_slice(src)`. -/
def copyFromSlice (dst src : List Nat) : Res (List Nat) := if dst.length = src.length then .ok src else .error .bounds

/-- `coeffs[..a.len()].copy_from_slice(a)`. -/
def copyPrefix (coeffs a : List Nat) : Res (List Nat) :=
  if a.length ≤ coeffs.length then .ok (a ++ coeffs.drop a.length) else .error .bounds

namespace Poly

/-- `Poly::zero` (src/rq.rs:435-442). -/
def zero (ctx : RqContext) (rep : Representation) : Poly :=
  { context := ctx, representation := rep, coefficients := List.replicate ctx.moduli.length (List.replicate ctx.degree 0) }

/-- `change_representation` (src/rq.rs:272-310). -/
def changeRepresentation (pr : Profile) (p : Poly) (tgt : Representation) : Res Poly :=
  match p.representation, tgt with
  | .powerBasis, .ntt => do
      let c ← zipMutM (fun row (op : NttOperator) => op.forward pr row) p.coefficients p.context.nttOps
      .ok { p with coefficients := c, representation := .ntt }
  | .powerBasis, .powerBasis => .ok p
  | .ntt, .powerBasis => do
      let c ← zipMutM (fun row (op : NttOperator) => op.backward pr row) p.coefficients p.context.nttOps
      .ok { p with coefficients := c, representation := .powerBasis }
  | .ntt, .ntt => .ok p
  | _, _ => .error .todo

/-- The new target coefficient in `substitute` (src/rq.rs:361-365). -/
def substValue (pr : Profile) (degree power : Nat) (q : Modulus) (t o : Nat) : Res Nat :=
  if power &&& degree ≠ 0 then q.sub pr t o else q.add pr t o

/-- One coefficient update of `substitute` in power basis (src/rq.rs:350-368); the state is the output row and `power`. -/
def substStep (pr : Profile) (degree exponent : Nat) (q : Modulus) (src : List Nat) (st : List Nat × Nat) (j : Nat) :
    Res (List Nat × Nat) := do
  let o ← idx src j
  let t ← idx st.1 (st.2 &&& (degree - 1))
  let v ← substValue pr degree st.2 q t o
  let power ← addW 64 pr st.2 exponent
  .ok (st.1.set (st.2 &&& (degree - 1)) v, power)

/-- One row of `substitute` in power basis. The code iterates over columns outside and rows inside; rows do not
interact, so the model runs the column loop (with its own copy of `power`) once per row. -/
def substRowPower (pr : Profile) (degree exponent : Nat) (zeros src : List Nat) (q : Modulus) : Res (List Nat) := do
  let st ← foldR (substStep pr degree exponent q src) (zeros, 0) (List.range degree)
  .ok st.1

/-- One row of `substitute` in NTT form (src/rq.rs:378-381). -/
def substRowNtt (powersBitrev bitrev : List Nat) (zeros src : List Nat) : Res (List Nat) :=
  foldR (fun row (jk : Nat × Nat) => do
    let v ← idx src jk.1
    if jk.2 < row.length then .ok (row.set jk.2 v) else .error .bounds) zeros (powersBitrev.zip bitrev)

/-- `substitute` (src/rq.rs:343-386). -/
def substitute (pr : Profile) (p : Poly) (a : Substitution) : Res Poly :=
  let poly := zero p.context p.representation
  match p.representation with
  | .powerBasis => do
      let c ← zip3MutM (substRowPower pr p.context.degree a.exponent) poly.coefficients p.coefficients p.context.moduli
      .ok { poly with coefficients := c }
  | _ => do
      let c ← zipMutM (substRowNtt a.powersBitrev p.context.bitrev) poly.coefficients p.coefficients
      .ok { poly with coefficients := c }

/-- One coefficient update of `mod_switch_down_next` (src/rq.rs:412-421). -/
def switchCoeff (pr : Profile) (qi : Modulus) (inv invShoup half : Nat) (coeff qLastCoeff : Nat) : Res Nat := do
  let lr ← qi.lazyReduceCt pr qLastCoeff
  let tmp ← addW 64 pr lr half
  let m3 ← mulW 64 pr 3 qi.p
  let d ← subW 64 pr m3 tmp
  let coeff ← addW 64 pr coeff d
  qi.mulShoup pr coeff inv invShoup

/-- One row of `mod_switch_down_next` (src/rq.rs:409-422). -/
def switchRow (pr : Profile) (lastRow : List Nat) (qLastDiv2 : Nat) (row : List Nat) (qi : Modulus)
    (inv : Nat × Nat) : Res (List Nat) := do
  let r ← qi.reduce pr qLastDiv2
  let half ← subW 64 pr qi.p r
  zipMutM (switchCoeff pr qi inv.1 inv.2 half) row lastRow

/-- `mod_switch_down_next` (src/rq.rs:388-425). -/
def modSwitchDownNext (pr : Profile) (p : Poly) : Res Poly :=
  match p.context.nextCtx with
  | none => .error .assert
  | some next => do
      rassert (p.representation = .powerBasis)
      let qLen := p.context.moduli.length
      let qLast ← unwrapR p.context.moduli.getLast?
      let last ← idx p.coefficients (qLen - 1)
      let last ← mapR (fun c => qLast.add pr c (qLast.p / 2)) last
      let rows ← zip3MutM (switchRow pr last (qLast.p / 2)) (p.coefficients.take (qLen - 1)) p.context.moduli
        (p.context.qLastInvMod.zip p.context.qLastInvModShoup)
      .ok { context := next, representation := p.representation, coefficients := rows }

/-- `mod_switch_to` (src/rq.rs:427-433). -/
def modSwitchTo (pr : Profile) (p : Poly) (ctx : RqContext) : Res Poly := do
  let iterations ← unwrapR (p.context.switchIterations ctx)
  foldR (fun p _ => modSwitchDownNext pr p) p (List.range iterations)

/-- The closure over the coefficients of one row in `apply_bit_decomposition` (src/rq.rs:329-335): the digits are computed and dropped;
slicing the array at `[row_index, col_index, ..]` panics if `col_index` is not below the second dimension `l`. -/
def bitDecompStep (pr : Profile) (bd : BitDecomposition) (q : Modulus) (cv : Nat × Nat) : Res Unit := do
  let bits ← q.bits pr
  let _ ← decomposeBits pr cv.2 bits bd.base
  if cv.1 < bd.l then .ok () else .error .bounds

/-- `Array3::zeros`: the product of the non-zero axis lengths and the size in bytes must not exceed `isize::MAX`. -/
def zeros3 (a b c : Nat) : Res Unit :=
  if max a 1 * max b 1 * max c 1 < 2 ^ 63 ∧ 8 * (a * b * c) < 2 ^ 63 then .ok () else .error .capacity

/-- `apply_bit_decomposition` (src/rq.rs:312-341). The array it fills is dropped, `self` is not changed; the slices
`[row_index, i, ..]` with `i < l` are in bounds. -/
def applyBitDecomposition (pr : Profile) (p : Poly) : Res Poly := do
  zeros3 p.context.moduli.length p.context.bitDecomposition.l p.context.degree
  foldR (fun _ (rq : List Nat × Modulus) => foldR (fun _ cv => bitDecompStep pr p.context.bitDecomposition rq.2 cv) ()
    ((List.range rq.1.length).zip rq.1)) () (p.coefficients.zip p.context.moduli)
  .ok p

/-- `inverse` (src/rq.rs:444-458). -/
def inverse (pr : Profile) (p : Poly) : Res Poly := do
  let c ← zip3MutM (fun inv row (q : Modulus) => do
    let v ← q.invVec pr row
    copyFromSlice inv v) (zero p.context p.representation).coefficients p.coefficients p.context.moduli
  .ok { zero p.context p.representation with coefficients := c }

/-- `random` (src/rq.rs:460-475). `tape i j` is the `j`-th value drawn by `random_vec` for the `i`-th modulus. -/
def random (ctx : RqContext) (tape : Nat → Nat → Nat) (rep : Representation) : Poly :=
  { context := ctx, representation := rep,
    coefficients := (List.range ctx.moduli.length).map fun i => (List.range ctx.degree).map fun j => tape i j }

/-- `random_from_seed` (src/rq.rs:478-499). `expand seed moduli degree i j` is the `j`-th value drawn for the `i`-th modulus
from ChaCha8 seeded with SHA-256 of `seed`. -/
def randomFromSeed {Seed : Type} (ctx : RqContext) (expand : Seed → List Nat → Nat → Nat → Nat → Nat) (rep : Representation)
    (seed : Seed) : Poly := random ctx (expand seed ctx.moduli64 ctx.degree) rep

/-- Row filling shared by the `try_from_*` functions. -/
def fromRows {α : Type} (ctx : RqContext) (f : Modulus → List α → Res (List Nat)) (a : List α) : Res Poly := do
  let c ← zipMutM (fun coeffs (q : Modulus) => do
    let v ← f q a
    copyPrefix coeffs v) (zero ctx .powerBasis).coefficients ctx.moduli
  .ok { zero ctx .powerBasis with coefficients := c }

/-- `try_from_vec_u64` (src/rq.rs:515-522). -/
def tryFromVecU64 (pr : Profile) (ctx : RqContext) (a : List Nat) : Res Poly := fromRows ctx (fun q => q.reduceVecU64 pr) a
/-- `try_from_vec_i64` (src/rq.rs:524-531). -/
def tryFromVecI64 (pr : Profile) (ctx : RqContext) (a : List Int) : Res Poly := fromRows ctx (fun q => q.reduceVecI64 pr) a
/-- `try_from_bigint` (src/rq.rs:533-540). -/
def tryFromBigint (ctx : RqContext) (a : List Nat) : Res Poly := fromRows ctx (fun q => q.reduceVecBigUint) a

/-- `random_small` (src/rq.rs:501-513); `rng` is the `u64` stream read by `sample_vec_cbd`. -/
def randomSmall (pr : Profile) (ctx : RqContext) (rep : Representation) (variance : Nat) (rng : Nat → Nat) : Res Poly := do
  let values ← sampleVecCbd pr rng ctx.degree variance
  let poly ← tryFromVecI64 pr ctx values
  poly.changeRepresentation pr rep

/-- `AddAssign<&Poly>` and `Add<&Poly>` (src/rq.rs:545-568). The contexts are not compared. -/
def add (pr : Profile) (a b : Poly) : Res Poly := do
  rassert (a.representation = .ntt)
  rassert (b.representation = .ntt)
  let c ← zip3MutM (fun x y (q : Modulus) => q.addVec pr x y) a.coefficients b.coefficients a.context.moduli
  .ok { a with coefficients := c }

/-- `SubAssign<&Poly>` and `Sub<&Poly>` (src/rq.rs:570-593). -/
def sub (pr : Profile) (a b : Poly) : Res Poly := do
  rassert (a.representation = .ntt)
  rassert (b.representation = .ntt)
  let c ← zip3MutM (fun x y (q : Modulus) => q.subVec pr x y) a.coefficients b.coefficients a.context.moduli
  .ok { a with coefficients := c }

/-- `MulAssign<&Poly>` and `Mul<&Poly>` (src/rq.rs:595-609, 630-637). -/
def mul (pr : Profile) (a b : Poly) : Res Poly := do
  rassert (a.representation = .ntt)
  rassert (b.representation = .ntt)
  let c ← zip3MutM (fun x y (q : Modulus) => q.mulVec pr x y) a.coefficients b.coefficients a.context.moduli
  .ok { a with coefficients := c }

/-- `MulAssign<&BigUint>` and `Mul<&BigUint>` (src/rq.rs:611-628). -/
def mulBig (pr : Profile) (a : Poly) (b : Nat) : Res Poly := do
  let rhs ← tryFromBigint a.context [b]
  let rhs ← rhs.changeRepresentation pr .ntt
  rassert (a.representation = .ntt)
  a.mul pr rhs

/-- `Neg` (src/rq.rs:639-655). -/
def neg (pr : Profile) (p : Poly) : Res Poly := do
  let c ← zip3MutM (fun tmp row (q : Modulus) => do
    let v ← q.negVec pr row
    copyFromSlice tmp v) (zero p.context p.representation).coefficients p.coefficients p.context.moduli
  .ok { zero p.context p.representation with coefficients := c }

/-- The `j`-th item of `coefficients.axis_iter(Axis(1))`. -/
def column (p : Poly) (j : Nat) : Res (List Nat) := mapR (fun row => idx row j) p.coefficients

/-- `From<&Poly> for Vec<BigUint>` (src/rq.rs:657-665). -/
def toBigUints (p : Poly) : Res (List Nat) :=
  mapR (fun j => do
    let rests ← p.column j
    p.context.rns.lift rests) (List.range p.context.degree)

/-- `From<&Poly> for Vec<u64>` (src/rq.rs:668-677). -/
def toU64s (p : Poly) : Res (List Nat) := do
  rassert (p.context.moduli64.length = 1)
  mapR (fun j => do
    let rests ← p.column j
    let v ← p.context.rns.lift rests
    toU64R v) (List.range p.context.degree)

end Poly

/-- `struct RqScaler` (src/rq.rs:76-83). -/
structure RqScaler where
  src : RqContext
  dst : RqContext
  rnsScaler : RnsScaler
  scalingFactor : ScalingFactor
  numberCommonModuli : Nat
  deriving DecidableEq, Repr

namespace RqScaler

/-- Count of positions at which the two lists of moduli agree (src/rq.rs:91-93). -/
def countCommon : List Nat → List Nat → Nat → Nat
  | a :: as, b :: bs, acc => countCommon as bs (if a = b then acc + 1 else acc)
  | _, _, acc => acc

/-- `RqScaler::new` (src/rq.rs:86-104). -/
def new (pr : Profile) (src dst : RqContext) (sf : ScalingFactor) : Res RqScaler := do
  rassert (src.degree = dst.degree)
  let n := if sf.isOne then countCommon src.moduli64 dst.moduli64 0 else 0
  let r ← RnsScaler.new pr src.rns dst.rns sf
  .ok { src := src, dst := dst, rnsScaler := r, scalingFactor := sf, numberCommonModuli := n }

/-- The scaled columns (src/rq.rs:132-143); empty when all destination moduli are common. -/
def scaleColumns (pr : Profile) (s : RqScaler) (p : Poly) : Res (List (List Nat)) :=
  if s.numberCommonModuli < s.dst.moduli64.length then
    mapR (fun j => do
      let col ← p.column j
      s.rnsScaler.scale pr col (s.dst.moduli.length - s.numberCommonModuli) s.numberCommonModuli) (List.range s.src.degree)
  else .ok []

/-- `scale` on a power-basis polynomial (src/rq.rs:119-150): the first `number_common_moduli` rows are copied, row
`number_common_moduli + i` is the `i`-th entry of every scaled column. -/
def scalePower (pr : Profile) (s : RqScaler) (p : Poly) : Res Poly := do
  let cols ← scaleColumns pr s p
  let rows ← mapR (fun i =>
    if i < s.numberCommonModuli then idx p.coefficients i
    else mapR (fun col => idx col (i - s.numberCommonModuli)) cols) (List.range s.dst.moduli.length)
  .ok { context := s.dst, representation := .powerBasis, coefficients := rows }

/-- `scale` (src/rq.rs:107-151). -/
def scale (pr : Profile) (s : RqScaler) (p : Poly) : Res Poly := do
  rassert (p.context = s.src)
  if p.representation = .powerBasis then scalePower pr s p
  else do
    let tmp ← p.changeRepresentation pr .powerBasis
    let tmp ← scalePower pr s tmp
    tmp.changeRepresentation pr p.representation

end RqScaler
end OnionPIR
