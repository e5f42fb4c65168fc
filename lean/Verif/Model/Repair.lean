import Verif.Model.Tests
/-
Corrections of lines of /repo/src on which a claim fails. Nothing in this file is code of the repository: each definition says which line of which
function it replaces, and keeps the rest of that function as modelled. They serve to show that those lines are the only obstacle to the
claims (C80).
-/
namespace OnionPIR.Repair

/-- `Modulus::bits` (src/modulus.rs:258-260) with `64` in place of `u64::MAX`. -/
def bits (pr : Profile) (m : Modulus) : Res Nat := subW 64 pr 64 (leadingZeros 64 m.p)

/-- `apply_bit_decomposition` (src/rq.rs:312-341) with the corrected `bits`, storing the digits, which the code computes and drops, in the array,
which the code allocates and drops; the array is the result. The entry of row `i`, digit `k` and column `j` is `((D i) j) k`. A digit beyond
the second axis is out of bounds. -/
def applyBitDecomposition (pr : Profile) (p : Poly) : Res (List (List (List Nat))) := do
  Poly.zeros3 p.context.moduli.length p.context.bitDecomposition.l p.context.degree
  mapR (fun (rq : List Nat × Modulus) => mapR (fun v => do
    let b ← bits pr rq.2
    let ds ← decomposeBits pr v b p.context.bitDecomposition.base
    if ds.length ≤ p.context.bitDecomposition.l then .ok (ds ++ List.replicate (p.context.bitDecomposition.l - ds.length) 0) else .error .bounds)
    rq.1) (p.coefficients.zip p.context.moduli)

/-- `SecretKey::encrypt_poly` (src/bfv.rs:299-329) with the level of the context of the polynomial in place of the literal 0 of line 327. -/
def encryptPoly (pr : Profile) (sk : SecretKey) (pt : Poly) (aTape : Nat → Nat → Nat) (rng : Nat → Nat) : Res BfvCipherText := do
  let s ← sk.polyNtt pr pt.context
  let a := Poly.random pt.context aTape .ntt
  let as ← a.mul pr s
  let b ← Poly.randomSmall pr pt.context .ntt sk.params.variance rng
  let b ← b.sub pr as
  let b ← b.add pr pt
  let level ← unwrapR (sk.params.ctxLevel pt.context)
  .ok { cts := [b, a], params := sk.params, level := level }

/-- `SecretKey::encrypt` (src/bfv.rs:331-334), calling the corrected `encrypt_poly`. -/
def encrypt (pr : Profile) (sk : SecretKey) (pt : Plaintext) (aTape : Nat → Nat → Nat) (rng : Nat → Nat) : Res BfvCipherText := do
  let poly ← pt.toPoly pr
  encryptPoly pr sk poly aTape rng

/-- `Add<&Poly>` (src/bfv.rs:441-455) with `self.cts[1].clone()` in place of the sum of line 447. -/
def addPoly (pr : Profile) (a : BfvCipherText) (p : Poly) : Res BfvCipherText := do
  let a0 ← idx a.cts 0
  rassert (a0.context = p.context)
  let c0 ← a0.add pr p
  let a1 ← idx a.cts 1
  .ok { params := a.params, cts := [c0, a1], level := a.level }

/-- The body of the double loop of `Mul<&BfvCipherText>` (src/bfv.rs:497-501) with `+=` in place of `=` in line 499. -/
def mulStep (pr : Profile) (xs ys : List Poly) (cs : List Poly) (ij : Nat × Nat) : Res (List Poly) := do
  let x ← idx xs ij.1
  let y ← idx ys ij.2
  let p ← x.mul pr y
  let c ← idx cs (ij.1 + ij.2)
  let c ← c.add pr p
  setR cs (ij.1 + ij.2) c

/-- `Mul<&BfvCipherText>` (src/bfv.rs:474-514) with the corrected loop. -/
def mul (pr : Profile) (a b : BfvCipherText) : Res BfvCipherText := do
  rassert (b.level = a.level)
  let mp ← idx a.params.mulParams a.level
  let xs ← mapR (mp.upScaler.scale pr) a.cts
  let ys ← mapR (mp.upScaler.scale pr) b.cts
  let s ← addW 64 pr a.cts.length b.cts.length
  let n ← subW 64 pr s 1
  let cs ← foldR (mulStep pr xs ys) (List.replicate n (Poly.zero mp.dst .ntt)) (BfvCipherText.mulPairs a.cts.length b.cts.length)
  let cs ← mapR (mp.downScaler.scale pr) cs
  .ok { params := a.params, cts := cs, level := a.level }

/-- One iteration of the index map loop (src/bfv.rs:149-157) with `(m - pos - 1) >> 1` in place of `(m - pos - 1)` in line 150, as in SEAL. -/
def indexStep (pr : Profile) (degree rowSize m : Nat) (st : List Nat × Nat) (i : Nat) : Res (List Nat × Nat) := do
  let a ← subW 64 pr st.2 1
  let index1 := a >>> 1
  let b ← subW 64 pr m st.2
  let b ← subW 64 pr b 1
  let index2 := b >>> 1
  let l ← setR st.1 i (bitrevIndex degree index1)
  let l ← setR l (rowSize ||| i) (bitrevIndex degree index2)
  let pos ← mulW 64 pr st.2 3
  let mask ← subW 64 pr m 1
  .ok (l, pos &&& mask)

/-- `matrix_reps_index_map` (src/bfv.rs:143-158) with the corrected loop. -/
def indexMap (pr : Profile) (degree : Nat) : Res (List Nat) := do
  let st ← foldR (indexStep pr degree (degree >>> 1) ((degree <<< 1) % 2 ^ 64)) (List.replicate degree 0, 1)
    (List.range (degree >>> 1))
  .ok st.1

/-- `Client::encode` (src/evaluations.rs:36-62) with `assert!(db_rows == self.first_dim * self.dim.pow(..))` in place of line 48. -/
def encode (pr : Profile) (c : Client) (queryDims : List Nat) (dbRows : Nat) : Res (List Nat) := do
  let q0 ← idx queryDims 0
  rassert (q0 < c.firstDim)
  let firstDimBfv := (List.range c.firstDim).map fun i => if i = q0 then 1 else 0
  let p ← powW 64 pr c.dim (queryDims.length - 1)
  let x ← mulW 64 pr c.firstDim p
  rassert (dbRows = x)
  let rgsws ← mapR (Client.selector c.dim) (queryDims.drop 1)
  .ok (firstDimBfv ++ rgsws.flatten)

/-- One iteration of the loop of `gen_x_pows` (src/evaluations.rs:306-310) with the monomial `X^ex` written down in place of the
substitution of line 309. -/
def xPow (pr : Profile) (n : Nat) (ctx : RqContext) (i : Nat) : Res Poly := do
  let p ← powW 64 pr 2 i
  let ex ← subW 64 pr n p
  let v ← setR (List.replicate n 0) ex 1
  let y ← Poly.tryFromVecU64 pr ctx v
  y.neg pr

/-- `gen_x_pows` (src/evaluations.rs:301-313) with the corrected loop. -/
def genXPows (pr : Profile) (n : Nat) (ctx : RqContext) : Res (List Poly) := do
  let lg ← ilog2 64 pr n
  mapR (xPow pr n ctx) (List.range lg)

/-- `Evaluation::unpack` (src/evaluations.rs:254-299), calling the corrected `gen_x_pows`. -/
def unpack (pr : Profile) (ev : Evaluation) (ct : BfvCipherText) : Res (List BfvCipherText) := do
  let ctx ← idx ct.params.qCtxs ct.level
  let xPows ← genXPows pr ct.params.degree ctx
  dassertEqR pr xPows.length (ilog2 64 pr ct.params.degree)
  Evaluation.unpackWith pr ev xPows ct

/-- `while len > 1 { len /= dim; count += 1 }`, run for at most `fuel` iterations. -/
def dimensionsLoop (pr : Profile) (dim : Nat) : (fuel : Nat) → (len count : Nat) → Res Nat
  | 0, len, count => if len > 1 then .error .diverge else .ok count
  | fuel + 1, len, count =>
      if len > 1 then do
        let len ← divR len dim
        let count ← addW 64 pr count 1
        dimensionsLoop pr dim fuel len count
      else .ok count

/-- The number of dimensions (src/evaluations.rs:120), counted by a loop like that of `no_of_cts` in place of the quotient of logarithms. -/
def dimensions (pr : Profile) (s : Server) (fuel : Nat) : Res Nat := do
  let len ← divR s.db.length s.firstDim
  dimensionsLoop pr s.dim fuel len 1

/-- `Server::decode` (src/evaluations.rs:109-226) with the corrected number of dimensions in line 120 and calling the corrected `unpack`.
The loop of `dimensions` runs for at most 64 iterations on a 64-bit length. -/
def decode (pr : Profile) (s : Server) (queryCts : List BfvCipherText) (evalKey : Evaluation) (params : BfvParameters) :
    Res (List BfvCipherText) := Server.decodeBy pr (dimensions pr s 64) (unpack pr evalKey) s queryCts evalKey params

/-- The test `query` (src/evaluations.rs:433-465), calling the corrected `decode`; the result is the vector printed in its last line. -/
def query (pr : Profile) (P : BfvParameters) (db : List (List Nat)) (skRng : Nat → Nat) (dims : List Nat) (firstDim dim : Nat)
    (aTape : Nat → Nat → Nat → Nat → Nat) (rng : Nat → Nat → Nat → Nat) (a0 a1 : Nat → Nat → Nat → Nat) (r0 r1 : Nat → Nat → Nat)
    (aq : Nat → Nat → Nat) (rq : Nat → Nat) (a : Nat → Nat → Nat → Nat) (r : Nat → Nat → Nat) : Res (List Nat) := do
  let db ← mapR (fun v => Plaintext.new pr P v 0 .poly) db
  let sk ← SecretKey.generate pr P skRng
  let enc ← Client.encode pr ⟨firstDim, dim⟩ dims db.length
  let qs ← Tests.queryCts pr P sk enc aq rq a r
  let ev ← Evaluation.build pr sk P aTape rng a0 a1 r0 r1
  let srv ← Server.new pr firstDim dim db P
  let res ← decode pr srv qs ev P
  let ct ← idx res 0
  let pt ← sk.decrypt pr ct
  .ok pt.values

/-- `v * theta_gamma` as a `U256` (src/rns.rs:360-366) with `(vt_hi_lo >> 64)` added in line 366 and a fourth word
`(vt_hi >> 64) + (vt_hi_hi >> 64)` in place of the literals 0 of lines 372 and 379. -/
def vThetaGamma (pr : Profile) (v tLo tHi : Nat) : Res U256 := do
  let loLo ← mulW 128 pr (v % 2 ^ 64) tLo
  let loHi ← mulW 128 pr (v % 2 ^ 64) tHi
  let hiLo ← mulW 128 pr (v >>> 64) tLo
  let hiHi ← mulW 128 pr (v >>> 64) tHi
  let m1 ← addW 128 pr (loLo >>> 64) (loHi % 2 ^ 64)
  let mi ← addW 128 pr m1 (hiLo % 2 ^ 64)
  let h1 ← addW 128 pr (loHi >>> 64) (mi >>> 64)
  let h2 ← addW 128 pr h1 (hiLo >>> 64)
  let hi ← addW 128 pr h2 (hiHi % 2 ^ 64)
  let top ← addW 128 pr (hi >>> 64) (hiHi >>> 64)
  .ok (U256.ofU64s (loLo % 2 ^ 64) (mi % 2 ^ 64) (hi % 2 ^ 64) (top % 2 ^ 64))

/-- The computation of `(w_sign, w)` (src/rns.rs:330-393) with the corrected product. -/
def scaleW (pr : Profile) (s : RnsScaler) (rests : List Nat) (v : Nat) : Res (Bool × Nat) :=
  if s.scalingFactor.isOne then .ok (false, 0)
  else do
    let sum ← RnsScaler.sumThetaOmega pr s.thetaOmegaLo s.thetaOmegaHi s.thetaOmegaSign rests U256.zero
    let vt ← vThetaGamma pr v s.thetaGammaLo s.thetaGammaHi
    let sum := if s.thetaGammaSign then sum.wrappingAdd vt else sum.wrappingSub vt
    RnsScaler.roundW pr sum

/-- `RnsScaler::scale` (src/rns.rs:298-431) with the corrected product and `assert!` in place of the `debug_assert!`s of lines 304-306. -/
def scale (pr : Profile) (s : RnsScaler) (rests : List Nat) (outLen startingIndex : Nat) : Res (List Nat) := do
  rassert (rests.length = s.src.moduliU64.length)
  rassert (outLen ≠ 0)
  rassert (startingIndex + outLen ≤ s.dst.moduliU64.length)
  let v ← RnsScaler.scaleV pr s rests
  let (wSign, w) ← scaleW pr s rests v
  mapR (fun i => RnsScaler.scaleOut pr s rests v wSign w (startingIndex + i)) (List.range outLen)

/-- The length of the longest common prefix, in place of the number of equal positions (src/rq.rs:91-93). -/
def commonPrefix : List Nat → List Nat → Nat
  | a :: as, b :: bs => if a = b then commonPrefix as bs + 1 else 0
  | _, _ => 0

/-- `RqScaler::new` (src/rq.rs:86-104) with the corrected count. -/
def rqScalerNew (pr : Profile) (src dst : RqContext) (sf : ScalingFactor) : Res RqScaler := do
  rassert (src.degree = dst.degree)
  let n := if sf.isOne then commonPrefix src.moduli64 dst.moduli64 else 0
  let r ← RnsScaler.new pr src.rns dst.rns sf
  .ok { src := src, dst := dst, rnsScaler := r, scalingFactor := sf, numberCommonModuli := n }

/-- `AddAssign<&Poly>` and `Add<&Poly>` (src/rq.rs:545-568) with the comparison of contexts. -/
def polyAdd (pr : Profile) (a b : Poly) : Res Poly := do
  rassert (a.context = b.context)
  a.add pr b

/-- `SubAssign<&Poly>` and `Sub<&Poly>` (src/rq.rs:570-593) with the comparison of contexts. -/
def polySub (pr : Profile) (a b : Poly) : Res Poly := do
  rassert (a.context = b.context)
  a.sub pr b

/-- `MulAssign<&Poly>` and `Mul<&Poly>` (src/rq.rs:595-609, 630-637) with the comparison of contexts. -/
def polyMul (pr : Profile) (a b : Poly) : Res Poly := do
  rassert (a.context = b.context)
  a.mul pr b

/-- `Add<&BfvCipherText>` (src/bfv.rs:424-439) on all components, in place of lines 430-431 and 435. -/
def add (pr : Profile) (a b : BfvCipherText) : Res BfvCipherText := do
  rassert (a.params = b.params)
  rassert (a.level = b.level)
  rassert (a.cts.length = b.cts.length)
  let cs ← zipR (polyAdd pr) a.cts b.cts
  .ok { params := a.params, cts := cs, level := a.level }

/-- `Sub<&BfvCipherText>` (src/bfv.rs:457-472) on all components, in place of lines 463-464 and 468. -/
def sub (pr : Profile) (a b : BfvCipherText) : Res BfvCipherText := do
  rassert (a.params = b.params)
  rassert (a.level = b.level)
  rassert (a.cts.length = b.cts.length)
  let cs ← zipR (polySub pr) a.cts b.cts
  .ok { params := a.params, cts := cs, level := a.level }

/-- `Mul<&Poly>` (src/bfv.rs:536-551) on all components, in place of lines 542-543 and 547. -/
def mulPoly (pr : Profile) (a : BfvCipherText) (p : Poly) : Res BfvCipherText := do
  rassert (p.representation = .ntt)
  let cs ← mapR (fun c => polyMul pr c p) a.cts
  .ok { params := a.params, cts := cs, level := a.level }

/-- `Mul<&Plaintext>` (src/bfv.rs:516-534) on all components, in place of lines 525-526 and 530. -/
def mulPlain (pr : Profile) (a : BfvCipherText) (p : Plaintext) : Res BfvCipherText := do
  rassert (a.level = p.level)
  let ctx ← idx a.params.qCtxs a.level
  let poly ← Poly.tryFromVecU64 pr ctx p.values
  let poly ← poly.changeRepresentation pr .ntt
  let cs ← mapR (fun c => polyMul pr c poly) a.cts
  .ok { params := a.params, cts := cs, level := a.level }

/-- `Mul<&BigUint>` (src/bfv.rs:553-565) on all components, in place of lines 556-557 and 561. -/
def mulBig (pr : Profile) (a : BfvCipherText) (n : Nat) : Res BfvCipherText := do
  let cs ← mapR (fun c => c.mulBig pr n) a.cts
  .ok { params := a.params, cts := cs, level := a.level }

/-- The corrected `mul` with `assert!(self.params == rhs.params)` in front (src/bfv.rs:474-514). -/
def mulChecked (pr : Profile) (a b : BfvCipherText) : Res BfvCipherText := do
  rassert (a.params = b.params)
  mul pr a b

/-- `SecretKey::decrypt` (src/bfv.rs:347-375) with `assert!(ct.params == self.params)` in front. -/
def decrypt (pr : Profile) (sk : SecretKey) (ct : BfvCipherText) : Res Plaintext := do
  rassert (ct.params = sk.params)
  sk.decrypt pr ct

/-- `external_product` (src/rgsw.rs:63-78) with `assert!(ct.params == self.ksk0.params)` and the same for `ksk1` in front. -/
def externalProduct (pr : Profile) (g : RgswCt) (ct : BfvCipherText) : Res (Poly × Poly) := do
  rassert (ct.params = g.ksk0.params)
  rassert (ct.params = g.ksk1.params)
  g.externalProduct pr ct

/-- `Ksk::new` (src/ksk.rs:47-100) with `assert!(ksk_level <= ct_level)` in front. -/
def kskNew (pr : Profile) (sk : SecretKey) (src : Poly) (ctLevel kskLevel : Nat) (aTape : Nat → Nat → Nat → Nat)
    (rng : Nat → Nat → Nat) : Res Ksk := do
  rassert (kskLevel ≤ ctLevel)
  Ksk.new pr sk src ctLevel kskLevel aTape rng

/-- `BfvParameters::default` (src/bfv.rs:193-200) with `generate_prime(20, 2 * degree, 1 << 20).unwrap()` in place of the literal 1153 of line 199. -/
def default (pr : Profile) (sample : Nat → Nat → Nat) (numOfModuli degree : Nat) (bd : BitDecomposition) :
    Res BfvParameters := do
  let o ← generateModuli pr (List.replicate numOfModuli 62) degree
  let moduli ← unwrapR o
  let d2 ← mulW 64 pr 2 degree
  let o ← generatePrime pr 20 d2 (2 ^ 20)
  let t ← unwrapR o
  BfvParameters.new pr sample degree t moduli 10 bd

/-- `Server::no_of_cts` (src/evaluations.rs:95-107) with `assert!(len <= 1 || self.dim > 1)` in front of the loop of line 102. -/
def noOfCts (pr : Profile) (s : Server) (fuel : Nat) : Res Nat := do
  let count ← addW 64 pr 0 s.firstDim
  let len ← divR s.db.length s.firstDim
  rassert (len ≤ 1 ∨ 1 < s.dim)
  Server.noOfCtsLoop pr s.dim fuel len count

/-- `PvwParams::default` (src/pvw.rs:19-29) with `q: 786433` in place of `q: 65537` in line 25. -/
def pvwDefault : PvwParams := { n := 450, ell := 4, m := 16000, q := 786433, variance := 2 }

end OnionPIR.Repair
