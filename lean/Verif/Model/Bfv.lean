import Verif.Model.Rq
/-
Model of /repo/src/bfv.rs without the key-switching keys (those are in Verif.Model.Ksk).
`Arc<T>` is `T`; `Box<[T]>` and `Vec<T>` are lists; operators taking references return new values.
Randomness is an explicit argument: `aTape i j` is the `j`-th value drawn for the `i`-th modulus by
`Poly::random_from_seed` with the fresh seed, `rng` is the `u64` stream read by `sample_vec_cbd`.
Not modelled here: `Debug` formatting (Verif.Model.Debug), the unused struct `BfvCiphertext` (src/bfv.rs:412-415), the `#[cfg(test)]` module.
-/
namespace OnionPIR

/-- `v[i] = x` on a slice or `Vec`. -/
def setR {α : Type _} (l : List α) (i : Nat) (x : α) : Res (List α) :=
  if i < l.length then .ok (l.set i x) else .error .bounds

/-- `v[..k]` of a slice. -/
def takeR {α : Type _} (l : List α) (k : Nat) : Res (List α) :=
  if k ≤ l.length then .ok (l.take k) else .error .bounds

/-- `struct MultiplicationParameters` (src/bfv.rs:229-235). -/
structure MultiplicationParameters where
  src : RqContext
  dst : RqContext
  upScaler : RqScaler
  downScaler : RqScaler
  deriving DecidableEq, Repr

/-- `MultiplicationParameters::new` (src/bfv.rs:238-250). -/
def MultiplicationParameters.new (pr : Profile) (src dst : RqContext) (up down : ScalingFactor) :
    Res MultiplicationParameters := do
  let u ← RqScaler.new pr src dst up
  let d ← RqScaler.new pr dst src down
  .ok { src := src, dst := dst, upScaler := u, downScaler := d }

/-- `struct BfvParameters` (src/bfv.rs:25-43). -/
structure BfvParameters where
  degree : Nat
  plaintextModulus : Nat
  ptCtx : RqContext
  ciphertextModuli : List Nat
  ptNtt : Option NttOperator
  qCtxs : List RqContext
  eCtxs : List RqContext
  mulParams : List MultiplicationParameters
  deltaTs : List Poly
  qModTs : List Nat
  scalars : List RqScaler
  matrixRepsIndexMap : List Nat
  variance : Nat
  deriving DecidableEq, Repr

/-- The values pushed by one iteration of the level loop of `BfvParameters::new` (src/bfv.rs:89-139). -/
structure BfvLevel where
  qCtx : RqContext
  eCtx : RqContext
  mul : MultiplicationParameters
  qModT : Nat
  deltaT : Poly
  scalar : RqScaler

namespace BfvParameters

/-- The auxiliary prime loop of `BfvParameters::new` (src/bfv.rs:54-63). The bound decreases at every iteration, so
`2^62` iterations suffice; running out of fuel is recorded as divergence. -/
def extLoop (pr : Profile) (degree : Nat) (moduli : List Nat) : (fuel : Nat) → (acc : List Nat) → (upperBound : Nat) →
    Res (List Nat)
  | 0, acc, _ => if acc.length = moduli.length + 1 then .ok acc else .error .diverge
  | fuel + 1, acc, upperBound =>
      if acc.length = moduli.length + 1 then .ok acc
      else do
        let d2 ← mulW 64 pr 2 degree
        let o ← generatePrime pr 62 d2 upperBound
        let p ← unwrapR o
        if acc.contains p || moduli.contains p then extLoop pr degree moduli fuel acc p
        else extLoop pr degree moduli fuel (acc ++ [p]) p

/-- One element of `t_invs_rests` (src/bfv.rs:67-70): the inverse of `-t` modulo `q`. -/
def tInvRest (pr : Profile) (t q : Nat) : Res Nat := do
  let m ← Modulus.new q
  let n ← m.neg pr t
  m.inv pr n

/-- One iteration of the level loop of `BfvParameters::new` (src/bfv.rs:89-139). -/
def level (pr : Profile) (sample : Nat → Nat → Nat) (degree t : Nat) (moduli ext tInvs : List Nat)
    (bd : BitDecomposition) (ptCtx : RqContext) (i : Nat) : Res BfvLevel := do
  let ms ← takeR moduli (moduli.length - i)
  let qCtx ← RqContext.new pr sample ms degree bd
  let r ← modR qCtx.rns.modulus t
  let qModT ← toU64R r
  let lifted ← qCtx.rns.lift tInvs
  let tInvPoly ← Poly.tryFromBigint qCtx [lifted]
  let tInvPoly ← tInvPoly.changeRepresentation pr .ntt
  let sf ← ScalingFactor.new t qCtx.rns.modulus
  let scalar ← RqScaler.new pr qCtx ptCtx sf
  let sizes ← mapR (fun q => subW 64 pr 64 (leadingZeros 64 q)) ms
  let sizeSum ← foldR (addW 64 pr) 0 sizes
  let bits ← addW 64 pr sizeSum 60
  let count ← divCeil 64 pr bits 62
  let extra ← takeR ext count
  let eCtx ← RqContext.new pr sample (ms ++ extra) degree bd
  let one ← ScalingFactor.new 1 1
  let down ← ScalingFactor.new t qCtx.rns.modulus
  let mul ← MultiplicationParameters.new pr qCtx eCtx one down
  .ok { qCtx := qCtx, eCtx := eCtx, mul := mul, qModT := qModT, deltaT := tInvPoly, scalar := scalar }

/-- One iteration of the index map loop (src/bfv.rs:149-157); the state is the map and `pos`. -/
def indexStep (pr : Profile) (degree rowSize m : Nat) (st : List Nat × Nat) (i : Nat) : Res (List Nat × Nat) := do
  let a ← subW 64 pr st.2 1
  let index1 := a >>> 1
  let b ← subW 64 pr m st.2
  let index2 ← subW 64 pr b 1
  let l ← setR st.1 i (bitrevIndex degree index1)
  let l ← setR l (rowSize ||| i) (bitrevIndex degree index2)
  let pos ← mulW 64 pr st.2 3
  let mask ← subW 64 pr m 1
  .ok (l, pos &&& mask)

/-- `matrix_reps_index_map` (src/bfv.rs:143-158). `degree << 1` keeps the low 64 bits. -/
def indexMap (pr : Profile) (degree : Nat) : Res (List Nat) := do
  let st ← foldR (indexStep pr degree (degree >>> 1) ((degree <<< 1) % 2 ^ 64)) (List.replicate degree 0, 1)
    (List.range (degree >>> 1))
  .ok st.1

/-- `BfvParameters::new` (src/bfv.rs:46-182). -/
def new (pr : Profile) (sample : Nat → Nat → Nat) (degree t : Nat) (moduli : List Nat) (variance : Nat)
    (bd : BitDecomposition) : Res BfvParameters := do
  let ext ← extLoop pr degree moduli (2 ^ 62) [] (2 ^ 62)
  let tInvs ← mapR (tInvRest pr t) moduli
  let q0 ← idx moduli 0
  let ptCtx ← RqContext.new pr sample [q0] degree bd
  let levels ← mapR (level pr sample degree t moduli ext tInvs bd ptCtx) (List.range moduli.length)
  let map ← indexMap pr degree
  let tm ← Modulus.new t
  let op ← NttOperator.new pr (sample tm.p) tm degree
  .ok { degree := degree, plaintextModulus := t, ptCtx := ptCtx, ciphertextModuli := moduli, ptNtt := some op,
        qCtxs := levels.map (·.qCtx), eCtxs := levels.map (·.eCtx), mulParams := levels.map (·.mul),
        deltaTs := levels.map (·.deltaT), qModTs := levels.map (·.qModT), scalars := levels.map (·.scalar),
        matrixRepsIndexMap := map, variance := variance }

/-- The loop of `ctx_level` (src/bfv.rs:185-189), started at level `i`. -/
def ctxLevelLoop (c : RqContext) : List RqContext → Nat → Option Nat
  | [], _ => none
  | d :: ds, i => if c = d then some i else ctxLevelLoop c ds (i + 1)

/-- `ctx_level` (src/bfv.rs:184-191). -/
def ctxLevel (P : BfvParameters) (c : RqContext) : Option Nat := ctxLevelLoop c P.qCtxs 0

/-- `BfvParameters::default` (src/bfv.rs:193-200). -/
def default (pr : Profile) (sample : Nat → Nat → Nat) (numOfModuli degree : Nat) (bd : BitDecomposition) :
    Res BfvParameters := do
  let o ← generateModuli pr (List.replicate numOfModuli 62) degree
  let moduli ← unwrapR o
  new pr sample degree 1153 moduli 10 bd

end BfvParameters

/-- `enum Encoding` (src/bfv.rs:567-572). -/
inductive Encoding where
  | poly
  | simd
  | none
  deriving DecidableEq, Repr

/-- `struct Plaintext` (src/bfv.rs:574-580). -/
structure Plaintext where
  params : BfvParameters
  level : Nat
  encoding : Encoding
  values : List Nat
  deriving DecidableEq, Repr

namespace Plaintext

/-- The scatter loop of SIMD encoding (src/bfv.rs:594-596). -/
def scatter (P : BfvParameters) (values zeros : List Nat) : Res (List Nat) :=
  foldR (fun enc i => do
    let k ← idx P.matrixRepsIndexMap i
    let v ← idx values i
    setR enc k v) zeros (List.range P.degree)

/-- The encoding of the values (src/bfv.rs:590-602). -/
def encode (pr : Profile) (P : BfvParameters) (values : List Nat) : Encoding → Res (List Nat)
  | .poly => copyPrefix (List.replicate P.degree 0) values
  | .simd => do
      let e ← scatter P values (List.replicate P.degree 0)
      let op ← unwrapR P.ptNtt
      op.backward pr e
  | .none => .error .assert

/-- `Plaintext::new` (src/bfv.rs:583-609). -/
def new (pr : Profile) (P : BfvParameters) (values : List Nat) (level : Nat) (encoding : Encoding) : Res Plaintext := do
  let e ← encode pr P values encoding
  .ok { params := P, values := e, level := level, encoding := encoding }

/-- The gather loop of SIMD decoding (src/bfv.rs:619-621). -/
def gather (P : BfvParameters) (values zeros : List Nat) : Res (List Nat) :=
  foldR (fun vals i => do
    let k ← idx P.matrixRepsIndexMap i
    let v ← idx values k
    setR vals i v) zeros (List.range P.degree)

/-- `decode` (src/bfv.rs:611-628). -/
def decode (pr : Profile) (p : Plaintext) : Res (List Nat) :=
  match p.encoding with
  | .poly => copyFromSlice (List.replicate p.params.degree 0) p.values
  | .simd => do
      let op ← unwrapR p.params.ptNtt
      let values ← op.forward pr p.values
      gather p.params values (List.replicate p.params.degree 0)
  | .none => .error .assert

/-- `set_encoding` (src/bfv.rs:630-632). -/
def setEncoding (p : Plaintext) (e : Encoding) : Plaintext := { p with encoding := e }

/-- `to_poly` (src/bfv.rs:634-654). -/
def toPoly (pr : Profile) (p : Plaintext) : Res Poly := do
  let qModT ← idx p.params.qModTs p.level
  let qCtx ← idx p.params.qCtxs p.level
  let delta ← idx p.params.deltaTs p.level
  let tm ← Modulus.new p.params.plaintextModulus
  let values ← tm.scalarMulVec pr p.values qModT
  let poly ← Poly.tryFromVecU64 pr qCtx values
  let poly ← poly.changeRepresentation pr .ntt
  poly.mul pr delta

end Plaintext

/-- `struct BfvCipherText` (src/bfv.rs:417-422). -/
structure BfvCipherText where
  params : BfvParameters
  cts : List Poly
  level : Nat
  deriving DecidableEq, Repr

namespace BfvCipherText

/-- `Add<&BfvCipherText>` (src/bfv.rs:424-439). -/
def add (pr : Profile) (a b : BfvCipherText) : Res BfvCipherText := do
  rassert (a.params = b.params)
  rassert (a.level = b.level)
  let a0 ← idx a.cts 0
  let b0 ← idx b.cts 0
  let c0 ← a0.add pr b0
  let a1 ← idx a.cts 1
  let b1 ← idx b.cts 1
  let c1 ← a1.add pr b1
  .ok { params := a.params, cts := [c0, c1], level := a.level }

/-- `Add<&Poly>` (src/bfv.rs:441-455). -/
def addPoly (pr : Profile) (a : BfvCipherText) (p : Poly) : Res BfvCipherText := do
  let a0 ← idx a.cts 0
  rassert (a0.context = p.context)
  let c0 ← a0.add pr p
  let a1 ← idx a.cts 1
  let c1 ← a1.add pr p
  .ok { params := a.params, cts := [c0, c1], level := a.level }

/-- `Sub<&BfvCipherText>` (src/bfv.rs:457-472). -/
def sub (pr : Profile) (a b : BfvCipherText) : Res BfvCipherText := do
  rassert (a.params = b.params)
  rassert (a.level = b.level)
  let a0 ← idx a.cts 0
  let b0 ← idx b.cts 0
  let c0 ← a0.sub pr b0
  let a1 ← idx a.cts 1
  let b1 ← idx b.cts 1
  let c1 ← a1.sub pr b1
  .ok { params := a.params, cts := [c0, c1], level := a.level }

/-- The body of the double loop of `Mul<&BfvCipherText>` (src/bfv.rs:497-501). -/
def mulStep (pr : Profile) (xs ys : List Poly) (cs : List Poly) (ij : Nat × Nat) : Res (List Poly) := do
  let x ← idx xs ij.1
  let y ← idx ys ij.2
  let p ← x.mul pr y
  setR cs (ij.1 + ij.2) p

/-- The index pairs of the double loop, in order. -/
def mulPairs (n m : Nat) : List (Nat × Nat) := (List.range n).flatMap fun i => (List.range m).map fun j => (i, j)

/-- `Mul<&BfvCipherText>` (src/bfv.rs:474-514). -/
def mul (pr : Profile) (a b : BfvCipherText) : Res BfvCipherText := do
  rassert (b.level = a.level)
  let mp ← idx a.params.mulParams a.level
  let xs ← mapR (mp.upScaler.scale pr) a.cts
  let ys ← mapR (mp.upScaler.scale pr) b.cts
  let s ← addW 64 pr a.cts.length b.cts.length
  let n ← subW 64 pr s 1
  let cs ← foldR (mulStep pr xs ys) (List.replicate n (Poly.zero mp.dst .ntt)) (mulPairs a.cts.length b.cts.length)
  let cs ← mapR (mp.downScaler.scale pr) cs
  .ok { params := a.params, cts := cs, level := a.level }

/-- `Mul<&Poly>` (src/bfv.rs:536-551). -/
def mulPoly (pr : Profile) (a : BfvCipherText) (p : Poly) : Res BfvCipherText := do
  let a0 ← idx a.cts 0
  rassert (p.context = a0.context)
  rassert (p.representation = .ntt)
  let c0 ← a0.mul pr p
  let a1 ← idx a.cts 1
  let c1 ← a1.mul pr p
  .ok { params := a.params, cts := [c0, c1], level := a.level }

/-- `Mul<&Plaintext>` (src/bfv.rs:516-534). -/
def mulPlain (pr : Profile) (a : BfvCipherText) (p : Plaintext) : Res BfvCipherText := do
  rassert (a.level = p.level)
  let ctx ← idx a.params.qCtxs a.level
  let poly ← Poly.tryFromVecU64 pr ctx p.values
  let poly ← poly.changeRepresentation pr .ntt
  let a0 ← idx a.cts 0
  let c0 ← a0.mul pr poly
  let a1 ← idx a.cts 1
  let c1 ← a1.mul pr poly
  .ok { params := a.params, cts := [c0, c1], level := a.level }

/-- `Mul<&BigUint>` (src/bfv.rs:553-565). -/
def mulBig (pr : Profile) (a : BfvCipherText) (n : Nat) : Res BfvCipherText := do
  let a0 ← idx a.cts 0
  let c0 ← a0.mulBig pr n
  let a1 ← idx a.cts 1
  let c1 ← a1.mulBig pr n
  .ok { params := a.params, cts := [c0, c1], level := a.level }

end BfvCipherText

/-- `struct SecretKey` (src/bfv.rs:272-276). -/
structure SecretKey where
  params : BfvParameters
  coeffs : List Int

namespace SecretKey

/-- `SecretKey::generate` (src/bfv.rs:279-290). -/
def generate (pr : Profile) (P : BfvParameters) (rng : Nat → Nat) : Res SecretKey := do
  let coeffs ← sampleVecCbd pr rng P.degree P.variance
  .ok { params := P, coeffs := coeffs }

/-- `SecretKey::new` (src/bfv.rs:292-297). -/
def new (coeffs : List Int) (P : BfvParameters) : SecretKey := { params := P, coeffs := coeffs }

/-- `Poly::try_from_vec_i64(ctx, &self.coeffs)` in NTT form, the first lines of most functions below. -/
def polyNtt (pr : Profile) (sk : SecretKey) (ctx : RqContext) : Res Poly := do
  let s ← Poly.tryFromVecI64 pr ctx sk.coeffs
  s.changeRepresentation pr .ntt

/-- `encrypt_poly` (src/bfv.rs:299-329). -/
def encryptPoly (pr : Profile) (sk : SecretKey) (pt : Poly) (aTape : Nat → Nat → Nat) (rng : Nat → Nat) :
    Res BfvCipherText := do
  let s ← sk.polyNtt pr pt.context
  let a := Poly.random pt.context aTape .ntt
  let as ← a.mul pr s
  let b ← Poly.randomSmall pr pt.context .ntt sk.params.variance rng
  let b ← b.sub pr as
  let b ← b.add pr pt
  .ok { cts := [b, a], params := sk.params, level := 0 }

/-- `encrypt` (src/bfv.rs:331-334). -/
def encrypt (pr : Profile) (sk : SecretKey) (pt : Plaintext) (aTape : Nat → Nat → Nat) (rng : Nat → Nat) :
    Res BfvCipherText := do
  let poly ← pt.toPoly pr
  sk.encryptPoly pr poly aTape rng

/-- `decrypt_trial` (src/bfv.rs:336-345). -/
def decryptTrial (pr : Profile) (sk : SecretKey) (ct0 ct1 : Poly) : Res Poly := do
  rassert (ct0.context = ct1.context)
  let s ← sk.polyNtt pr ct0.context
  let v ← s.mul pr ct1
  v.add pr ct0

/-- The loop of `decrypt` (src/bfv.rs:353-356): the state is `(m, sk_i)`. -/
def phaseStep (pr : Profile) (s : Poly) (st : Poly × Poly) (c : Poly) : Res (Poly × Poly) := do
  let x ← st.2.mul pr c
  let m ← st.1.add pr x
  let si ← st.2.mul pr s
  .ok (m, si)

/-- The part of `decrypt` that computes `c0 + c1*s + c2*s^2 + …` (src/bfv.rs:348-356). -/
def phase (pr : Profile) (sk : SecretKey) (cts : List Poly) : Res Poly := do
  let c0 ← idx cts 0
  let s ← sk.polyNtt pr c0.context
  let st ← foldR (phaseStep pr s) (c0, s) (cts.drop 1)
  .ok st.1

/-- `decrypt` (src/bfv.rs:347-382). -/
def decrypt (pr : Profile) (sk : SecretKey) (ct : BfvCipherText) : Res Plaintext := do
  let m ← sk.phase pr ct.cts
  let m ← m.changeRepresentation pr .powerBasis
  let scaler ← idx sk.params.scalars ct.level
  let m ← scaler.scale pr m
  let row ← idx m.coefficients 0
  let row ← mapR (fun a => addW 64 pr a sk.params.plaintextModulus) row
  let row ← takeR row sk.params.degree
  let ctx ← idx sk.params.qCtxs ct.level
  let q ← idx ctx.moduli 0
  let row ← q.reduceVecU64 pr row
  let tm ← Modulus.new sk.params.plaintextModulus
  let row ← tm.reduceVecU64 pr row
  .ok { params := sk.params, values := row, level := ct.level, encoding := .none }

/-- `BigUint::bits`. -/
def bitLength (x : Nat) : Nat := if x = 0 then 0 else x.log2 + 1

/-- One update of `noise` (src/bfv.rs:402-407); the subtraction of `BigUint`s panics below zero. -/
def noiseStep (q : Nat) (noise coeff : Nat) : Res Nat :=
  if coeff ≤ q then .ok (max noise (min (bitLength coeff) (bitLength (q - coeff)))) else .error .overflow

/-- `measure_noise` (src/bfv.rs:386-409). -/
def measureNoise (pr : Profile) (sk : SecretKey) (ct : BfvCipherText) : Res Nat := do
  let pt ← sk.decrypt pr ct
  let ideal ← pt.toPoly pr
  let ctx ← idx sk.params.qCtxs ct.level
  let s ← sk.polyNtt pr ctx
  let c1 ← idx ct.cts 1
  let m ← c1.mul pr s
  let c0 ← idx ct.cts 0
  let m ← m.add pr c0
  let m ← m.sub pr ideal
  let m ← m.changeRepresentation pr .powerBasis
  let coeffs ← m.toBigUints
  foldR (noiseStep ctx.rns.product) 0 coeffs

end SecretKey
end OnionPIR
