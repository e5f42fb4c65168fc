import Verif.Model.Pir
import Verif.Model.Pvw
/-
Bodies of the tests of the repository (the `#[cfg(test)]` modules), as programs over the model. `assert_eq!` and `assert!` are `rassert`;
`dbg!` and `println!` are left out. Random values are arguments, as everywhere in the model; the parameters `P` are built once before the
body. A body that repeats (`for _ in 0..100`) is one iteration here. Tests that panic are modelled up to the call that panics.
-/
namespace OnionPIR.Tests

/-- `encrypt_decrypt` (src/bfv.rs:786-804), one iteration. -/
def encryptDecrypt (pr : Profile) (P : BfvParameters) (skRng : Nat → Nat) (vals : List Nat) (a0 a1 : Nat → Nat → Nat)
    (r0 r1 : Nat → Nat) : Res Unit := do
  let sk ← SecretKey.generate pr P skRng
  let pt ← Plaintext.new pr P vals 0 .poly
  let ct ← sk.encrypt pr pt a0 r0
  let ptAfter ← sk.decrypt pr ct
  let out ← (ptAfter.setEncoding .poly).decode pr
  rassert (vals = out)
  let pt ← Plaintext.new pr P vals 0 .simd
  let ct ← sk.encrypt pr pt a1 r1
  let ptAfter ← sk.decrypt pr ct
  let out ← (ptAfter.setEncoding .simd).decode pr
  rassert (vals = out)

/-- `mul_op` (src/bfv.rs:816-828) for any two vectors; the values shown by `dbg!` are the result. -/
def mulOp (pr : Profile) (P : BfvParameters) (skRng : Nat → Nat) (p1 p2 : List Nat) (a0 a1 : Nat → Nat → Nat) (r0 r1 : Nat → Nat)
    (aRlk : Nat → Nat → Nat → Nat) (rRlk : Nat → Nat → Nat) : Res (List Nat) := do
  let sk ← SecretKey.generate pr P skRng
  let pt1 ← Plaintext.new pr P p1 0 .poly
  let ct1 ← sk.encrypt pr pt1 a0 r0
  let pt2 ← Plaintext.new pr P p2 0 .poly
  let ct2 ← sk.encrypt pr pt2 a1 r1
  let rlk ← RelinearizationKey.new pr sk 0 aRlk rRlk
  let ct3 ← multiplyWithStrategy pr ct1 ct2 rlk
  let mul ← sk.decrypt pr ct3
  .ok mul.values

/-- `galois_key` (src/bfv.rs:843-865), one iteration, for any exponent in place of 3. `sample` is the sampler inside `primitive_root`. -/
def galoisKey (pr : Profile) (sample : Nat → Nat → Nat) (P : BfvParameters) (bd : BitDecomposition) (e : Nat) (skRng : Nat → Nat)
    (aGk : Nat → Nat → Nat → Nat) (rGk : Nat → Nat → Nat) (v : List Nat) (a : Nat → Nat → Nat) (r : Nat → Nat) : Res Unit := do
  let sk ← SecretKey.generate pr P skRng
  let ctx ← idx P.qCtxs 0
  let subs ← Substitution.new pr ctx e
  let gk ← GaliosKey.new pr sk subs 0 aGk rGk
  let pt ← Plaintext.new pr P v 0 .poly
  let ct ← sk.encrypt pr pt a r
  let ct2 ← gk.relinearize pr ct
  let vr ← sk.decrypt pr ct2
  let ptCtx ← RqContext.new pr sample [P.plaintextModulus] P.degree bd
  let expected ← Poly.tryFromVecU64 pr ptCtx v
  let expected ← expected.substitute pr subs
  let expected ← expected.toU64s
  rassert (vr.values = expected)

/-- `ksk_with_pt` (src/ksk.rs:206-219) for any plaintext and any factor; the values shown by `dbg!` are the result. -/
def kskWithPt (pr : Profile) (P : BfvParameters) (skRng : Nat → Nat) (v f : List Nat) (aTape : Nat → Nat → Nat → Nat)
    (rng : Nat → Nat → Nat) : Res (List Nat) := do
  let sk ← SecretKey.generate pr P skRng
  let pt ← Plaintext.new pr P v 0 .poly
  let ksk ← Ksk.newWithPt pr sk pt 0 0 aTape rng
  let ctx ← idx P.qCtxs 0
  let mulPoly ← Poly.tryFromVecU64 pr ctx f
  let (c0, c1) ← ksk.keySwitch pr mulPoly
  let d ← sk.decrypt pr { params := P, cts := [c0, c1], level := 0 }
  .ok d.values

/-- `ksk` (src/ksk.rs:231-261), one iteration; `limit` stands for 70. `fromTape` and `inputTape` are the tapes of the two calls of
`Poly::random`. -/
def ksk (pr : Profile) (P : BfvParameters) (limit : Nat) (skRng : Nat → Nat) (fromTape : Nat → Nat → Nat) (aTape : Nat → Nat → Nat → Nat)
    (rng : Nat → Nat → Nat) (inputTape : Nat → Nat → Nat) : Res Unit := do
  let ctx ← idx P.qCtxs 0
  let sk ← SecretKey.generate pr P skRng
  let skPoly ← sk.polyNtt pr ctx
  let fromPoly := Poly.random ctx fromTape .ntt
  let ksk ← Ksk.new pr sk fromPoly 0 0 aTape rng
  let input := Poly.random ctx inputTape .powerBasis
  let (c0, c1) ← ksk.keySwitch pr input
  let product ← c1.mul pr skPoly
  let product ← product.add pr c0
  let fromPoly ← fromPoly.changeRepresentation pr .ntt
  let input ← input.changeRepresentation pr .ntt
  let productEx ← fromPoly.mul pr input
  let productEx ← productEx.sub pr product
  let productEx ← productEx.changeRepresentation pr .powerBasis
  let rns ← RnsContext.new P.ciphertextModuli
  let bs ← productEx.toBigUints
  foldR (fun _ b => do
    let d ← if b ≤ rns.product then .ok (rns.product - b) else .error .overflow
    rassert (min (SecretKey.bitLength b) (SecretKey.bitLength d) ≤ limit)) () bs

/-- `external_product` (src/rgsw.rs:307-340), one iteration. -/
def externalProduct (pr : Profile) (sample : Nat → Nat → Nat) (P : BfvParameters) (bd : BitDecomposition) (skRng : Nat → Nat)
    (v1 v2 : List Nat) (a : Nat → Nat → Nat) (r : Nat → Nat) (a0 a1 : Nat → Nat → Nat → Nat) (r0 r1 : Nat → Nat → Nat) : Res Unit := do
  let sk ← SecretKey.generate pr P skRng
  let pt ← Plaintext.new pr P v1 0 .poly
  let ct ← sk.encrypt pr pt a r
  let ctx ← idx P.qCtxs 0
  let m2 ← Poly.tryFromVecU64 pr ctx v2
  let m2 ← m2.changeRepresentation pr .ntt
  let rgsw ← RgswCt.encryptPoly pr sk m2 a0 a1 r0 r1
  let (ec0, ec1) ← rgsw.externalProduct pr ct
  let product ← sk.decrypt pr { params := P, cts := [ec0, ec1], level := 0 }
  let rp ← RqContext.new pr sample [P.plaintextModulus] P.degree bd
  let v1Poly ← Poly.tryFromVecU64 pr rp v1
  let v2Poly ← Poly.tryFromVecU64 pr rp v2
  let v1Poly ← v1Poly.changeRepresentation pr .ntt
  let v2Poly ← v2Poly.changeRepresentation pr .ntt
  let expected ← v1Poly.mul pr v2Poly
  let expected ← expected.changeRepresentation pr .powerBasis
  let tm ← Modulus.new P.plaintextModulus
  let values ← tm.reduceVecU64 pr expected.coefficients.flatten
  rassert (product.values = values)

/-- `change_representation` (src/rq.rs:700-709), one iteration, after the construction of the context. -/
def changeRepresentation (pr : Profile) (rq : RqContext) (tape : Nat → Nat → Nat) : Res Unit := do
  let p := Poly.random rq tape .powerBasis
  let q := p
  let p ← p.changeRepresentation pr .ntt
  let p ← p.changeRepresentation pr .powerBasis
  rassert (p = q)

/-- The loop of `mod_switch` (src/rq.rs:740-757). The context has one level less after every iteration, which bounds their number; the
quotient by `denom` cannot panic since `denom` is a product of moduli. -/
def modSwitchLoop (pr : Profile) : (fuel : Nat) → (current : RqContext) → (poly : Poly) → (last : List Nat) → Res Unit
  | 0, current, _, _ => match current.nextCtx with
      | none => .ok ()
      | some _ => .error .diverge
  | fuel + 1, current, poly, last => match current.nextCtx with
      | none => .ok ()
      | some next => do
          let denom := current.rns.product
          let num := next.rns.product
          let poly ← poly.modSwitchDownNext pr
          rassert (poly.context = next)
          let p ← poly.toBigUints
          let expected ← mapR (fun coeff => do
            let x ← divR (coeff * num + denom / 2) denom
            if num = 0 then .error .divZero else .ok (x % num)) last
          rassert (p = expected)
          modSwitchLoop pr fuel next poly expected

/-- `mod_switch` (src/rq.rs:738-757) after the construction of the context. -/
def modSwitch (pr : Profile) (ctx : RqContext) (tape : Nat → Nat → Nat) : Res Unit := do
  let poly := Poly.random ctx tape .powerBasis
  let last ← poly.toBigUints
  modSwitchLoop pr ctx.moduli.length ctx poly last

/-- `bijection` (src/ntt.rs:271-279) for any modulus and size. -/
def bijection (pr : Profile) (sample : Nat → Nat) (q n : Nat) (poly : List Nat) : Res Unit := do
  let m ← Modulus.new q
  let op ← NttOperator.new pr sample m n
  let f ← op.forward pr poly
  let b ← op.backward pr f
  rassert (b = poly)

/-- `test_decompose_bits` (src/utils.rs:297-305) for any value in place of `u64::MAX - 1`. -/
def decomposeBits (pr : Profile) (value : Nat) : Res Unit := do
  let d ← OnionPIR.decomposeBits pr value 64 4
  let recovered ← foldR (fun acc b => do
    let x ← mulW 64 pr acc (2 ^ 4)
    addW 64 pr x b) 0 d.reverse
  rassert (value = recovered)

/-- `test_bit_vector` (src/utils.rs:310-318) for any value in place of `u64::MAX`. -/
def bitVector (pr : Profile) (m : Nat) : Res Unit := do
  let bits ← OnionPIR.bitVector 64 m
  let value ← foldR (fun acc b => do
    let x ← mulW 64 pr acc 2
    addW 64 pr x (if b then 1 else 0)) 0 bits.reverse
  rassert (value = m)

/-- `encrypt_decrypt` (src/pvw.rs:167-175), one iteration, for any parameters. -/
def pvwEncryptDecrypt (pr : Profile) (params : PvwParams) (skTape aTape rng : Nat → Nat → Nat) (e : Nat → Nat) (m : List Nat) : Res Unit := do
  let sk ← Pvw.genSk params skTape
  let pk ← Pvw.genPk pr sk params aTape rng
  let ct ← Pvw.encrypt pr pk params m e
  let d ← Pvw.decrypt pr sk params ct
  rassert (d = m)

/-- `client_encode` (src/evaluations.rs:479-492), up to the call of `unpack`: `sk0` is not used for encryption. -/
def clientEncode (pr : Profile) (P : BfvParameters) (skRng0 skRng : Nat → Nat) (dims : List Nat) (rows : Nat)
    (aTape : Nat → Nat → Nat → Nat → Nat) (rng : Nat → Nat → Nat → Nat) (a0 a1 : Nat → Nat → Nat → Nat) (r0 r1 : Nat → Nat → Nat)
    (a : Nat → Nat → Nat) (r : Nat → Nat) : Res (List BfvCipherText) := do
  let _ ← SecretKey.generate pr P skRng0
  let query ← Client.default.encode pr dims rows
  let sk ← SecretKey.generate pr P skRng
  let ev ← Evaluation.build pr sk P aTape rng a0 a1 r0 r1
  let pt ← Plaintext.new pr P query 0 .poly
  let ct ← sk.encrypt pr pt a r
  ev.unpack pr ct

/-- `unpack` (src/evaluations.rs:561-569), up to the call of `unpack`. -/
def unpack (pr : Profile) (P : BfvParameters) (skRng : Nat → Nat) (values : List Nat)
    (aTape : Nat → Nat → Nat → Nat → Nat) (rng : Nat → Nat → Nat → Nat) (a0 a1 : Nat → Nat → Nat → Nat) (r0 r1 : Nat → Nat → Nat)
    (a : Nat → Nat → Nat) (r : Nat → Nat) : Res (List BfvCipherText) := do
  let sk ← SecretKey.generate pr P skRng
  let ev ← Evaluation.build pr sk P aTape rng a0 a1 r0 r1
  let pt ← Plaintext.new pr P values 0 .poly
  let ct ← sk.encrypt pr pt a r
  ev.unpack pr ct

/-- `unpack_decomp` (src/evaluations.rs:511-530), up to the call of `unpack`; `g0` stands for 5. -/
def unpackDecomp (pr : Profile) (P : BfvParameters) (skRng : Nat → Nat) (values : List Nat) (g0 : Nat)
    (aTape : Nat → Nat → Nat → Nat → Nat) (rng : Nat → Nat → Nat → Nat) (a0 a1 : Nat → Nat → Nat → Nat) (r0 r1 : Nat → Nat → Nat)
    (a : Nat → Nat → Nat) (r : Nat → Nat) : Res (List BfvCipherText) := do
  let ctx ← idx P.qCtxs 0
  let sk ← SecretKey.generate pr P skRng
  let ev ← Evaluation.build pr sk P aTape rng a0 a1 r0 r1
  let p1 ← Poly.tryFromVecU64 pr ctx values
  let p1 ← p1.changeRepresentation pr .ntt
  let p1 ← p1.mulBig pr g0
  let ct ← sk.encryptPoly pr p1 a r
  ev.unpack pr ct

/-- The ciphertexts of a selector times the Garner coefficients (src/evaluations.rs:350, 354, 442-448); tape `j` is that of the `j`-th
encryption. -/
def garnerCts (pr : Profile) (ctx : RqContext) (sk : SecretKey) (q : Poly) (a : Nat → Nat → Nat → Nat) (r : Nat → Nat → Nat) :
    Res (List BfvCipherText) :=
  mapR (fun (x : Nat × Nat) => do
    let p ← q.mulBig pr x.1
    sk.encryptPoly pr p (a x.2) (r x.2)) ctx.rns.garner.zipIdx

/-- `pack_and_construct_rgsw` (src/evaluations.rs:341-358), up to the calls of `unpack`. The iterator is lazy: each ciphertext is unpacked
right after its encryption. -/
def packAndConstructRgsw (pr : Profile) (P : BfvParameters) (skRng : Nat → Nat) (query : List Nat)
    (aTape : Nat → Nat → Nat → Nat → Nat) (rng : Nat → Nat → Nat → Nat) (a0 a1 : Nat → Nat → Nat → Nat) (r0 r1 : Nat → Nat → Nat)
    (a : Nat → Nat → Nat → Nat) (r : Nat → Nat → Nat) : Res (List (List BfvCipherText)) := do
  let sk ← SecretKey.generate pr P skRng
  let ctx ← idx P.qCtxs 0
  let _ ← sk.polyNtt pr ctx
  let q ← Poly.tryFromVecU64 pr ctx query
  let q ← q.changeRepresentation pr .ntt
  let ev ← Evaluation.build pr sk P aTape rng a0 a1 r0 r1
  mapR (fun (x : Nat × Nat) => do
    let p ← q.mulBig pr x.1
    let ct ← sk.encryptPoly pr p (a x.2) (r x.2)
    ev.unpack pr ct) ctx.rns.garner.zipIdx

/-- The ciphertexts of a query for the encoded coordinates `enc` (src/evaluations.rs:444-453). The first selector is encrypted together with
the others, as in the code. -/
def queryCts (pr : Profile) (P : BfvParameters) (sk : SecretKey) (enc : List Nat) (aq : Nat → Nat → Nat) (rq : Nat → Nat)
    (a : Nat → Nat → Nat → Nat) (r : Nat → Nat → Nat) : Res (List BfvCipherText) := do
  let pt ← Plaintext.new pr P enc 0 .poly
  let q0 ← sk.encrypt pr pt aq rq
  let ctx ← idx P.qCtxs 0
  let tail ← if 4 ≤ enc.length then .ok (enc.drop 4) else .error .bounds
  let p ← Poly.tryFromVecU64 pr ctx tail
  let p ← p.changeRepresentation pr .ntt
  let qs ← garnerCts pr ctx sk p a r
  .ok (q0 :: qs)

/-- `query` (src/evaluations.rs:433-461), up to the call of `decode`. -/
def query (pr : Profile) (P : BfvParameters) (db : List (List Nat)) (skRng : Nat → Nat) (dims : List Nat) (firstDim dim : Nat)
    (aTape : Nat → Nat → Nat → Nat → Nat) (rng : Nat → Nat → Nat → Nat) (a0 a1 : Nat → Nat → Nat → Nat) (r0 r1 : Nat → Nat → Nat)
    (aq : Nat → Nat → Nat) (rq : Nat → Nat) (a : Nat → Nat → Nat → Nat) (r : Nat → Nat → Nat) : Res (List BfvCipherText) := do
  let db ← mapR (fun v => Plaintext.new pr P v 0 .poly) db
  let sk ← SecretKey.generate pr P skRng
  let enc ← Client.encode pr ⟨firstDim, dim⟩ dims db.length
  let qs ← queryCts pr P sk enc aq rq a r
  let ev ← Evaluation.build pr sk P aTape rng a0 a1 r0 r1
  let srv ← Server.new pr firstDim dim db P
  srv.decode pr qs ev P

end OnionPIR.Tests
