import Verif.Model.Tests
/-
Bodies of the tests of the repository that assert nothing and print what they compute. What `dbg!` and `println!` show is the result of the
program. Random values are arguments; the parameters `P` are built once before the body. Constants of the tests are arguments where noted.
-/
namespace OnionPIR.Tests

/-- `simd_slot_rotations` (src/bfv.rs:878-890) for any exponent `e` in place of 15; the result is `r_pt.decode()`. -/
def simdSlotRotations (pr : Profile) (P : BfvParameters) (e : Nat) (skRng : Nat → Nat) (vals : List Nat) (a : Nat → Nat → Nat)
    (r : Nat → Nat) (aGk : Nat → Nat → Nat → Nat) (rGk : Nat → Nat → Nat) : Res (List Nat) := do
  let sk ← SecretKey.generate pr P skRng
  let pt ← Plaintext.new pr P vals 0 .simd
  let ct ← sk.encrypt pr pt a r
  let ctx ← idx P.qCtxs 0
  let subs ← Substitution.new pr ctx e
  let gk ← GaliosKey.new pr sk subs 0 aGk rGk
  let rct ← gk.relinearize pr ct
  let rpt ← sk.decrypt pr rct
  (rpt.setEncoding .simd).decode pr

/-- `trial` (src/ksk.rs:185-194) for any message `v` in place of `[1]` and any factor `g` in place of `[10000]`; the result is the
decrypted vector. -/
def trial (pr : Profile) (P : BfvParameters) (skRng : Nat → Nat) (g v : List Nat) (a : Nat → Nat → Nat) (r : Nat → Nat) :
    Res (List Nat) := do
  let sk ← SecretKey.generate pr P skRng
  let ctx ← idx P.qCtxs 0
  let polyG ← Poly.tryFromBigint ctx g
  let polyG ← polyG.changeRepresentation pr .ntt
  let pt ← Plaintext.new pr P v 0 .poly
  let oneEnc ← sk.encrypt pr pt a r
  let oneGEnc ← oneEnc.mulPoly pr polyG
  let d ← sk.decrypt pr oneGEnc
  .ok d.values

/-- External products of an RGSW ciphertext with the pairs of a key-switching key (src/rgsw.rs:132-148, 209-220, 269-278). -/
def rowProducts (pr : Profile) (P : BfvParameters) (g : RgswCt) (k : Ksk) : Res (List (Poly × Poly)) :=
  mapR (fun (x : Poly × Poly) => g.externalProduct pr { params := P, cts := [x.1, x.2], level := 0 }) (k.c0.zip k.c1)

/-- The difference of big integers `rns.modulus() - b` (src/rgsw.rs:177-179); it panics if negative. -/
def subBig (a b : Nat) : Res Nat := if b ≤ a then .ok (a - b) else .error .overflow

/-- The closure of the loop of `encrypt_poly` (src/rgsw.rs:155-182): the three bit lengths printed for each coefficient. -/
def comparePair (pr : Profile) (P : BfvParameters) (skPoly : Poly) (x : Poly × Poly × (Poly × Poly)) : Res (List (Nat × Nat × Nat)) := do
  let exPoly ← x.2.1.mul pr skPoly
  let exPoly ← exPoly.add pr x.1
  let poly ← x.2.2.2.mul pr skPoly
  let poly ← poly.add pr x.2.2.1
  let sub ← exPoly.sub pr poly
  let exPoly ← exPoly.changeRepresentation pr .powerBasis
  let poly ← poly.changeRepresentation pr .powerBasis
  let sub ← sub.changeRepresentation pr .powerBasis
  let rns ← RnsContext.new P.ciphertextModuli
  let exs ← exPoly.toBigUints
  let ps ← poly.toBigUints
  let ss ← sub.toBigUints
  mapR (fun (y : Nat × Nat × Nat) => do
    let e ← subBig rns.product y.1
    let p ← subBig rns.product y.2.1
    let s ← subBig rns.product y.2.2
    .ok (SecretKey.bitLength e, SecretKey.bitLength p, SecretKey.bitLength s)) (exs.zip (ps.zip ss))

/-- `encrypt_poly` (src/rgsw.rs:120-183) for any message `v` in place of `[1]`; the result is what is printed, one list per pair. `a0`, `a1`,
`r0`, `r1` are the tapes of the encryption of the key, `b0`, `b1`, `u0`, `u1` those of the encryption of the message. -/
def rgswEncryptPoly (pr : Profile) (P : BfvParameters) (skRng : Nat → Nat) (v : List Nat) (a0 a1 : Nat → Nat → Nat → Nat)
    (r0 r1 : Nat → Nat → Nat) (b0 b1 : Nat → Nat → Nat → Nat) (u0 u1 : Nat → Nat → Nat) : Res (List (List (Nat × Nat × Nat))) := do
  let sk ← SecretKey.generate pr P skRng
  let ctx ← idx P.qCtxs 0
  let skPoly ← sk.polyNtt pr ctx
  let m ← sk.polyNtt pr ctx
  let skRgsw ← RgswCt.encryptPoly pr sk m a0 a1 r0 r1
  let pt ← Plaintext.new pr P v 0 .poly
  let exRgsw ← RgswCt.encrypt pr sk pt b0 b1 u0 u1
  let skis ← rowProducts pr P skRgsw exRgsw.ksk1
  mapR (comparePair pr P skPoly) (exRgsw.ksk0.c0.zip (exRgsw.ksk0.c1.zip skis))

/-- `construct_full_from_half` (src/rgsw.rs:194-241) for any selector `b` in place of `[1]`; the result is what `dbg!` shows: the decrypted
product, the values encrypted, and the measured noise. `aK`, `rK` are the tapes of `b_ksk`, `a`, `r` those of `m_ct`. -/
def constructFullFromHalf (pr : Profile) (P : BfvParameters) (skRng : Nat → Nat) (b mValues : List Nat) (a0 a1 : Nat → Nat → Nat → Nat)
    (r0 r1 : Nat → Nat → Nat) (aK : Nat → Nat → Nat → Nat) (rK : Nat → Nat → Nat) (a : Nat → Nat → Nat) (r : Nat → Nat) :
    Res (List Nat × List Nat × Nat) := do
  let sk ← SecretKey.generate pr P skRng
  let ctx ← idx P.qCtxs 0
  let skPoly ← sk.polyNtt pr ctx
  let skRgsw ← RgswCt.encryptPoly pr sk skPoly a0 a1 r0 r1
  let bKsk ← Ksk.newWithPt pr sk { params := P, level := 0, encoding := .poly, values := b } 0 0 aK rK
  let upper ← rowProducts pr P skRgsw bKsk
  let upper ← Ksk.tryFromDecomposedRlwes P (upper.map fun x => { params := P, cts := [x.1, x.2], level := 0 })
  let m ← Poly.tryFromVecU64 pr ctx mValues
  let m ← m.changeRepresentation pr .ntt
  let mCt ← sk.encryptPoly pr m a r
  let bRgsw := RgswCt.tryFromKsks upper bKsk
  let product ← bRgsw.externalProduct pr mCt
  let d ← sk.decrypt pr { params := P, cts := [product.1, product.2], level := 0 }
  let noise ← sk.measureNoise pr mCt
  .ok (d.values, mValues, noise)

/-- `contruct_ksk_from_rgsw` (src/rgsw.rs:252-295) for any messages `v` and `w` in place of `[2]` and any factor `f` in place of `[3]`; the
result is the decrypted vector. The iterator `ksk2` is evaluated twice. -/
def constructKskFromRgsw (pr : Profile) (P : BfvParameters) (skRng : Nat → Nat) (v w f : List Nat) (a0 a1 : Nat → Nat → Nat → Nat)
    (r0 r1 : Nat → Nat → Nat) (aK : Nat → Nat → Nat → Nat) (rK : Nat → Nat → Nat) : Res (List Nat) := do
  let sk ← SecretKey.generate pr P skRng
  let ctx ← idx P.qCtxs 0
  let _ ← Poly.tryFromVecI64 pr ctx sk.coeffs
  let m ← Plaintext.new pr P v 0 .poly
  let rgsw ← RgswCt.encrypt pr sk m a0 a1 r0 r1
  let pt ← Plaintext.new pr P w 0 .poly
  let ksk1 ← Ksk.newWithPt pr sk pt 0 0 aK rK
  let first ← rowProducts pr P rgsw ksk1
  let second ← rowProducts pr P rgsw ksk1
  let ksk2 : Ksk := { params := P, c0 := first.map fun x => x.1, c1 := second.map fun x => x.2, kskContext := ctx, ctContext := ctx }
  let p1 ← Poly.tryFromVecU64 pr ctx f
  let product ← ksk2.keySwitch pr p1
  let d ← sk.decrypt pr { params := P, cts := [product.1, product.2], level := 0 }
  .ok d.values

/-- `substitute` (src/rq.rs:718-727), after the construction of the context, for any exponents in place of 3 and 11; the result is the pair
shown: the polynomial after both substitutions, and the original. -/
def substitute (pr : Profile) (ctx : RqContext) (e1 e2 : Nat) (tape : Nat → Nat → Nat) : Res (Poly × Poly) := do
  let p := Poly.random ctx tape .powerBasis
  let q := p
  let p ← p.changeRepresentation pr .ntt
  let s ← Substitution.new pr ctx e1
  let p3 ← p.substitute pr s
  let s ← Substitution.new pr ctx e2
  let p3 ← p3.substitute pr s
  let p3 ← p3.changeRepresentation pr .powerBasis
  .ok (p3, q)

end OnionPIR.Tests
