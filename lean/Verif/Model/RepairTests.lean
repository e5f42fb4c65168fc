import Verif.Model.Repair
/-
The tests of /repo/src/evaluations.rs that call `unpack` and therefore panic (C41, C71), here to their end and calling the corrected `unpack` of
Verif/Model/Repair.lean. What they print or compare is the result.
-/
namespace OnionPIR.RepairTests

/-- The first value of the decryption of each ciphertext (src/evaluations.rs:488-492, 571-575). -/
def firstValues (pr : Profile) (sk : SecretKey) (cts : List BfvCipherText) : Res (List Nat) :=
  mapR (fun c => do
    let p ← sk.decrypt pr c
    idx p.values 0) cts

/-- `unpack` (src/evaluations.rs:561-587). The result holds the two vectors and the count that are printed; the count is at most the
degree, so that it does not overflow its `i32`. -/
def unpack (pr : Profile) (P : BfvParameters) (skRng : Nat → Nat) (values : List Nat)
    (aTape : Nat → Nat → Nat → Nat → Nat) (rng : Nat → Nat → Nat → Nat) (a0 a1 : Nat → Nat → Nat → Nat) (r0 r1 : Nat → Nat → Nat)
    (a : Nat → Nat → Nat) (r : Nat → Nat) : Res (List Nat × List Nat × Nat) := do
  let sk ← SecretKey.generate pr P skRng
  let ev ← Evaluation.build pr sk P aTape rng a0 a1 r0 r1
  let pt ← Plaintext.new pr P values 0 .poly
  let ct ← sk.encrypt pr pt a r
  let cts ← Repair.unpack pr ev ct
  let rValues ← firstValues pr sk cts
  .ok (values, rValues, ((values.zip rValues).filter fun x => x.1 != x.2).length)

/-- `client_encode` (src/evaluations.rs:479-495). The result holds the two vectors of the lines that are commented out. -/
def clientEncode (pr : Profile) (P : BfvParameters) (skRng0 skRng : Nat → Nat) (dims : List Nat) (rows : Nat)
    (aTape : Nat → Nat → Nat → Nat → Nat) (rng : Nat → Nat → Nat → Nat) (a0 a1 : Nat → Nat → Nat → Nat) (r0 r1 : Nat → Nat → Nat)
    (a : Nat → Nat → Nat) (r : Nat → Nat) : Res (List Nat × List Nat) := do
  let _ ← SecretKey.generate pr P skRng0
  let query ← Client.default.encode pr dims rows
  let sk ← SecretKey.generate pr P skRng
  let ev ← Evaluation.build pr sk P aTape rng a0 a1 r0 r1
  let pt ← Plaintext.new pr P query 0 .poly
  let ct ← sk.encrypt pr pt a r
  let cts ← Repair.unpack pr ev ct
  let queryR ← firstValues pr sk cts
  .ok (query, queryR)

/-- `unpack_decomp` (src/evaluations.rs:511-537), up to the trial decryptions; `g0` stands for 5. The lines after that print bit lengths of
numbers that are lifted from a polynomial in NTT form. -/
def unpackDecomp (pr : Profile) (P : BfvParameters) (skRng : Nat → Nat) (values : List Nat) (g0 : Nat)
    (aTape : Nat → Nat → Nat → Nat → Nat) (rng : Nat → Nat → Nat → Nat) (a0 a1 : Nat → Nat → Nat → Nat) (r0 r1 : Nat → Nat → Nat)
    (a : Nat → Nat → Nat) (r : Nat → Nat) : Res (SecretKey × List Poly) := do
  let ctx ← idx P.qCtxs 0
  let sk ← SecretKey.generate pr P skRng
  let ev ← Evaluation.build pr sk P aTape rng a0 a1 r0 r1
  let p1 ← Poly.tryFromVecU64 pr ctx values
  let p1 ← p1.changeRepresentation pr .ntt
  let p1 ← p1.mulBig pr g0
  let ct ← sk.encryptPoly pr p1 a r
  let cts ← Repair.unpack pr ev ct
  let ps ← mapR (fun c => do
    let c0 ← idx c.cts 0
    let c1 ← idx c.cts 1
    sk.decryptTrial pr c0 c1) cts
  .ok (sk, ps)

/-- `pack_and_construct_rgsw` (src/evaluations.rs:341-411); `one` stands for the 1 of line 385. The assembly of the RGSW ciphertext in lines
361-383 is that of `decode` in lines 129-148. `b0`, `b1`, `u0`, `u1` are the tapes of `rgsw_ideal`, `v` is the random vector and `a2`, `r2` the
tapes of its encryption. -/
def packAndConstructRgsw (pr : Profile) (P : BfvParameters) (skRng : Nat → Nat) (query : List Nat) (one : Nat)
    (aTape : Nat → Nat → Nat → Nat → Nat) (rng : Nat → Nat → Nat → Nat) (a0 a1 : Nat → Nat → Nat → Nat) (r0 r1 : Nat → Nat → Nat)
    (a : Nat → Nat → Nat → Nat) (r : Nat → Nat → Nat) (b0 b1 : Nat → Nat → Nat → Nat) (u0 u1 : Nat → Nat → Nat) (v : List Nat)
    (a2 : Nat → Nat → Nat) (r2 : Nat → Nat) : Res Unit := do
  let sk ← SecretKey.generate pr P skRng
  let ctx ← idx P.qCtxs 0
  let _ ← sk.polyNtt pr ctx
  let q ← Poly.tryFromVecU64 pr ctx query
  let q ← q.changeRepresentation pr .ntt
  let ev ← Evaluation.build pr sk P aTape rng a0 a1 r0 r1
  let unpacked ← mapR (fun (x : Nat × Nat) => do
    let p ← q.mulBig pr x.1
    let ct ← sk.encryptPoly pr p (a x.2) (r x.2)
    Repair.unpack pr ev ct) ctx.rns.garner.zipIdx
  let rgsw ← Server.selectorRgsw pr P ev.skRgsw unpacked 0
  let p1 ← Poly.tryFromVecU64 pr ctx [one]
  let p1 ← p1.changeRepresentation pr .ntt
  let ideal ← RgswCt.encryptPoly pr sk p1 b0 b1 u0 u1
  let pt ← Plaintext.new pr P v 0 .poly
  let ct1 ← sk.encrypt pr pt a2 r2
  let product ← rgsw.externalProduct pr ct1
  let productIdeal ← ideal.externalProduct pr ct1
  let x ← sk.decrypt pr ⟨P, [product.1, product.2], 0⟩
  let y ← sk.decrypt pr ⟨P, [productIdeal.1, productIdeal.2], 0⟩
  rassert (x.values = y.values)

end OnionPIR.RepairTests
