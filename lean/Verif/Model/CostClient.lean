import Verif.Model.Cost
import Verif.Model.Tests
/-
The arithmetic work of the client (src/bfv.rs, src/ksk.rs, src/rgsw.rs, src/evaluations.rs): encryption, decryption and the generation of keys, written a second time
with the counters of Model/Cost. Proofs/CostClient shows that the values are those of the first model.

Not counted, beyond what Model/Cost leaves out: the samplers, `scalar_mul_vec` of `to_poly` (one product modulo `t` for every word of the message) and
the scaling of `decrypt`.
-/
namespace OnionPIR
open Cw

variable (pr : Profile)

/-- `random_small` (src/rq.rs:501-513). -/
def Poly.randomSmallC (ctx : RqContext) (rep : Representation) (variance : Nat) (rng : Nat → Nat) : Cw Poly := do
  let values ← Cw.lift (sampleVecCbd pr rng ctx.degree variance)
  let poly ← Cw.lift (Poly.tryFromVecI64 pr ctx values)
  poly.changeRepresentationC pr rep

/-- `to_poly` (src/bfv.rs:634-654). -/
def Plaintext.toPolyC (p : Plaintext) : Cw Poly := do
  let qModT ← Cw.lift (idx p.params.qModTs p.level)
  let qCtx ← Cw.lift (idx p.params.qCtxs p.level)
  let delta ← Cw.lift (idx p.params.deltaTs p.level)
  let tm ← Cw.lift (Modulus.new p.params.plaintextModulus)
  let values ← Cw.lift (tm.scalarMulVec pr p.values qModT)
  let poly ← Cw.lift (Poly.tryFromVecU64 pr qCtx values)
  let poly ← poly.changeRepresentationC pr .ntt
  poly.mulC pr delta

namespace SecretKey

/-- See `polyNtt`. -/
def polyNttC (sk : SecretKey) (ctx : RqContext) : Cw Poly := do
  let s ← Cw.lift (Poly.tryFromVecI64 pr ctx sk.coeffs)
  s.changeRepresentationC pr .ntt

/-- `encrypt_poly` (src/bfv.rs:299-329). -/
def encryptPolyC (sk : SecretKey) (pt : Poly) (aTape : Nat → Nat → Nat) (rng : Nat → Nat) : Cw BfvCipherText := do
  let s ← sk.polyNttC pr pt.context
  let as ← (Poly.random pt.context aTape .ntt).mulC pr s
  let b ← Poly.randomSmallC pr pt.context .ntt sk.params.variance rng
  let b ← Cw.lift (b.sub pr as)
  let b ← Cw.lift (b.add pr pt)
  pure { cts := [b, Poly.random pt.context aTape .ntt], params := sk.params, level := 0 }

/-- `encrypt` (src/bfv.rs:331-334). -/
def encryptC (sk : SecretKey) (pt : Plaintext) (aTape : Nat → Nat → Nat) (rng : Nat → Nat) : Cw BfvCipherText := do
  let poly ← pt.toPolyC pr
  sk.encryptPolyC pr poly aTape rng

/-- The loop of `decrypt` (src/bfv.rs:353-356). -/
def phaseStepC (s : Poly) (st : Poly × Poly) (c : Poly) : Cw (Poly × Poly) := do
  let x ← st.2.mulC pr c
  let m ← Cw.lift (st.1.add pr x)
  let si ← st.2.mulC pr s
  pure (m, si)

/-- The part of `decrypt` that computes `c0 + c1*s + c2*s^2 + …` (src/bfv.rs:348-356). -/
def phaseC (sk : SecretKey) (cts : List Poly) : Cw Poly := do
  let c0 ← Cw.lift (idx cts 0)
  let s ← sk.polyNttC pr c0.context
  let st ← Cw.fold (phaseStepC pr s) (c0, s) (cts.drop 1)
  pure st.1

/-- `decrypt` (src/bfv.rs:347-382). -/
def decryptC (sk : SecretKey) (ct : BfvCipherText) : Cw Plaintext := do
  let m ← sk.phaseC pr ct.cts
  let m ← m.changeRepresentationC pr .powerBasis
  Cw.lift (do
    let scaler ← idx sk.params.scalars ct.level
    let m ← scaler.scale pr m
    let row ← idx m.coefficients 0
    let row ← mapR (fun a => addW 64 pr a sk.params.plaintextModulus) row
    let row ← takeR row sk.params.degree
    let ctx ← idx sk.params.qCtxs ct.level
    let q ← idx ctx.moduli 0
    let row ← q.reduceVecU64 pr row
    let tm ← Modulus.new sk.params.plaintextModulus
    let row ← tm.reduceVecU64 pr row
    .ok { params := sk.params, values := row, level := ct.level, encoding := .none })

end SecretKey

namespace Ksk

/-- One iteration of the loop of `Ksk::new` (src/ksk.rs:65-91). -/
def newC0C (params : BfvParameters) (kskCtx : RqContext) (s src c1 : Poly) (garner : Nat) (rng : Nat → Nat) : Cw Poly := do
  let as ← c1.mulC pr s
  let b ← Poly.randomSmallC pr kskCtx .ntt params.variance rng
  let b ← Cw.lift (b.sub pr as)
  let m ← src.mulBigC pr garner
  Cw.lift (b.add pr m)

/-- `Ksk::new` (src/ksk.rs:47-100). -/
def newC (sk : SecretKey) (src : Poly) (ctLevel kskLevel : Nat) (aTape : Nat → Nat → Nat → Nat) (rng : Nat → Nat → Nat) : Cw Ksk := do
  let kskCtx ← Cw.lift (idx sk.params.qCtxs kskLevel)
  let ctCtx ← Cw.lift (idx sk.params.qCtxs ctLevel)
  let c1s := (List.range ctCtx.rns.moduli.length).map fun k => Poly.random kskCtx (aTape k) .ntt
  let s ← sk.polyNttC pr kskCtx
  let c0s ← Cw.map (fun (x : Nat × Poly × Nat) => newC0C pr sk.params kskCtx s src x.2.1 x.2.2 (rng x.1))
    ((List.range ctCtx.rns.moduli.length).zip (c1s.zip ctCtx.rns.garner))
  pure { params := sk.params, c0 := c0s, c1 := c1s, kskContext := kskCtx, ctContext := ctCtx }

end Ksk

/-- `GaliosKey::new` (src/bfv.rs:707-723). -/
def GaliosKey.newC (sk : SecretKey) (i : Substitution) (level : Nat) (aTape : Nat → Nat → Nat → Nat) (rng : Nat → Nat → Nat) : Cw GaliosKey := do
  Cw.lift (rassert (sk.params.ciphertextModuli.length ≠ 1))
  let ctx ← Cw.lift (idx sk.params.qCtxs level)
  let s ← Cw.lift (Poly.tryFromVecI64 pr ctx sk.coeffs)
  let si ← Cw.lift (s.substitute pr i)
  let si ← si.changeRepresentationC pr .ntt
  let gk ← Ksk.newC pr sk si level level aTape rng
  pure { gk := gk, substitution := i, level := level }

/-- `RelinearizationKey::new` (src/bfv.rs:749-760). -/
def RelinearizationKey.newC (sk : SecretKey) (level : Nat) (aTape : Nat → Nat → Nat → Nat) (rng : Nat → Nat → Nat) : Cw RelinearizationKey := do
  let ctx ← Cw.lift (idx sk.params.qCtxs level)
  let s ← sk.polyNttC pr ctx
  let s2 ← s.mulC pr s
  let ksk ← Ksk.newC pr sk s2 level level aTape rng
  pure { params := sk.params, ksk := ksk }

/-- `encrypt_poly` (src/rgsw.rs:28-42). -/
def RgswCt.encryptPolyC (sk : SecretKey) (m : Poly) (aTape0 aTape1 : Nat → Nat → Nat → Nat) (rng0 rng1 : Nat → Nat → Nat) : Cw RgswCt := do
  Cw.lift (rassert (m.representation = .ntt))
  let level ← Cw.lift (unwrapR (sk.params.ctxLevel m.context))
  let s ← sk.polyNttC pr m.context
  let sm ← s.mulC pr m
  let k0 ← Ksk.newC pr sk sm level level aTape0 rng0
  let k1 ← Ksk.newC pr sk m level level aTape1 rng1
  pure { ksk0 := k0, ksk1 := k1 }

namespace Evaluation

/-- One iteration of the loop of `build` (src/evaluations.rs:239-241). -/
def buildStepC (sk : SecretKey) (params : BfvParameters) (aTape : Nat → Nat → Nat → Nat → Nat) (rng : Nat → Nat → Nat → Nat)
    (m : List (Nat × GaliosKey)) (i : Nat) : Cw (List (Nat × GaliosKey)) := do
  let p ← Cw.lift (powW 64 pr 2 i)
  let d ← Cw.lift (divR params.degree p)
  let k ← Cw.lift (addW 64 pr d 1)
  let ctx ← Cw.lift (idx params.qCtxs 0)
  let sub ← Cw.lift (Substitution.new pr ctx k)
  let g ← GaliosKey.newC pr sk sub 0 (aTape i) (rng i)
  pure ((k, g) :: m)

/-- `build` (src/evaluations.rs:235-252). -/
def buildC (sk : SecretKey) (params : BfvParameters) (aTape : Nat → Nat → Nat → Nat → Nat) (rng : Nat → Nat → Nat → Nat)
    (aTape0 aTape1 : Nat → Nat → Nat → Nat) (rng0 rng1 : Nat → Nat → Nat) : Cw Evaluation := do
  let lg ← Cw.lift (ilog2 64 pr params.degree)
  let gk ← Cw.fold (buildStepC pr sk params aTape rng) [] (List.range lg)
  let ctx ← Cw.lift (idx params.qCtxs 0)
  let m ← sk.polyNttC pr ctx
  let g ← RgswCt.encryptPolyC pr sk m aTape0 aTape1 rng0 rng1
  pure { gk := gk, skRgsw := g }

end Evaluation

namespace Tests

/-- See `garnerCts`. -/
def garnerCtsC (ctx : RqContext) (sk : SecretKey) (q : Poly) (a : Nat → Nat → Nat → Nat) (r : Nat → Nat → Nat) : Cw (List BfvCipherText) :=
  Cw.map (fun (x : Nat × Nat) => do
    let p ← q.mulBigC pr x.1
    sk.encryptPolyC pr p (a x.2) (r x.2)) ctx.rns.garner.zipIdx

/-- The ciphertexts of a query (src/evaluations.rs:444-453). -/
def queryCtsC (P : BfvParameters) (sk : SecretKey) (enc : List Nat) (aq : Nat → Nat → Nat) (rq : Nat → Nat) (a : Nat → Nat → Nat → Nat) (r : Nat → Nat → Nat) :
    Cw (List BfvCipherText) := do
  let pt ← Cw.lift (Plaintext.new pr P enc 0 .poly)
  let q0 ← sk.encryptC pr pt aq rq
  let ctx ← Cw.lift (idx P.qCtxs 0)
  let tail ← Cw.lift (if 4 ≤ enc.length then .ok (enc.drop 4) else .error .bounds)
  let p ← Cw.lift (Poly.tryFromVecU64 pr ctx tail)
  let p ← p.changeRepresentationC pr .ntt
  let qs ← garnerCtsC pr ctx sk p a r
  pure (q0 :: qs)

end Tests
end OnionPIR
