import Verif.Model.LeakKeys
import Verif.Model.Repair
/-
What the server does (src/evaluations.rs, and the parts of src/ksk.rs, src/rgsw.rs and src/bfv.rs that it calls) with the trace of Model/Leak.
Computations whose inputs are public sizes and parameters only (the monomials of `gen_x_pows`, the inverse of the degree, the number of dimensions, the
lookup of a Galois key by its exponent, the bounds of pieces of a slice) are lifted without a trace.
-/
namespace OnionPIR

/-- Assignment to an element of a vector. -/
def Lk.set {α : Type} (l : List α) (i : Nat) (x : α) : Lk (List α) := ⟨setR l i x, [.access i]⟩

/-- `v[..k]` of a slice. -/
def Lk.take {α : Type} (l : List α) (k : Nat) : Lk (List α) := ⟨takeR l k, [.access k]⟩

namespace Ksk

/-- The loop body of `key_switch` (src/ksk.rs:113-122). -/
def switchStepL (pr : Profile) (kskCtx : RqContext) (st : Poly × Poly) (x : List Nat × Poly × Poly) : Lk (Poly × Poly) := do
  let d ← Poly.tryFromVecU64L pr kskCtx x.1
  let d ← d.changeRepresentationL pr .ntt
  let b ← d.mulL pr x.2.1
  let a ← d.mulL pr x.2.2
  let c0 ← st.1.addL pr b
  let c1 ← st.2.addL pr a
  pure (c0, c1)

/-- `key_switch` (src/ksk.rs:102-125). -/
def keySwitchL (pr : Profile) (k : Ksk) (p : Poly) : Lk (Poly × Poly) := do
  Lk.rassert (p.context = k.ctContext)
  Lk.rassert (p.representation = .powerBasis)
  Lk.fold (switchStepL pr k.kskContext) (Poly.zero k.ctContext .ntt, Poly.zero k.ctContext .ntt) (p.coefficients.zip (k.c0.zip k.c1))

/-- One component taken from a ciphertext (src/ksk.rs:135-138, 142-145). -/
def componentL (params : BfvParameters) (i : Nat) (c : BfvCipherText) : Lk Poly := do
  Lk.rassert (c.params = params)
  Lk.idx c.cts i

/-- `try_from_decomposed_rlwes` (src/ksk.rs:127-156). -/
def tryFromDecomposedRlwesL (params : BfvParameters) (cts : List BfvCipherText) : Lk Ksk := do
  let c0 ← Lk.map (componentL params 0) cts
  let c1 ← Lk.map (componentL params 1) cts
  let ctx ← Lk.idx params.qCtxs 0
  pure { params := params, c0 := c0, c1 := c1, ctContext := ctx, kskContext := ctx }

end Ksk

/-- `GaliosKey::relinearize` (src/bfv.rs:725-740). -/
def GaliosKey.relinearizeL (pr : Profile) (g : GaliosKey) (ct : BfvCipherText) : Lk BfvCipherText := do
  Lk.rassert (ct.level = g.level)
  let c0 ← Lk.idx ct.cts 0
  Lk.dassert pr (c0.representation = .ntt)
  let c1 ← Lk.idx ct.cts 1
  let c1r ← c1.substituteL pr g.substitution
  let c1r ← c1r.changeRepresentationL pr .powerBasis
  let d ← g.gk.keySwitchL pr c1r
  let c0r ← c0.substituteL pr g.substitution
  let d0 ← d.1.addL pr c0r
  pure { params := ct.params, cts := [d0, d.2], level := g.level }

/-- `external_product` (src/rgsw.rs:63-78). -/
def RgswCt.externalProductL (pr : Profile) (g : RgswCt) (ct : BfvCipherText) : Lk (Poly × Poly) := do
  let c1 ← Lk.idx ct.cts 1
  let c0 ← Lk.idx ct.cts 0
  let c1 ← c1.changeRepresentationL pr .powerBasis
  let c0 ← c0.changeRepresentationL pr .powerBasis
  let x ← g.ksk0.keySwitchL pr c1
  let y ← g.ksk1.keySwitchL pr c0
  let r0 ← y.1.addL pr x.1
  let r1 ← y.2.addL pr x.2
  pure (r0, r1)

namespace BfvCipherText

/-- `Add<&BfvCipherText>` (src/bfv.rs:424-439). -/
def addL (pr : Profile) (a b : BfvCipherText) : Lk BfvCipherText := do
  Lk.rassert (a.params = b.params)
  Lk.rassert (a.level = b.level)
  let a0 ← Lk.idx a.cts 0
  let b0 ← Lk.idx b.cts 0
  let c0 ← a0.addL pr b0
  let a1 ← Lk.idx a.cts 1
  let b1 ← Lk.idx b.cts 1
  let c1 ← a1.addL pr b1
  pure { params := a.params, cts := [c0, c1], level := a.level }

/-- `Sub<&BfvCipherText>` (src/bfv.rs:457-472). -/
def subL (pr : Profile) (a b : BfvCipherText) : Lk BfvCipherText := do
  Lk.rassert (a.params = b.params)
  Lk.rassert (a.level = b.level)
  let a0 ← Lk.idx a.cts 0
  let b0 ← Lk.idx b.cts 0
  let c0 ← a0.subL pr b0
  let a1 ← Lk.idx a.cts 1
  let b1 ← Lk.idx b.cts 1
  let c1 ← a1.subL pr b1
  pure { params := a.params, cts := [c0, c1], level := a.level }

/-- `Mul<&Poly>` (src/bfv.rs:536-551). -/
def mulPolyL (pr : Profile) (a : BfvCipherText) (p : Poly) : Lk BfvCipherText := do
  let a0 ← Lk.idx a.cts 0
  Lk.rassert (p.context = a0.context)
  Lk.rassert (p.representation = .ntt)
  let c0 ← a0.mulL pr p
  let a1 ← Lk.idx a.cts 1
  let c1 ← a1.mulL pr p
  pure { params := a.params, cts := [c0, c1], level := a.level }

end BfvCipherText

namespace Evaluation

/-- One iteration of the inner loop of `unpack` (src/evaluations.rs:277-293) at stage `i`. -/
def unpackStepL (pr : Profile) (ev : Evaluation) (xPows : List Poly) (exponent i : Nat) (bits : List BfvCipherText) (j : Nat) :
    Lk (List BfvCipherText) := do
  let c ← Lk.idx bits j
  let gk ← Lk.lift (unwrapR (ev.gk.lookup exponent))
  let cr ← gk.relinearizeL pr c
  let cEven ← c.addL pr cr
  let xp ← Lk.idx xPows i
  let xp ← xp.changeRepresentationL pr .ntt
  let cOdd ← c.subL pr cr
  let o0 ← Lk.idx cOdd.cts 0
  let c0 ← o0.mulL pr xp
  let o1 ← Lk.idx cOdd.cts 1
  let c1 ← o1.mulL pr xp
  let bits ← Lk.set bits j cEven
  Lk.set bits (j + 2 ^ i) { cOdd with cts := [c0, c1] }

/-- One iteration of the outer loop of `unpack` (src/evaluations.rs:273-295). -/
def unpackStageL (pr : Profile) (ev : Evaluation) (xPows : List Poly) (n : Nat) (bits : List BfvCipherText) (i : Nat) : Lk (List BfvCipherText) := do
  let d ← Lk.div n (2 ^ i)
  let exponent ← Lk.add 64 pr d 1
  Lk.fold (unpackStepL pr ev xPows exponent i) bits (List.range (2 ^ i))

/-- `unpack` after the call of `gen_x_pows` (src/evaluations.rs:258-299). -/
def unpackWithL (pr : Profile) (ev : Evaluation) (xPows : List Poly) (ct : BfvCipherText) : Lk (List BfvCipherText) := do
  let ctx ← Lk.idx ct.params.qCtxs ct.level
  let nInv ← Lk.lift (unwrapR (modInverse ct.params.degree ctx.rns.product))
  let cts ← Lk.map (fun c => c.mulBigL pr nInv) ct.cts
  let lg ← Lk.lift (ilog2 64 pr ct.params.degree)
  let bits ← Lk.fold (unpackStageL pr ev xPows ct.params.degree) (List.replicate ct.params.degree { ct with cts := cts }) (List.range lg)
  Lk.rassert (bits.length = ct.params.degree)
  pure bits

/-- `unpack` (src/evaluations.rs:254-299). -/
def unpackL (pr : Profile) (ev : Evaluation) (ct : BfvCipherText) : Lk (List BfvCipherText) := do
  let ctx ← Lk.idx ct.params.qCtxs ct.level
  let xPows ← Lk.lift (genXPows pr ct.params.degree ctx)
  Lk.lift (dassertEqR pr xPows.length (ilog2 64 pr ct.params.degree))
  unpackWithL pr ev xPows ct

end Evaluation

/-- The corrected `unpack` of Model/Repair. -/
def Repair.unpackL (pr : Profile) (ev : Evaluation) (ct : BfvCipherText) : Lk (List BfvCipherText) := do
  let ctx ← Lk.idx ct.params.qCtxs ct.level
  let xPows ← Lk.lift (Repair.genXPows pr ct.params.degree ctx)
  Lk.lift (dassertEqR pr xPows.length (ilog2 64 pr ct.params.degree))
  ev.unpackWithL pr xPows ct

namespace Server

/-- The polynomial stored for one row (src/evaluations.rs:81-85). -/
def scaledRowL (pr : Profile) (params : BfvParameters) (p : Plaintext) : Lk Poly := do
  let ctx ← Lk.idx params.qCtxs 0
  let pt ← Poly.tryFromVecU64L pr ctx p.values
  pt.changeRepresentationL pr .ntt

/-- `Server::new` (src/evaluations.rs:73-93). -/
def newL (pr : Profile) (firstDim dim : Nat) (db : List Plaintext) (params : BfvParameters) : Lk Server := do
  let s ← Lk.map (scaledRowL pr params) db
  pure { firstDim := firstDim, dim := dim, db := db, dbScaled := s }

/-- The external product as a ciphertext (src/evaluations.rs:136-143, 199-206). -/
def productL (pr : Profile) (params : BfvParameters) (g : RgswCt) (ct : BfvCipherText) : Lk BfvCipherText := do
  let c ← g.externalProductL pr ct
  pure { params := params, cts := [c.1, c.2], level := 0 }

/-- One RGSW ciphertext (src/evaluations.rs:129-148). -/
def selectorRgswL (pr : Profile) (params : BfvParameters) (skRgsw : RgswCt) (vals : List (List BfvCipherText)) (i : Nat) : Lk RgswCt := do
  let lower ← Lk.map (fun v => Lk.idx v i) vals
  let upper ← Lk.map (productL pr params skRgsw) lower
  let ksk1 ← Ksk.tryFromDecomposedRlwesL params lower
  let ksk0 ← Ksk.tryFromDecomposedRlwesL params upper
  pure (RgswCt.tryFromKsks ksk0 ksk1)

/-- One iteration of the accumulation of a sum of products (src/evaluations.rs:173-179, 212-218): a branch on the index. -/
def sumStepL {α : Type} (pr : Profile) (f : α → Lk BfvCipherText) (sum : Option BfvCipherText) (x : α) : Lk (Option BfvCipherText) := do
  let p ← f x
  match sum with
  | none => do
      let _ ← Lk.test true
      pure (some p)
  | some s => do
      let _ ← Lk.test false
      let s ← s.addL pr p
      pure (some s)

/-- The sum of the products (src/evaluations.rs:166-180, 198-219). -/
def sumProductsL {α : Type} (pr : Profile) (params : BfvParameters) (f : α → Lk BfvCipherText) (xs : List α) : Lk BfvCipherText := do
  let s ← Lk.fold (sumStepL pr f) none xs
  pure (s.getD { params := params, cts := [], level := 0 })

/-- The first dimension (src/evaluations.rs:161-182). -/
def firstDimensionL (pr : Profile) (params : BfvParameters) (firstDim : Nat) (cts : List BfvCipherText) (rows : List Poly) : Lk (List BfvCipherText) := do
  let ch ← Lk.lift (chunksR firstDim rows)
  Lk.map (fun ps => sumProductsL pr params (fun (x : BfvCipherText × Poly) => x.1.mulPolyL pr x.2) (cts.zip ps)) ch

/-- One further dimension (src/evaluations.rs:193-222). -/
def nextDimensionL (pr : Profile) (params : BfvParameters) (dim : Nat) (db : List BfvCipherText) (rgsws : List RgswCt) : Lk (List BfvCipherText) := do
  let ch ← Lk.lift (chunksR dim db)
  Lk.map (fun cs => sumProductsL pr params (fun (x : RgswCt × BfvCipherText) => productL pr params x.1 x.2) (rgsws.zip cs)) ch

/-- The part of `decode` after the selectors are available (src/evaluations.rs:150-225). -/
def selectL (pr : Profile) (s : Server) (params : BfvParameters) (firstDimCts : List BfvCipherText) (rgsws : List RgswCt) : Lk (List BfvCipherText) := do
  let byDim ← Lk.lift (chunksR s.dim rgsws)
  let db ← firstDimensionL pr params s.firstDim firstDimCts s.dbScaled
  Lk.fold (nextDimensionL pr params s.dim) db byDim

/-- `decode` (src/evaluations.rs:109-226) for given implementations of the count of dimensions and of `eval_key.unpack`. -/
def decodeByL (pr : Profile) (dimensions : Res Nat) (unpack : BfvCipherText → Lk (List BfvCipherText)) (s : Server) (queryCts : List BfvCipherText)
    (evalKey : Evaluation) (params : BfvParameters) : Lk (List BfvCipherText) := do
  let ctx ← Lk.idx params.qCtxs 0
  Lk.rassert (ctx.moduli.length + 1 = queryCts.length)
  let q0 ← Lk.idx queryCts 0
  let fd ← unpack q0
  let fd ← Lk.take fd s.firstDim
  let dims ← Lk.lift dimensions
  let d ← Lk.sub 64 pr dims 1
  let count ← Lk.mul 64 pr d s.dim
  let vals ← Lk.map (fun q => do
    let u ← unpack q
    Lk.take u count) (queryCts.drop 1)
  let rgsws ← Lk.map (selectorRgswL pr params evalKey.skRgsw vals) (List.range count)
  s.selectL pr params fd rgsws

/-- `decode` (src/evaluations.rs:109-226). -/
def decodeL (pr : Profile) (s : Server) (queryCts : List BfvCipherText) (evalKey : Evaluation) (params : BfvParameters) : Lk (List BfvCipherText) :=
  decodeByL pr (s.dimensions pr) (evalKey.unpackL pr) s queryCts evalKey params

end Server

/-- The corrected `decode` of Model/Repair. -/
def Repair.decodeL (pr : Profile) (s : Server) (queryCts : List BfvCipherText) (evalKey : Evaluation) (params : BfvParameters) : Lk (List BfvCipherText) :=
  Server.decodeByL pr (Repair.dimensions pr s 64) (Repair.unpackL pr evalKey) s queryCts evalKey params

end OnionPIR
