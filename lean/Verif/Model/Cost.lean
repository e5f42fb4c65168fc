import Verif.Model.Repair
/-
The arithmetic work of the server (src/ntt.rs, src/modulus.rs, src/rq.rs, src/ksk.rs, src/rgsw.rs, src/bfv.rs, src/evaluations.rs): the functions that transform
and multiply polynomials, written a second time with two counters. Proofs/Cost shows that the values are those of the first model.

Counted are the butterflies of the transforms and the products modulo a prime: those of `mul_vec` and those with `size_inv` at the end of the backward transform.
Not counted are the additions, the reductions of words, copies, and what happens inside the debug assertions.
-/
namespace OnionPIR

/-- Numbers of butterflies and of products. -/
structure Work where
  butterflies : Nat
  products : Nat
  deriving DecidableEq, Repr

/-- Work done one after the other. -/
instance : Add Work := ⟨fun a b => ⟨a.butterflies + b.butterflies, a.products + b.products⟩⟩
/-- No work. -/
instance : Zero Work := ⟨⟨0, 0⟩⟩
/-- The same work `k` times. -/
def Work.times (k : Nat) (w : Work) : Work := ⟨k * w.butterflies, k * w.products⟩

/-- A computation with its work. -/
structure Cw (α : Type) where
  val : Res α
  work : Work

namespace Cw

instance : Monad Cw where
  pure a := ⟨.ok a, 0⟩
  bind x f := match x.val with
    | .ok a => ⟨(f a).val, x.work + (f a).work⟩
    | .error e => ⟨.error e, x.work⟩

/-- A step that is not counted. -/
def lift {α : Type} (x : Res α) : Cw α := ⟨x, 0⟩
/-- A butterfly. -/
def butterfly {α : Type} (x : Res α) : Cw α := ⟨x, ⟨1, 0⟩⟩
/-- A product. -/
def product {α : Type} (x : Res α) : Cw α := ⟨x, ⟨0, 1⟩⟩

/-- See `mapR`. -/
def map {α β : Type} (f : α → Cw β) : List α → Cw (List β)
  | [] => pure []
  | a :: as => do
      let x ← f a
      let r ← map f as
      pure (x :: r)

/-- See `foldR`. -/
def fold {α σ : Type} (f : σ → α → Cw σ) : σ → List α → Cw σ
  | s, [] => pure s
  | s, a :: as => do
      let s' ← f s a
      fold f s' as

/-- See `zipMutM`. -/
def zipMut {α β : Type} (f : α → β → Cw α) : List α → List β → Cw (List α)
  | [], _ => pure []
  | as, [] => pure as
  | a :: as, b :: bs => do
      let x ← f a b
      let r ← zipMut f as bs
      pure (x :: r)

/-- See `zip3MutM`. -/
def zip3Mut {α β γ : Type} (f : α → β → γ → Cw α) : List α → List β → List γ → Cw (List α)
  | a :: as, b :: bs, c :: cs => do
      let x ← f a b c
      let r ← zip3Mut f as bs cs
      pure (x :: r)
  | as, _, _ => pure as

end Cw

namespace NttOperator

/-- See `updatePair`; `f` is the butterfly. -/
def updatePairC (a : List Nat) (j l : Nat) (f : Nat → Nat → Res (Nat × Nat)) : Cw (List Nat) := do
  let x ← Cw.lift (idx a j)
  let y ← Cw.lift (idx a (j + l))
  let r ← Cw.butterfly (f x y)
  pure ((a.set j r.1).set (j + l) r.2)

/-- One block of the forward transform (src/ntt.rs:93-113). -/
def forwardBlockC (pr : Profile) (op : NttOperator) (l i omega omegaShoup : Nat) (a : List Nat) : Cw (List Nat) :=
  let s := 2 * i * l
  if l = 1 then
    updatePairC a s 1 (fun x y => do
      let r ← op.butterfly pr x y omega omegaShoup
      let x ← reduce4p pr r.1 op.p
      let y ← reduce4p pr r.2 op.p
      .ok (x, y))
  else Cw.fold (fun a j => updatePairC a (s + j) l (fun x y => op.butterfly pr x y omega omegaShoup)) a (List.range l)

/-- One layer (`for i in 0..m`, src/ntt.rs:87-115). -/
def forwardLayerC (pr : Profile) (op : NttOperator) (l m k : Nat) (a : List Nat) : Cw (List Nat × Nat) :=
  Cw.fold (fun (st : List Nat × Nat) i => do
    let omega ← Cw.lift (idx op.omegas st.2)
    let omegaShoup ← Cw.lift (idx op.omegasShoup st.2)
    let a ← op.forwardBlockC pr l i omega omegaShoup st.1
    pure (a, st.2 + 1)) (a, k) (List.range m)

/-- The `while l > 0` loop (src/ntt.rs:86-119). -/
def forwardLoopC (pr : Profile) (op : NttOperator) (l m k : Nat) (a : List Nat) : Cw (List Nat) :=
  if _h : l = 0 then pure a
  else do
    let st ← op.forwardLayerC pr l m k a
    forwardLoopC pr op (l >>> 1) (m <<< 1) st.2 st.1
termination_by l
decreasing_by simp only [Nat.shiftRight_eq_div_pow]; omega

/-- `forward` (src/ntt.rs:77-120). -/
def forwardC (pr : Profile) (op : NttOperator) (a : List Nat) : Cw (List Nat) := do
  Cw.lift (rassert (a.length = op.size))
  op.forwardLoopC pr (op.size >>> 1) 1 1 a

/-- One layer of the backward transform (src/ntt.rs:132-148). -/
def backwardLayerC (pr : Profile) (op : NttOperator) (l m k : Nat) (a : List Nat) : Cw (List Nat × Nat) :=
  Cw.fold (fun (st : List Nat × Nat) i => do
    let s := 2 * i * l
    let z ← Cw.lift (idx op.zetasInv st.2)
    let zs ← Cw.lift (idx op.zetasInvShoup st.2)
    let a ← Cw.fold (fun a j => updatePairC a (s + j) l (fun x y => op.butterflyInv pr x y z zs)) st.1 (List.range l)
    pure (a, st.2 + 1)) (a, k) (List.range m)

/-- The `while m > 0` loop (src/ntt.rs:131-151). -/
def backwardLoopC (pr : Profile) (op : NttOperator) (l m k : Nat) (a : List Nat) : Cw (List Nat) :=
  if _h : m = 0 then pure a
  else do
    let st ← op.backwardLayerC pr l m k a
    backwardLoopC pr op (l <<< 1) (m >>> 1) st.2 st.1
termination_by m
decreasing_by simp only [Nat.shiftRight_eq_div_pow]; omega

/-- `backward` (src/ntt.rs:122-156). -/
def backwardC (pr : Profile) (op : NttOperator) (a : List Nat) : Cw (List Nat) := do
  Cw.lift (rassert (a.length = op.size))
  let a ← op.backwardLoopC pr 1 (op.size >>> 1) 0 a
  Cw.map (fun x => Cw.product (op.p.mulShoup pr x op.sizeInv op.sizeInvShoup)) a

end NttOperator

/-- `mul_vec` (src/modulus.rs:201-203). -/
def Modulus.mulVecC (pr : Profile) (m : Modulus) (a b : List Nat) : Cw (List Nat) := Cw.zipMut (fun x y => Cw.product (Modulus.mul pr m x y)) a b

namespace Poly

/-- `change_representation` (src/rq.rs:272-310). -/
def changeRepresentationC (pr : Profile) (p : Poly) (tgt : Representation) : Cw Poly :=
  match p.representation, tgt with
  | .powerBasis, .ntt => do
      let c ← Cw.zipMut (fun row (op : NttOperator) => op.forwardC pr row) p.coefficients p.context.nttOps
      pure { p with coefficients := c, representation := .ntt }
  | .powerBasis, .powerBasis => pure p
  | .ntt, .powerBasis => do
      let c ← Cw.zipMut (fun row (op : NttOperator) => op.backwardC pr row) p.coefficients p.context.nttOps
      pure { p with coefficients := c, representation := .powerBasis }
  | .ntt, .ntt => pure p
  | _, _ => Cw.lift (.error .todo)

/-- `MulAssign<&Poly>` and `Mul<&Poly>` (src/rq.rs:595-609, 630-637). -/
def mulC (pr : Profile) (a b : Poly) : Cw Poly := do
  Cw.lift (rassert (a.representation = .ntt))
  Cw.lift (rassert (b.representation = .ntt))
  let c ← Cw.zip3Mut (fun x y (q : Modulus) => q.mulVecC pr x y) a.coefficients b.coefficients a.context.moduli
  pure { a with coefficients := c }

/-- `MulAssign<&BigUint>` and `Mul<&BigUint>` (src/rq.rs:611-628). -/
def mulBigC (pr : Profile) (a : Poly) (b : Nat) : Cw Poly := do
  let rhs ← Cw.lift (tryFromBigint a.context [b])
  let rhs ← rhs.changeRepresentationC pr .ntt
  Cw.lift (rassert (a.representation = .ntt))
  a.mulC pr rhs

end Poly

namespace Ksk

/-- The loop body of `key_switch` (src/ksk.rs:113-122). -/
def switchStepC (pr : Profile) (kskCtx : RqContext) (st : Poly × Poly) (x : List Nat × Poly × Poly) : Cw (Poly × Poly) := do
  let d ← Cw.lift (Poly.tryFromVecU64 pr kskCtx x.1)
  let d ← d.changeRepresentationC pr .ntt
  let b ← d.mulC pr x.2.1
  let a ← d.mulC pr x.2.2
  let c0 ← Cw.lift (st.1.add pr b)
  let c1 ← Cw.lift (st.2.add pr a)
  pure (c0, c1)

/-- `key_switch` (src/ksk.rs:102-125). -/
def keySwitchC (pr : Profile) (k : Ksk) (p : Poly) : Cw (Poly × Poly) := do
  Cw.lift (rassert (p.context = k.ctContext))
  Cw.lift (rassert (p.representation = .powerBasis))
  Cw.fold (switchStepC pr k.kskContext) (Poly.zero k.ctContext .ntt, Poly.zero k.ctContext .ntt) (p.coefficients.zip (k.c0.zip k.c1))

end Ksk

/-- `GaliosKey::relinearize` (src/bfv.rs:725-740). -/
def GaliosKey.relinearizeC (pr : Profile) (g : GaliosKey) (ct : BfvCipherText) : Cw BfvCipherText := do
  Cw.lift (rassert (ct.level = g.level))
  let c0 ← Cw.lift (idx ct.cts 0)
  Cw.lift (dassert pr (c0.representation = .ntt))
  let c1 ← Cw.lift (idx ct.cts 1)
  let c1r ← Cw.lift (c1.substitute pr g.substitution)
  let c1r ← c1r.changeRepresentationC pr .powerBasis
  let d ← g.gk.keySwitchC pr c1r
  let c0r ← Cw.lift (c0.substitute pr g.substitution)
  let d0 ← Cw.lift (d.1.add pr c0r)
  pure { params := ct.params, cts := [d0, d.2], level := g.level }

/-- `external_product` (src/rgsw.rs:63-78). -/
def RgswCt.externalProductC (pr : Profile) (g : RgswCt) (ct : BfvCipherText) : Cw (Poly × Poly) := do
  let c1 ← Cw.lift (idx ct.cts 1)
  let c0 ← Cw.lift (idx ct.cts 0)
  let c1 ← c1.changeRepresentationC pr .powerBasis
  let c0 ← c0.changeRepresentationC pr .powerBasis
  let x ← g.ksk0.keySwitchC pr c1
  let y ← g.ksk1.keySwitchC pr c0
  let r0 ← Cw.lift (y.1.add pr x.1)
  let r1 ← Cw.lift (y.2.add pr x.2)
  pure (r0, r1)

/-- `Mul<&Poly>` (src/bfv.rs:536-551). -/
def BfvCipherText.mulPolyC (pr : Profile) (a : BfvCipherText) (p : Poly) : Cw BfvCipherText := do
  let a0 ← Cw.lift (idx a.cts 0)
  Cw.lift (rassert (p.context = a0.context))
  Cw.lift (rassert (p.representation = .ntt))
  let c0 ← a0.mulC pr p
  let a1 ← Cw.lift (idx a.cts 1)
  let c1 ← a1.mulC pr p
  pure { params := a.params, cts := [c0, c1], level := a.level }

namespace Evaluation

/-- One iteration of the inner loop of `unpack` (src/evaluations.rs:277-293) at stage `i`. -/
def unpackStepC (pr : Profile) (ev : Evaluation) (xPows : List Poly) (exponent i : Nat) (bits : List BfvCipherText) (j : Nat) :
    Cw (List BfvCipherText) := do
  let c ← Cw.lift (idx bits j)
  let gk ← Cw.lift (unwrapR (ev.gk.lookup exponent))
  let cr ← gk.relinearizeC pr c
  let cEven ← Cw.lift (c.add pr cr)
  let xp ← Cw.lift (idx xPows i)
  let xp ← xp.changeRepresentationC pr .ntt
  let cOdd ← Cw.lift (c.sub pr cr)
  let o0 ← Cw.lift (idx cOdd.cts 0)
  let c0 ← o0.mulC pr xp
  let o1 ← Cw.lift (idx cOdd.cts 1)
  let c1 ← o1.mulC pr xp
  let bits ← Cw.lift (setR bits j cEven)
  Cw.lift (setR bits (j + 2 ^ i) { cOdd with cts := [c0, c1] })

/-- One iteration of the outer loop of `unpack` (src/evaluations.rs:273-295). -/
def unpackStageC (pr : Profile) (ev : Evaluation) (xPows : List Poly) (n : Nat) (bits : List BfvCipherText) (i : Nat) : Cw (List BfvCipherText) := do
  let d ← Cw.lift (divR n (2 ^ i))
  let exponent ← Cw.lift (addW 64 pr d 1)
  Cw.fold (unpackStepC pr ev xPows exponent i) bits (List.range (2 ^ i))

/-- `unpack` after the call of `gen_x_pows` (src/evaluations.rs:258-299). -/
def unpackWithC (pr : Profile) (ev : Evaluation) (xPows : List Poly) (ct : BfvCipherText) : Cw (List BfvCipherText) := do
  let ctx ← Cw.lift (idx ct.params.qCtxs ct.level)
  let nInv ← Cw.lift (unwrapR (modInverse ct.params.degree ctx.rns.product))
  let cts ← Cw.map (fun c => c.mulBigC pr nInv) ct.cts
  let lg ← Cw.lift (ilog2 64 pr ct.params.degree)
  let bits ← Cw.fold (unpackStageC pr ev xPows ct.params.degree) (List.replicate ct.params.degree { ct with cts := cts }) (List.range lg)
  Cw.lift (rassert (bits.length = ct.params.degree))
  pure bits

end Evaluation

/-- The corrected `unpack` of Model/Repair; `gen_x_pows` neither transforms nor multiplies. -/
def Repair.unpackC (pr : Profile) (ev : Evaluation) (ct : BfvCipherText) : Cw (List BfvCipherText) := do
  let ctx ← Cw.lift (idx ct.params.qCtxs ct.level)
  let xPows ← Cw.lift (Repair.genXPows pr ct.params.degree ctx)
  Cw.lift (dassertEqR pr xPows.length (ilog2 64 pr ct.params.degree))
  ev.unpackWithC pr xPows ct

/-- Not in the code: the corrected `unpack` with every monomial transformed once, before the loops. The transforms inside the inner loop
(src/evaluations.rs:285-286) then find their operand transformed already. -/
def Repair.unpackOnceC (pr : Profile) (ev : Evaluation) (ct : BfvCipherText) : Cw (List BfvCipherText) := do
  let ctx ← Cw.lift (idx ct.params.qCtxs ct.level)
  let xPows ← Cw.lift (Repair.genXPows pr ct.params.degree ctx)
  Cw.lift (dassertEqR pr xPows.length (ilog2 64 pr ct.params.degree))
  let xPows ← Cw.map (fun x => x.changeRepresentationC pr .ntt) xPows
  ev.unpackWithC pr xPows ct

namespace Server

/-- The polynomial stored for one row (src/evaluations.rs:81-85). -/
def scaledRowC (pr : Profile) (params : BfvParameters) (p : Plaintext) : Cw Poly := do
  let ctx ← Cw.lift (idx params.qCtxs 0)
  let pt ← Cw.lift (Poly.tryFromVecU64 pr ctx p.values)
  pt.changeRepresentationC pr .ntt

/-- `Server::new` (src/evaluations.rs:73-93). -/
def newC (pr : Profile) (firstDim dim : Nat) (db : List Plaintext) (params : BfvParameters) : Cw Server := do
  let s ← Cw.map (scaledRowC pr params) db
  pure { firstDim := firstDim, dim := dim, db := db, dbScaled := s }

/-- The external product as a ciphertext (src/evaluations.rs:136-143, 199-206). -/
def productC (pr : Profile) (params : BfvParameters) (g : RgswCt) (ct : BfvCipherText) : Cw BfvCipherText := do
  let c ← g.externalProductC pr ct
  pure { params := params, cts := [c.1, c.2], level := 0 }

/-- One RGSW ciphertext (src/evaluations.rs:129-148). -/
def selectorRgswC (pr : Profile) (params : BfvParameters) (skRgsw : RgswCt) (vals : List (List BfvCipherText)) (i : Nat) : Cw RgswCt := do
  let lower ← Cw.lift (mapR (fun v => idx v i) vals)
  let upper ← Cw.map (productC pr params skRgsw) lower
  let ksk1 ← Cw.lift (Ksk.tryFromDecomposedRlwes params lower)
  let ksk0 ← Cw.lift (Ksk.tryFromDecomposedRlwes params upper)
  pure (RgswCt.tryFromKsks ksk0 ksk1)

/-- One iteration of the accumulation of a sum of products (src/evaluations.rs:173-179, 212-218). -/
def sumStepC {α : Type} (pr : Profile) (f : α → Cw BfvCipherText) (sum : Option BfvCipherText) (x : α) : Cw (Option BfvCipherText) := do
  let p ← f x
  match sum with
  | none => pure (some p)
  | some s => do
      let s ← Cw.lift (s.add pr p)
      pure (some s)

/-- The sum of the products (src/evaluations.rs:166-180, 198-219). -/
def sumProductsC {α : Type} (pr : Profile) (params : BfvParameters) (f : α → Cw BfvCipherText) (xs : List α) : Cw BfvCipherText := do
  let s ← Cw.fold (sumStepC pr f) none xs
  pure (s.getD { params := params, cts := [], level := 0 })

/-- The first dimension (src/evaluations.rs:161-182). -/
def firstDimensionC (pr : Profile) (params : BfvParameters) (firstDim : Nat) (cts : List BfvCipherText) (rows : List Poly) : Cw (List BfvCipherText) := do
  let ch ← Cw.lift (chunksR firstDim rows)
  Cw.map (fun ps => sumProductsC pr params (fun (x : BfvCipherText × Poly) => x.1.mulPolyC pr x.2) (cts.zip ps)) ch

/-- One further dimension (src/evaluations.rs:193-222). -/
def nextDimensionC (pr : Profile) (params : BfvParameters) (dim : Nat) (db : List BfvCipherText) (rgsws : List RgswCt) : Cw (List BfvCipherText) := do
  let ch ← Cw.lift (chunksR dim db)
  Cw.map (fun cs => sumProductsC pr params (fun (x : RgswCt × BfvCipherText) => productC pr params x.1 x.2) (rgsws.zip cs)) ch

/-- The part of `decode` after the selectors are available (src/evaluations.rs:150-225). -/
def selectC (pr : Profile) (s : Server) (params : BfvParameters) (firstDimCts : List BfvCipherText) (rgsws : List RgswCt) : Cw (List BfvCipherText) := do
  let byDim ← Cw.lift (chunksR s.dim rgsws)
  let db ← firstDimensionC pr params s.firstDim firstDimCts s.dbScaled
  Cw.fold (nextDimensionC pr params s.dim) db byDim

/-- `decode` (src/evaluations.rs:109-226) for given implementations of the count of dimensions and of `eval_key.unpack`. -/
def decodeByC (pr : Profile) (dimensions : Res Nat) (unpack : BfvCipherText → Cw (List BfvCipherText)) (s : Server) (queryCts : List BfvCipherText)
    (evalKey : Evaluation) (params : BfvParameters) : Cw (List BfvCipherText) := do
  let ctx ← Cw.lift (idx params.qCtxs 0)
  Cw.lift (rassert (ctx.moduli.length + 1 = queryCts.length))
  let q0 ← Cw.lift (idx queryCts 0)
  let fd ← unpack q0
  let fd ← Cw.lift (takeR fd s.firstDim)
  let dims ← Cw.lift dimensions
  let d ← Cw.lift (subW 64 pr dims 1)
  let count ← Cw.lift (mulW 64 pr d s.dim)
  let vals ← Cw.map (fun q => do
    let u ← unpack q
    Cw.lift (takeR u count)) (queryCts.drop 1)
  let rgsws ← Cw.map (selectorRgswC pr params evalKey.skRgsw vals) (List.range count)
  s.selectC pr params fd rgsws

end Server

/-- The corrected `decode` of Model/Repair. -/
def Repair.decodeC (pr : Profile) (s : Server) (queryCts : List BfvCipherText) (evalKey : Evaluation) (params : BfvParameters) : Cw (List BfvCipherText) :=
  Server.decodeByC pr (Repair.dimensions pr s 64) (Repair.unpackC pr evalKey) s queryCts evalKey params

end OnionPIR
