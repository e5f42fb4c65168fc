import Verif.Model.Leak
import Verif.Model.Pir
import Verif.Model.Pvw
/-
The functions that handle secrets in src/ksk.rs, src/rgsw.rs, src/evaluations.rs and src/pvw.rs, and those of src/rq.rs and src/bfv.rs that they call,
with the trace of Model/Leak. The accesses to the parameters of a level and to the tapes are as in Model/Leak.
-/
namespace OnionPIR

namespace Modulus

/-- `scalar_mul_vec` (src/modulus.rs:162-167): the factor `b` is divided once. -/
def scalarMulVecL (pr : Profile) (m : Modulus) (a : List Nat) (b : Nat) : Lk (List Nat) := do
  let bShoup ← shoupL pr m b
  Lk.map (fun ai => lazyMulShoupL pr m ai b bShoup) a

/-- `reduce_biguint` (src/modulus.rs:97-101): a division of big integers. -/
def reduceBigUintL (m : Modulus) (a : Nat) : Lk Nat := ⟨reduceBigUint m a, [.division a m.p]⟩

end Modulus

namespace Poly

/-- `try_from_vec_u64` (src/rq.rs:515-522). -/
def tryFromVecU64L (pr : Profile) (ctx : RqContext) (a : List Nat) : Lk Poly := do
  let c ← Lk.zipMut (fun coeffs (q : Modulus) => do
    let v ← q.reduceVecU64L pr a
    Lk.lift (copyPrefix coeffs v)) (zero ctx .powerBasis).coefficients ctx.moduli
  pure { zero ctx .powerBasis with coefficients := c }

/-- `try_from_bigint` (src/rq.rs:533-540). -/
def tryFromBigintL (ctx : RqContext) (a : List Nat) : Lk Poly := do
  let c ← Lk.zipMut (fun coeffs (q : Modulus) => do
    let v ← Lk.map q.reduceBigUintL a
    Lk.lift (copyPrefix coeffs v)) (zero ctx .powerBasis).coefficients ctx.moduli
  pure { zero ctx .powerBasis with coefficients := c }

/-- `MulAssign<&BigUint>` and `Mul<&BigUint>` (src/rq.rs:611-628). -/
def mulBigL (pr : Profile) (a : Poly) (b : Nat) : Lk Poly := do
  let rhs ← tryFromBigintL a.context [b]
  let rhs ← rhs.changeRepresentationL pr .ntt
  Lk.rassert (a.representation = .ntt)
  a.mulL pr rhs

/-- The new target coefficient in `substitute` (src/rq.rs:361-365): a branch on the exponent. -/
def substValueL (pr : Profile) (degree power : Nat) (q : Modulus) (t o : Nat) : Lk Nat := do
  let b ← Lk.test (decide (power &&& degree ≠ 0))
  if b then q.subL pr t o else q.addL pr t o

/-- One coefficient update of `substitute` in power basis (src/rq.rs:350-368). -/
def substStepL (pr : Profile) (degree exponent : Nat) (q : Modulus) (src : List Nat) (st : List Nat × Nat) (j : Nat) : Lk (List Nat × Nat) := do
  let o ← Lk.idx src j
  let t ← Lk.idx st.1 (st.2 &&& (degree - 1))
  let v ← substValueL pr degree st.2 q t o
  let power ← Lk.add 64 pr st.2 exponent
  pure (st.1.set (st.2 &&& (degree - 1)) v, power)

/-- One row of `substitute` in power basis; see `substRowPower` for the order of the loops. -/
def substRowPowerL (pr : Profile) (degree exponent : Nat) (zeros src : List Nat) (q : Modulus) : Lk (List Nat) := do
  let st ← Lk.fold (substStepL pr degree exponent q src) (zeros, 0) (List.range degree)
  pure st.1

/-- One assignment of `substitute` in NTT form (src/rq.rs:380). -/
def substMoveL (src row : List Nat) (jk : Nat × Nat) : Lk (List Nat) := do
  let v ← Lk.idx src jk.1
  ⟨if jk.2 < row.length then .ok (row.set jk.2 v) else .error .bounds, [.access jk.2]⟩

/-- One row of `substitute` in NTT form (src/rq.rs:378-381). -/
def substRowNttL (powersBitrev bitrev : List Nat) (zeros src : List Nat) : Lk (List Nat) := Lk.fold (substMoveL src) zeros (powersBitrev.zip bitrev)

/-- `substitute` (src/rq.rs:343-386). -/
def substituteL (pr : Profile) (p : Poly) (a : Substitution) : Lk Poly :=
  match p.representation with
  | .powerBasis => do
      let c ← Lk.zip3Mut (substRowPowerL pr p.context.degree a.exponent) (zero p.context p.representation).coefficients p.coefficients p.context.moduli
      pure { zero p.context p.representation with coefficients := c }
  | _ => do
      let c ← Lk.zipMut (substRowNttL a.powersBitrev p.context.bitrev) (zero p.context p.representation).coefficients p.coefficients
      pure { zero p.context p.representation with coefficients := c }

end Poly

/-- `to_poly` (src/bfv.rs:634-654). -/
def Plaintext.toPolyL (pr : Profile) (p : Plaintext) : Lk Poly := do
  let qModT ← Lk.idx p.params.qModTs p.level
  let qCtx ← Lk.idx p.params.qCtxs p.level
  let delta ← Lk.idx p.params.deltaTs p.level
  let tm ← Lk.lift (Modulus.new p.params.plaintextModulus)
  let values ← tm.scalarMulVecL pr p.values qModT
  let poly ← Poly.tryFromVecU64L pr qCtx values
  let poly ← poly.changeRepresentationL pr .ntt
  poly.mulL pr delta

/-- `encrypt` (src/bfv.rs:331-334). -/
def SecretKey.encryptL (pr : Profile) (sk : SecretKey) (pt : Plaintext) (aTape : Nat → Nat → Nat) (rng : Nat → Nat) : Lk BfvCipherText := do
  let poly ← pt.toPolyL pr
  sk.encryptPolyL pr poly aTape rng

namespace Ksk

/-- One iteration of the loop of `Ksk::new` (src/ksk.rs:65-91). -/
def newC0L (pr : Profile) (params : BfvParameters) (kskCtx : RqContext) (s src c1 : Poly) (garner : Nat) (rng : Nat → Nat) : Lk Poly := do
  let as ← c1.mulL pr s
  let b ← Poly.randomSmallL pr kskCtx .ntt params.variance rng
  let b ← b.subL pr as
  let m ← src.mulBigL pr garner
  b.addL pr m

/-- `Ksk::new` (src/ksk.rs:47-100). -/
def newL (pr : Profile) (sk : SecretKey) (src : Poly) (ctLevel kskLevel : Nat) (aTape : Nat → Nat → Nat → Nat) (rng : Nat → Nat → Nat) : Lk Ksk := do
  let kskCtx ← Lk.idx sk.params.qCtxs kskLevel
  let ctCtx ← Lk.idx sk.params.qCtxs ctLevel
  let s ← sk.polyNttL pr kskCtx
  let c0s ← Lk.map (fun (x : Nat × Poly × Nat) => newC0L pr sk.params kskCtx s src x.2.1 x.2.2 (rng x.1))
    ((List.range ctCtx.rns.moduli.length).zip
      (((List.range ctCtx.rns.moduli.length).map fun k => Poly.random kskCtx (aTape k) .ntt).zip ctCtx.rns.garner))
  pure { params := sk.params, c0 := c0s, c1 := (List.range ctCtx.rns.moduli.length).map fun k => Poly.random kskCtx (aTape k) .ntt,
         kskContext := kskCtx, ctContext := ctCtx }

/-- `Ksk::new_with_pt` (src/ksk.rs:38-45). -/
def newWithPtL (pr : Profile) (sk : SecretKey) (src : Plaintext) (ctLevel kskLevel : Nat) (aTape : Nat → Nat → Nat → Nat) (rng : Nat → Nat → Nat) :
    Lk Ksk := do
  let p ← src.toPolyL pr
  newL pr sk p ctLevel kskLevel aTape rng

end Ksk

/-- `GaliosKey::new` (src/bfv.rs:707-723). -/
def GaliosKey.newL (pr : Profile) (sk : SecretKey) (i : Substitution) (level : Nat) (aTape : Nat → Nat → Nat → Nat) (rng : Nat → Nat → Nat) :
    Lk GaliosKey := do
  Lk.rassert (sk.params.ciphertextModuli.length ≠ 1)
  let ctx ← Lk.idx sk.params.qCtxs level
  let s ← Poly.tryFromVecI64L pr ctx sk.coeffs
  let si ← s.substituteL pr i
  let si ← si.changeRepresentationL pr .ntt
  let gk ← Ksk.newL pr sk si level level aTape rng
  pure { gk := gk, substitution := i, level := level }

/-- `RelinearizationKey::new` (src/bfv.rs:749-760). -/
def RelinearizationKey.newL (pr : Profile) (sk : SecretKey) (level : Nat) (aTape : Nat → Nat → Nat → Nat) (rng : Nat → Nat → Nat) :
    Lk RelinearizationKey := do
  let ctx ← Lk.idx sk.params.qCtxs level
  let s ← sk.polyNttL pr ctx
  let s2 ← s.mulL pr s
  let ksk ← Ksk.newL pr sk s2 level level aTape rng
  pure { params := sk.params, ksk := ksk }

namespace RgswCt

/-- `encrypt_poly` (src/rgsw.rs:28-42). The search for the level compares contexts, which are public. -/
def encryptPolyL (pr : Profile) (sk : SecretKey) (m : Poly) (aTape0 aTape1 : Nat → Nat → Nat → Nat) (rng0 rng1 : Nat → Nat → Nat) : Lk RgswCt := do
  Lk.rassert (m.representation = .ntt)
  let level ← Lk.lift (unwrapR (sk.params.ctxLevel m.context))
  let s ← sk.polyNttL pr m.context
  let sm ← s.mulL pr m
  let k0 ← Ksk.newL pr sk sm level level aTape0 rng0
  let k1 ← Ksk.newL pr sk m level level aTape1 rng1
  pure { ksk0 := k0, ksk1 := k1 }

/-- `encrypt` (src/rgsw.rs:44-61). -/
def encryptL (pr : Profile) (sk : SecretKey) (m : Plaintext) (aTape0 aTape1 : Nat → Nat → Nat → Nat) (rng0 rng1 : Nat → Nat → Nat) : Lk RgswCt := do
  Lk.rassert (sk.params = m.params)
  let ctx ← Lk.idx sk.params.qCtxs m.level
  let mp ← Poly.tryFromVecU64L pr ctx m.values
  let mp ← mp.changeRepresentationL pr .ntt
  let s ← sk.polyNttL pr ctx
  let sm ← s.mulL pr mp
  let k0 ← Ksk.newL pr sk sm m.level m.level aTape0 rng0
  let k1 ← Ksk.newL pr sk mp m.level m.level aTape1 rng1
  pure { ksk0 := k0, ksk1 := k1 }

end RgswCt

namespace Evaluation

/-- One iteration of the loop of `build` (src/evaluations.rs:239-241). The exponent is public. -/
def buildStepL (pr : Profile) (sk : SecretKey) (params : BfvParameters) (aTape : Nat → Nat → Nat → Nat → Nat) (rng : Nat → Nat → Nat → Nat)
    (m : List (Nat × GaliosKey)) (i : Nat) : Lk (List (Nat × GaliosKey)) := do
  let p ← Lk.lift (powW 64 pr 2 i)
  let d ← Lk.div params.degree p
  let k ← Lk.add 64 pr d 1
  let ctx ← Lk.idx params.qCtxs 0
  let sub ← Lk.lift (Substitution.new pr ctx k)
  let g ← GaliosKey.newL pr sk sub 0 (aTape i) (rng i)
  pure ((k, g) :: m)

/-- `build` (src/evaluations.rs:235-252). -/
def buildL (pr : Profile) (sk : SecretKey) (params : BfvParameters) (aTape : Nat → Nat → Nat → Nat → Nat) (rng : Nat → Nat → Nat → Nat)
    (aTape0 aTape1 : Nat → Nat → Nat → Nat) (rng0 rng1 : Nat → Nat → Nat) : Lk Evaluation := do
  let lg ← Lk.lift (ilog2 64 pr params.degree)
  let gk ← Lk.fold (buildStepL pr sk params aTape rng) [] (List.range lg)
  let ctx ← Lk.idx params.qCtxs 0
  let m ← sk.polyNttL pr ctx
  let g ← RgswCt.encryptPolyL pr sk m aTape0 aTape1 rng0 rng1
  pure { gk := gk, skRgsw := g }

end Evaluation

namespace Client

/-- `(i == q).into()` and `(j == q) as u64` (src/evaluations.rs:45, 55): a comparison whose result is a number. -/
def indicator (q i : Nat) : Lk Nat := pure (if i = q then 1 else 0)

/-- The `dim` entries pushed for one coordinate (src/evaluations.rs:53-56). -/
def selectorL (dim q : Nat) : Lk (List Nat) := do
  Lk.rassert (q < dim)
  Lk.map (indicator q) (List.range dim)

/-- `encode` (src/evaluations.rs:36-62). -/
def encodeL (pr : Profile) (c : Client) (queryDims : List Nat) (dbRows : Nat) : Lk (List Nat) := do
  let q0 ← Lk.idx queryDims 0
  Lk.rassert (q0 < c.firstDim)
  let first ← Lk.map (indicator q0) (List.range c.firstDim)
  let x ← Lk.div dbRows c.firstDim
  let p ← Lk.lift (powW 64 pr c.dim (queryDims.length - 1))
  let x ← Lk.div x p
  Lk.rassert (x = 1)
  let rgsws ← Lk.map (selectorL c.dim) (queryDims.drop 1)
  pure (first ++ rgsws.flatten)

end Client

namespace Pvw

/-- One iteration of the inner product loops (src/pvw.rs:73-74, 104-105). -/
def dotStepL (pr : Profile) (q : Modulus) (sk : PvwSk) (l : Nat) (a : List Nat) (sum i : Nat) : Lk Nat := do
  let s ← Lk.idx sk l
  let x ← Lk.idx s i
  let y ← Lk.idx a i
  let product ← q.mulL pr x y
  q.addL pr sum product

/-- The inner product loops (src/pvw.rs:71-75, 102-106). -/
def dotL (pr : Profile) (q : Modulus) (n : Nat) (sk : PvwSk) (l : Nat) (a : List Nat) : Lk Nat := Lk.fold (dotStepL pr q sk l a) 0 (List.range n)

/-- One entry of the public key (src/pvw.rs:71-78). -/
def pkEntryL (pr : Profile) (q : Modulus) (n : Nat) (sk : PvwSk) (l : Nat) (a : List (List Nat)) (err : List Nat) (m : Nat) : Lk Nat := do
  let row ← Lk.idx a m
  let sum ← dotL pr q n sk l row
  let e ← Lk.idx err m
  q.addL pr sum e

/-- The entries for one row of the secret key (src/pvw.rs:68-79). -/
def pkColumnL (pr : Profile) (params : PvwParams) (q : Modulus) (sk : PvwSk) (a : List (List Nat)) (rng : Nat → Nat → Nat) (l : Nat) :
    Lk (List Nat) := do
  let raw ← sampleVecCbdL pr (rng l) params.m params.variance
  let err ← q.reduceVecI64L pr raw
  Lk.map (pkEntryL pr q params.n sk l a err) (List.range params.m)

/-- One row of the public key (src/pvw.rs:81-91). -/
def pkRowL (a : List (List Nat)) (cols : List (List Nat)) (m : Nat) : Lk PvwCiphertext := do
  let b ← Lk.map (fun col => Lk.idx col m) cols
  let row ← Lk.idx a m
  pure { a := row, b := b }

/-- `gen_pk` (src/pvw.rs:56-92). -/
def genPkL (pr : Profile) (sk : PvwSk) (params : PvwParams) (aTape : Nat → Nat → Nat) (rng : Nat → Nat → Nat) : Lk PvwPk := do
  let q ← Lk.lift (Modulus.new params.q)
  let cols ← Lk.map (pkColumnL pr params q sk ((List.range params.m).map fun m => randomVec params.n (aTape m)) rng) (List.range params.ell)
  Lk.map (pkRowL ((List.range params.m).map fun m => randomVec params.n (aTape m)) cols) (List.range params.m)

/-- Assignment to an element of a slice. -/
def setL (b : List Nat) (l v : Nat) : Lk (List Nat) := ⟨if l < b.length then .ok (b.set l v) else .error .bounds, [.access l]⟩

/-- One iteration of the first loop of `decrypt` (src/pvw.rs:102-107). -/
def decryptStepL (pr : Profile) (params : PvwParams) (q : Modulus) (sk : PvwSk) (a : List Nat) (b : List Nat) (l : Nat) : Lk (List Nat) := do
  let sum ← dotL pr q params.n sk l a
  let x ← Lk.idx b l
  let v ← q.subL pr x sum
  setL b l v

/-- The rounding (src/pvw.rs:110-112): a division by `q / 2`. -/
def roundL (pr : Profile) (q v : Nat) : Lk Nat := do
  let x ← Lk.add 64 pr v (q / 4)
  let y ← Lk.div x (q / 2)
  pure (y % 2)

/-- `decrypt` (src/pvw.rs:94-114). -/
def decryptL (pr : Profile) (sk : PvwSk) (params : PvwParams) (ct : PvwCiphertext) : Lk (List Nat) := do
  let q ← Lk.lift (Modulus.new params.q)
  let b ← Lk.fold (decryptStepL pr params q sk ct.a) ct.b (List.range params.ell)
  Lk.map (roundL pr params.q) b

/-- One iteration of the accumulation loops of `encrypt` (src/pvw.rs:133-134, 138-139). -/
def accStepL (pr : Profile) (q : Modulus) (pk : PvwPk) (comp : PvwCiphertext → List Nat) (m e : Nat) (acc : List Nat) (i : Nat) : Lk (List Nat) := do
  let c ← Lk.idx pk m
  let x ← Lk.idx (comp c) i
  let product ← q.mulL pr x e
  let y ← Lk.idx acc i
  let v ← q.addL pr y product
  setL acc i v

/-- One iteration of the outer loop of `encrypt` (src/pvw.rs:131-141). -/
def encryptStepL (pr : Profile) (params : PvwParams) (q : Modulus) (pk : PvwPk) (e : Nat → Nat) (st : List Nat × List Nat) (m : Nat) :
    Lk (List Nat × List Nat) := do
  let b ← Lk.fold (accStepL pr q pk PvwCiphertext.b m (e m)) st.1 (List.range params.ell)
  let a ← Lk.fold (accStepL pr q pk PvwCiphertext.a m (e m)) st.2 (List.range params.n)
  pure (b, a)

/-- Adding the message (src/pvw.rs:143-145). -/
def addMessageL (pr : Profile) (params : PvwParams) (q : Modulus) (v mv : Nat) : Lk Nat := do
  let x ← Lk.mul 64 pr (params.q / 2) mv
  q.addL pr v x

/-- `encrypt` (src/pvw.rs:120-148). -/
def encryptL (pr : Profile) (pk : PvwPk) (params : PvwParams) (msg : List Nat) (e : Nat → Nat) : Lk PvwCiphertext := do
  let q ← Lk.lift (Modulus.new params.q)
  let st ← Lk.fold (encryptStepL pr params q pk e) (List.replicate params.ell 0, List.replicate params.n 0) (List.range params.m)
  let b ← Lk.zipMut (addMessageL pr params q) st.1 msg
  pure { a := st.2, b := b }

end Pvw
end OnionPIR
