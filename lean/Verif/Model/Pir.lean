import Verif.Model.Rgsw
/-
Model of /repo/src/evaluations.rs. `HashMap<usize, GaliosKey>` is an association list; the first entry of a key wins.
`decode` and `unpack` are split at the points marked below so that the parts can be studied separately.
Not modelled: the `#[cfg(test)]` module.
-/
namespace OnionPIR

/-- `b.pow(e as u32)` on unsigned `w`-bit integers. The intermediate products of the squaring loop never exceed the result. -/
def powW (w : Nat) (pr : Profile) (b e : Nat) : Res Nat := fit w pr (b ^ (e % 2 ^ 32))

/-- `chunks(size)` of a slice (and of `itertools`): pieces of `size` elements, the last one possibly shorter; size 0 panics. -/
def chunksAux {α : Type} (size : Nat) : (fuel : Nat) → List α → List (List α)
  | 0, _ => []
  | _ + 1, [] => []
  | fuel + 1, l => l.take size :: chunksAux size fuel (l.drop size)

/-- See `chunksAux`; the number of pieces is at most the length. -/
def chunksR {α : Type} (size : Nat) (l : List α) : Res (List (List α)) := do
  rassert (size ≠ 0)
  .ok (chunksAux size l.length l)

/-- `struct Client` (src/evaluations.rs:17-20). -/
structure Client where
  firstDim : Nat
  dim : Nat

namespace Client

/-- `Client::default` (src/evaluations.rs:22-29). -/
def default : Client := { firstDim := 4, dim := 4 }

/-- The `dim` entries pushed for one coordinate (src/evaluations.rs:53-56). -/
def selector (dim q : Nat) : Res (List Nat) := do
  rassert (q < dim)
  .ok ((List.range dim).map fun j => if j = q then 1 else 0)

/-- `encode` (src/evaluations.rs:36-62); the parameters `bfv_params` and `sk` are unused. -/
def encode (pr : Profile) (c : Client) (queryDims : List Nat) (dbRows : Nat) : Res (List Nat) := do
  let q0 ← idx queryDims 0
  rassert (q0 < c.firstDim)
  let firstDimBfv := (List.range c.firstDim).map fun i => if i = q0 then 1 else 0
  let x ← divR dbRows c.firstDim
  let p ← powW 64 pr c.dim (queryDims.length - 1)
  let x ← divR x p
  rassert (x = 1)
  let rgsws ← mapR (selector c.dim) (queryDims.drop 1)
  .ok (firstDimBfv ++ rgsws.flatten)

end Client

/-- `struct Evaluation` (src/evaluations.rs:229-232). -/
structure Evaluation where
  gk : List (Nat × GaliosKey)
  skRgsw : RgswCt

namespace Evaluation

/-- One iteration of the loop of `build` (src/evaluations.rs:239-241). -/
def buildStep (pr : Profile) (sk : SecretKey) (params : BfvParameters) (aTape : Nat → Nat → Nat → Nat → Nat)
    (rng : Nat → Nat → Nat → Nat) (m : List (Nat × GaliosKey)) (i : Nat) : Res (List (Nat × GaliosKey)) := do
  let p ← powW 64 pr 2 i
  let d ← divR params.degree p
  let k ← addW 64 pr d 1
  let ctx ← idx params.qCtxs 0
  let sub ← Substitution.new pr ctx k
  let g ← GaliosKey.new pr sk sub 0 (aTape i) (rng i)
  .ok ((k, g) :: m)

/-- `build` (src/evaluations.rs:235-252). `aTape i`, `rng i` are the tapes of the `i`-th Galois key, the others those of the
RGSW encryption of the secret key. -/
def build (pr : Profile) (sk : SecretKey) (params : BfvParameters) (aTape : Nat → Nat → Nat → Nat → Nat)
    (rng : Nat → Nat → Nat → Nat) (aTape0 aTape1 : Nat → Nat → Nat → Nat) (rng0 rng1 : Nat → Nat → Nat) : Res Evaluation := do
  let lg ← ilog2 64 pr params.degree
  let gk ← foldR (buildStep pr sk params aTape rng) [] (List.range lg)
  let ctx ← idx params.qCtxs 0
  let m ← sk.polyNtt pr ctx
  let g ← RgswCt.encryptPoly pr sk m aTape0 aTape1 rng0 rng1
  .ok { gk := gk, skRgsw := g }

/-- One iteration of the loop of `gen_x_pows` (src/evaluations.rs:306-310). -/
def xPow (pr : Profile) (n : Nat) (x : Poly) (i : Nat) : Res Poly := do
  let p ← powW 64 pr 2 i
  let ex ← subW 64 pr n p
  let sub ← Substitution.new pr x.context ex
  let y ← x.substitute pr sub
  y.neg pr

/-- `gen_x_pows` (src/evaluations.rs:301-313). -/
def genXPows (pr : Profile) (n : Nat) (ctx : RqContext) : Res (List Poly) := do
  let x ← Poly.tryFromVecU64 pr ctx [0, 1]
  let lg ← ilog2 64 pr n
  mapR (xPow pr n x) (List.range lg)

/-- One iteration of the inner loop of `unpack` (src/evaluations.rs:277-293) at stage `i`. -/
def unpackStep (pr : Profile) (ev : Evaluation) (xPows : List Poly) (exponent i : Nat) (bits : List BfvCipherText) (j : Nat) :
    Res (List BfvCipherText) := do
  let c ← idx bits j
  let gk ← unwrapR (ev.gk.lookup exponent)
  let cr ← gk.relinearize pr c
  let cEven ← c.add pr cr
  let xp ← idx xPows i
  let xp ← xp.changeRepresentation pr .ntt
  let cOdd ← c.sub pr cr
  let o0 ← idx cOdd.cts 0
  let c0 ← o0.mul pr xp
  let o1 ← idx cOdd.cts 1
  let c1 ← o1.mul pr xp
  let bits ← setR bits j cEven
  setR bits (j + 2 ^ i) { cOdd with cts := [c0, c1] }

/-- One iteration of the outer loop of `unpack` (src/evaluations.rs:273-295); `i < 64`, so `1 << i` is `2^i`. -/
def unpackStage (pr : Profile) (ev : Evaluation) (xPows : List Poly) (n : Nat) (bits : List BfvCipherText) (i : Nat) :
    Res (List BfvCipherText) := do
  let d ← divR n (2 ^ i)
  let exponent ← addW 64 pr d 1
  foldR (unpackStep pr ev xPows exponent i) bits (List.range (2 ^ i))

/-- `unpack` after the call of `gen_x_pows` (src/evaluations.rs:258-299), for given monomials. -/
def unpackWith (pr : Profile) (ev : Evaluation) (xPows : List Poly) (ct : BfvCipherText) : Res (List BfvCipherText) := do
  let ctx ← idx ct.params.qCtxs ct.level
  let nInv ← unwrapR (modInverse ct.params.degree ctx.rns.product)
  let cts ← mapR (fun c => c.mulBig pr nInv) ct.cts
  let lg ← ilog2 64 pr ct.params.degree
  let bits ← foldR (unpackStage pr ev xPows ct.params.degree) (List.replicate ct.params.degree { ct with cts := cts }) (List.range lg)
  rassert (bits.length = ct.params.degree)
  .ok bits

/-- `unpack` (src/evaluations.rs:254-299). -/
def unpack (pr : Profile) (ev : Evaluation) (ct : BfvCipherText) : Res (List BfvCipherText) := do
  let ctx ← idx ct.params.qCtxs ct.level
  let xPows ← genXPows pr ct.params.degree ctx
  dassertEqR pr xPows.length (ilog2 64 pr ct.params.degree)
  unpackWith pr ev xPows ct

end Evaluation

/-- `struct Server` (src/evaluations.rs:65-70). -/
structure Server where
  firstDim : Nat
  dim : Nat
  db : List Plaintext
  dbScaled : List Poly

namespace Server

/-- The polynomial stored for one row (src/evaluations.rs:81-85). -/
def scaledRow (pr : Profile) (params : BfvParameters) (p : Plaintext) : Res Poly := do
  let ctx ← idx params.qCtxs 0
  let pt ← Poly.tryFromVecU64 pr ctx p.values
  pt.changeRepresentation pr .ntt

/-- `Server::new` (src/evaluations.rs:73-93). -/
def new (pr : Profile) (firstDim dim : Nat) (db : List Plaintext) (params : BfvParameters) : Res Server := do
  let s ← mapR (scaledRow pr params) db
  .ok { firstDim := firstDim, dim := dim, db := db, dbScaled := s }

/-- The `while` loop of `no_of_cts` (src/evaluations.rs:102-105), run for at most `fuel` iterations. -/
def noOfCtsLoop (pr : Profile) (dim : Nat) : (fuel : Nat) → (len count : Nat) → Res Nat
  | 0, len, count => if len > 1 then .error .diverge else .ok count
  | fuel + 1, len, count =>
      if len > 1 then do
        let len ← divR len dim
        let count ← addW 64 pr count dim
        noOfCtsLoop pr dim fuel len count
      else .ok count

/-- `no_of_cts` (src/evaluations.rs:95-107) with at most `fuel` iterations of its loop. -/
def noOfCts (pr : Profile) (s : Server) (fuel : Nat) : Res Nat := do
  let count ← addW 64 pr 0 s.firstDim
  let len ← divR s.db.length s.firstDim
  noOfCtsLoop pr s.dim fuel len count

/-- The number of dimensions computed by `decode` (src/evaluations.rs:120). -/
def dimensions (pr : Profile) (s : Server) : Res Nat := do
  let x ← divR s.db.length s.firstDim
  let lx ← ilog2 64 pr x
  let ld ← ilog2 64 pr s.dim
  let q ← divR lx ld
  addW 64 pr q 1

/-- The external product as a ciphertext (src/evaluations.rs:136-143, 199-206). -/
def product (pr : Profile) (params : BfvParameters) (g : RgswCt) (ct : BfvCipherText) : Res BfvCipherText := do
  let (c0, c1) ← g.externalProduct pr ct
  .ok { params := params, cts := [c0, c1], level := 0 }

/-- One RGSW ciphertext (src/evaluations.rs:129-148): `vals` are the unpacked ciphertexts of each query component. -/
def selectorRgsw (pr : Profile) (params : BfvParameters) (skRgsw : RgswCt) (vals : List (List BfvCipherText)) (i : Nat) : Res RgswCt := do
  let lower ← mapR (fun v => idx v i) vals
  let upper ← mapR (product pr params skRgsw) lower
  let ksk1 ← Ksk.tryFromDecomposedRlwes params lower
  let ksk0 ← Ksk.tryFromDecomposedRlwes params upper
  .ok (RgswCt.tryFromKsks ksk0 ksk1)

/-- One iteration of the accumulation of a sum of products (src/evaluations.rs:173-179, 212-218). -/
def sumStep {α : Type} (pr : Profile) (f : α → Res BfvCipherText) (sum : Option BfvCipherText) (x : α) : Res (Option BfvCipherText) := do
  let p ← f x
  match sum with
  | none => .ok (some p)
  | some s => do
      let s ← s.add pr p
      .ok (some s)

/-- The sum of the products (src/evaluations.rs:166-180, 198-219); without products it is a ciphertext without components. -/
def sumProducts {α : Type} (pr : Profile) (params : BfvParameters) (f : α → Res BfvCipherText) (xs : List α) : Res BfvCipherText := do
  let s ← foldR (sumStep pr f) none xs
  .ok (s.getD { params := params, cts := [], level := 0 })

/-- The first dimension (src/evaluations.rs:161-182). -/
def firstDimension (pr : Profile) (params : BfvParameters) (firstDim : Nat) (cts : List BfvCipherText) (rows : List Poly) :
    Res (List BfvCipherText) := do
  let ch ← chunksR firstDim rows
  mapR (fun ps => sumProducts pr params (fun (x : BfvCipherText × Poly) => x.1.mulPoly pr x.2) (cts.zip ps)) ch

/-- One further dimension (src/evaluations.rs:193-222). -/
def nextDimension (pr : Profile) (params : BfvParameters) (dim : Nat) (db : List BfvCipherText) (rgsws : List RgswCt) :
    Res (List BfvCipherText) := do
  let ch ← chunksR dim db
  mapR (fun cs => sumProducts pr params (fun (x : RgswCt × BfvCipherText) => product pr params x.1 x.2) (rgsws.zip cs)) ch

/-- The part of `decode` after the selectors are available (src/evaluations.rs:150-225). -/
def select (pr : Profile) (s : Server) (params : BfvParameters) (firstDimCts : List BfvCipherText) (rgsws : List RgswCt) :
    Res (List BfvCipherText) := do
  let byDim ← chunksR s.dim rgsws
  let db ← firstDimension pr params s.firstDim firstDimCts s.dbScaled
  foldR (nextDimension pr params s.dim) db byDim

/-- `decode` (src/evaluations.rs:109-226) for given implementations of the count of dimensions (line 120) and of `eval_key.unpack`. -/
def decodeBy (pr : Profile) (dimensions : Res Nat) (unpack : BfvCipherText → Res (List BfvCipherText)) (s : Server) (queryCts : List BfvCipherText)
    (evalKey : Evaluation) (params : BfvParameters) : Res (List BfvCipherText) := do
  let ctx ← idx params.qCtxs 0
  rassert (ctx.moduli.length + 1 = queryCts.length)
  let q0 ← idx queryCts 0
  let fd ← unpack q0
  let fd ← takeR fd s.firstDim
  let dims ← dimensions
  let d ← subW 64 pr dims 1
  let count ← mulW 64 pr d s.dim
  let vals ← mapR (fun q => do
    let u ← unpack q
    takeR u count) (queryCts.drop 1)
  let rgsws ← mapR (selectorRgsw pr params evalKey.skRgsw vals) (List.range count)
  s.select pr params fd rgsws

/-- `decode` (src/evaluations.rs:109-226). -/
def decode (pr : Profile) (s : Server) (queryCts : List BfvCipherText) (evalKey : Evaluation) (params : BfvParameters) :
    Res (List BfvCipherText) := decodeBy pr (s.dimensions pr) (evalKey.unpack pr) s queryCts evalKey params

/-- `decode` with given monomials in place of those of `gen_x_pows`. -/
def decodeWith (pr : Profile) (xPows : List Poly) (s : Server) (queryCts : List BfvCipherText) (evalKey : Evaluation)
    (params : BfvParameters) : Res (List BfvCipherText) :=
  decodeBy pr (s.dimensions pr) (evalKey.unpackWith pr xPows) s queryCts evalKey params

end Server
end OnionPIR
