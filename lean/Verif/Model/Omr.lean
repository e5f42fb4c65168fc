import Verif.Model.Bfv
import Verif.Model.Pvw
/-
Model of /repo/src/omr.rs.
-/
namespace OnionPIR.Omr

/-- One iteration of the loop of `inner_product` (src/omr.rs:13-16). -/
def ipStep (pr : Profile) (cts : List BfvCipherText) (polys : List Poly) (product : BfvCipherText) (i : Nat) : Res BfvCipherText := do
  let c ← idx cts i
  let q ← idx polys i
  let p ← c.mulPoly pr q
  product.add pr p

/-- `inner_product` (src/omr.rs:9-19). -/
def innerProduct (pr : Profile) (cts : List BfvCipherText) (polys : List Poly) : Res BfvCipherText := do
  rassert (cts.length = polys.length)
  let c0 ← idx cts 0
  let p0 ← idx polys 0
  let product ← c0.mulPoly pr p0
  foldR (fun st i => ipStep pr cts polys st (i + 1)) product (List.range (cts.length - 1))

/-- One iteration of the copying loops of `process` (src/omr.rs:37-39, 48-50). -/
def fillStep (comp : PvwCiphertext → List Nat) (clues : List PvwCiphertext) (k : Nat) (poly : List Nat) (i : Nat) : Res (List Nat) := do
  let c ← idx clues i
  let v ← idx (comp c) k
  if i < poly.length then .ok (poly.set i v) else .error .bounds

/-- The encoding of one component of all clues (src/omr.rs:36-43, 47-54). -/
def encodeComponent (pr : Profile) (op : NttOperator) (D : Nat) (comp : PvwCiphertext → List Nat) (clues : List PvwCiphertext) (k : Nat) :
    Res (List Nat) := do
  let poly ← foldR (fillStep comp clues k) (List.replicate D 0) (List.range clues.length)
  op.backward pr poly

/-- `process` (src/omr.rs:21-56), returning `(b_polys, a_polys)`. The code runs it for the default parameters, `D = 64` and an empty
vector of clues and discards the result; the model takes them as arguments. -/
def process (pr : Profile) (sample : Nat → Nat → Nat) (params : PvwParams) (D : Nat) (clues : List PvwCiphertext) :
    Res (List (List Nat) × List (List Nat)) := do
  let q ← Modulus.new params.q
  let op ← NttOperator.new pr (sample q.p) q D
  let b ← mapR (encodeComponent pr op D PvwCiphertext.b clues) (List.range params.ell)
  let a ← mapR (encodeComponent pr op D PvwCiphertext.a clues) (List.range params.n)
  .ok (b, a)

end OnionPIR.Omr
