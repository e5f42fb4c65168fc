import Verif.Model.Modulus
import Verif.Model.Utils
/-
Model of /repo/src/pvw.rs. Random choices are tapes: `skTape l n` and `aTape m n` are the values drawn by `random_vec`,
`rng l` is the `u64` stream read by the `l`-th call of `sample_vec_cbd`, `e` are the bits drawn by `encrypt`.
Not modelled: the `#[cfg(test)]` module.
-/
namespace OnionPIR

/-- `struct PvwParams` (src/pvw.rs:11-17). -/
structure PvwParams where
  n : Nat
  ell : Nat
  m : Nat
  q : Nat
  variance : Nat

namespace PvwParams

/-- `PvwParams::default` (src/pvw.rs:19-29). -/
def default : PvwParams := { n := 450, ell := 4, m := 16000, q := 65537, variance := 2 }

/-- `PvwParams::new` (src/pvw.rs:32-34). -/
def new : Res PvwParams := .error .todo

end PvwParams

/-- `struct PvwCiphertext` (src/pvw.rs:151-157). -/
structure PvwCiphertext where
  a : List Nat
  b : List Nat

/-- `PvwSk(Vec<Vec<u64>>)` (src/pvw.rs:37). -/
abbrev PvwSk := List (List Nat)

/-- `PvwPk(Vec<PvwCiphertext>)` (src/pvw.rs:117). -/
abbrev PvwPk := List PvwCiphertext

namespace Pvw

/-- `Modulus::random_vec` (src/modulus.rs:249-252) reading a tape. -/
def randomVec (size : Nat) (tape : Nat → Nat) : List Nat := (List.range size).map tape

/-- `gen_sk` (src/pvw.rs:40-52). -/
def genSk (params : PvwParams) (skTape : Nat → Nat → Nat) : Res PvwSk := do
  let _ ← Modulus.new params.q
  .ok ((List.range params.ell).map fun l => randomVec params.n (skTape l))

/-- One iteration of the inner product loops (src/pvw.rs:73-74, 104-105). -/
def dotStep (pr : Profile) (q : Modulus) (sk : PvwSk) (l : Nat) (a : List Nat) (sum i : Nat) : Res Nat := do
  let s ← idx sk l
  let x ← idx s i
  let y ← idx a i
  let product ← q.mul pr x y
  q.add pr sum product

/-- The inner product loops (src/pvw.rs:71-75, 102-106). -/
def dot (pr : Profile) (q : Modulus) (n : Nat) (sk : PvwSk) (l : Nat) (a : List Nat) : Res Nat := foldR (dotStep pr q sk l a) 0 (List.range n)

/-- One entry of the public key (src/pvw.rs:71-78). -/
def pkEntry (pr : Profile) (q : Modulus) (n : Nat) (sk : PvwSk) (l : Nat) (a : List (List Nat)) (err : List Nat) (m : Nat) : Res Nat := do
  let row ← idx a m
  let sum ← dot pr q n sk l row
  let e ← idx err m
  q.add pr sum e

/-- The entries for one row of the secret key (src/pvw.rs:68-79). -/
def pkColumn (pr : Profile) (params : PvwParams) (q : Modulus) (sk : PvwSk) (a : List (List Nat)) (rng : Nat → Nat → Nat) (l : Nat) :
    Res (List Nat) := do
  let raw ← sampleVecCbd pr (rng l) params.m params.variance
  let err ← q.reduceVecI64 pr raw
  mapR (pkEntry pr q params.n sk l a err) (List.range params.m)

/-- `gen_pk` (src/pvw.rs:56-92). The code fills the matrix `p` column by column; the model collects the columns and reads
the rows off. -/
def genPk (pr : Profile) (sk : PvwSk) (params : PvwParams) (aTape : Nat → Nat → Nat) (rng : Nat → Nat → Nat) : Res PvwPk := do
  let q ← Modulus.new params.q
  let a := (List.range params.m).map fun m => randomVec params.n (aTape m)
  let cols ← mapR (pkColumn pr params q sk a rng) (List.range params.ell)
  mapR (fun m => do
    let b ← mapR (fun col => idx col m) cols
    let row ← idx a m
    .ok { a := row, b := b }) (List.range params.m)

/-- One iteration of the first loop of `decrypt` (src/pvw.rs:102-107). -/
def decryptStep (pr : Profile) (params : PvwParams) (q : Modulus) (sk : PvwSk) (a : List Nat) (b : List Nat) (l : Nat) : Res (List Nat) := do
  let sum ← dot pr q params.n sk l a
  let x ← idx b l
  let v ← q.sub pr x sum
  if l < b.length then .ok (b.set l v) else .error .bounds

/-- The rounding (src/pvw.rs:110-112). -/
def round (pr : Profile) (q v : Nat) : Res Nat := do
  let x ← addW 64 pr v (q / 4)
  let y ← divR x (q / 2)
  .ok (y % 2)

/-- `decrypt` (src/pvw.rs:94-114). -/
def decrypt (pr : Profile) (sk : PvwSk) (params : PvwParams) (ct : PvwCiphertext) : Res (List Nat) := do
  let q ← Modulus.new params.q
  let b ← foldR (decryptStep pr params q sk ct.a) ct.b (List.range params.ell)
  mapR (round pr params.q) b

/-- One iteration of the accumulation loops of `encrypt` (src/pvw.rs:133-134, 138-139): `acc[i] += pk[m].comp[i] * e`. -/
def accStep (pr : Profile) (q : Modulus) (pk : PvwPk) (comp : PvwCiphertext → List Nat) (m e : Nat) (acc : List Nat) (i : Nat) :
    Res (List Nat) := do
  let c ← idx pk m
  let x ← idx (comp c) i
  let product ← q.mul pr x e
  let y ← idx acc i
  let v ← q.add pr y product
  if i < acc.length then .ok (acc.set i v) else .error .bounds

/-- One iteration of the outer loop of `encrypt` (src/pvw.rs:131-141); the state is `(b, a)`. `e` has `m` elements. -/
def encryptStep (pr : Profile) (params : PvwParams) (q : Modulus) (pk : PvwPk) (e : Nat → Nat) (st : List Nat × List Nat) (m : Nat) :
    Res (List Nat × List Nat) := do
  let b ← foldR (accStep pr q pk PvwCiphertext.b m (e m)) st.1 (List.range params.ell)
  let a ← foldR (accStep pr q pk PvwCiphertext.a m (e m)) st.2 (List.range params.n)
  .ok (b, a)

/-- Adding the message (src/pvw.rs:143-145). -/
def addMessage (pr : Profile) (params : PvwParams) (q : Modulus) (v mv : Nat) : Res Nat := do
  let x ← mulW 64 pr (params.q / 2) mv
  q.add pr v x

/-- `encrypt` (src/pvw.rs:120-148). -/
def encrypt (pr : Profile) (pk : PvwPk) (params : PvwParams) (msg : List Nat) (e : Nat → Nat) : Res PvwCiphertext := do
  let q ← Modulus.new params.q
  let st ← foldR (encryptStep pr params q pk e) (List.replicate params.ell 0, List.replicate params.n 0) (List.range params.m)
  let b ← zipMutM (addMessage pr params q) st.1 msg
  .ok { a := st.2, b := b }

end Pvw
end OnionPIR
