import Verif.Model.Modulus
import Verif.Model.Utils
/-
Model of /repo/src/ntt.rs.
Unchecked accesses (`get_unchecked`, pointer arithmetic) are modelled as checked ones (`idx`): a theorem that the
result is `.ok` shows that they are in bounds.
-/
namespace OnionPIR

/-- `struct NttOperator` (src/ntt.rs:7-18). -/
structure NttOperator where
  p : Modulus
  pTwice : Nat
  omegas : List Nat
  omegasInv : List Nat
  omegasShoup : List Nat
  zetasInv : List Nat
  zetasInvShoup : List Nat
  size : Nat
  sizeInv : Nat
  sizeInvShoup : Nat
  deriving DecidableEq, Repr

/-- `supports_ntt` (src/ntt.rs:201-206). `(n as u64) << 1` keeps the low 64 bits; a zero divisor panics. -/
def supportsNtt (p n : Nat) : Res Bool :=
  if ¬ (n = 2 ^ n.log2) ∨ n < 8 then .ok false
  else do
    let r ← modR p ((n <<< 1) % 2 ^ 64)
    .ok (decide (r = 1) && isPrime p)

/-- `is_primitive_root` (src/ntt.rs:233-236). The second `pow` is evaluated only if the first equals 1. -/
def isPrimitiveRoot (pr : Profile) (v n : Nat) (p : Modulus) : Res Bool := do
  dassert pr (v < p.p)
  let a ← p.pow pr v n
  if a = 1 then do
    let b ← p.pow pr v (n / 2)
    .ok (decide (b ≠ 1))
  else .ok false

/-- The `for _ in 0..100` loop of `primitive_root` (src/ntt.rs:216-225); `sample i` is the `i`-th value returned by
`rng.gen_range(0..p.p)` of the generator seeded with 0. -/
def primitiveRootLoop (pr : Profile) (p : Modulus) (n lambda : Nat) (sample : Nat → Nat) :
    (fuel : Nat) → (i : Nat) → Res Nat
  | 0, _ => .error .assert
  | fuel + 1, i => do
      let root ← p.pow pr (sample i) lambda
      let n2 ← mulW 64 pr 2 n
      let ok ← isPrimitiveRoot pr root n2 p
      if ok then .ok root else primitiveRootLoop pr p n lambda sample fuel (i + 1)

/-- `primitive_root` (src/ntt.rs:211-226). -/
def primitiveRoot (pr : Profile) (n : Nat) (p : Modulus) (sample : Nat → Nat) : Res Nat := do
  let a ← subW 64 pr p.p 1
  let b ← mulW 64 pr 2 n
  let lambda ← divR a b
  primitiveRootLoop pr p n lambda sample 100 0

/-- The loop filling `powers` (src/ntt.rs:32-37), one call per table, `count` iterations. -/
def powersLoop (pr : Profile) (p : Modulus) (omega : Nat) : (count : Nat) → (v : Nat) → Res (List Nat)
  | 0, _ => .ok []
  | count + 1, v => do
      let v' ← p.mul pr v omega
      let r ← powersLoop pr p omega count v'
      .ok (v :: r)

/-- `i.reverse_bits() >> (size.leading_zeros() + 1)` on `usize` (src/ntt.rs:45). -/
def bitrevIndex (size i : Nat) : Nat := reverseBits 64 i >>> (leadingZeros 64 size + 1)

namespace NttOperator

/-- `NttOperator::new` (src/ntt.rs:21-69). -/
def new (pr : Profile) (sample : Nat → Nat) (p : Modulus) (size : Nat) : Res NttOperator := do
  let s ← supportsNtt p.p size
  rassert (s = true)
  let omega ← primitiveRoot pr size p sample
  let omegaInv ← p.inv pr omega
  let powers ← powersLoop pr p omega (size + 1) 1
  let powersInv ← powersLoop pr p omegaInv (size + 1) 1
  let omegas ← mapR (fun i => idx powers (bitrevIndex size i)) (List.range size)
  let omegasInv ← mapR (fun i => idx powersInv (bitrevIndex size i)) (List.range size)
  let zetasInv ← mapR (fun i => idx powersInv (bitrevIndex size i + 1)) (List.range size)
  let omegasShoup ← p.shoupVec pr omegas
  let zetasInvShoup ← p.shoupVec pr zetasInv
  let sizeInv ← p.inv pr size
  let sizeInvShoup ← p.shoup pr sizeInv
  let pTwice ← mulW 64 pr p.p 2
  .ok { p := p, pTwice := pTwice, omegas := omegas, omegasInv := omegasInv, omegasShoup := omegasShoup, size := size,
        sizeInv := sizeInv, sizeInvShoup := sizeInvShoup, zetasInv := zetasInv, zetasInvShoup := zetasInvShoup }

/-- `butterfly` (src/ntt.rs:163-176). The products `self.p.p * 4` in the debug assertions cannot overflow for
moduli below `2^62`. -/
def butterfly (pr : Profile) (op : NttOperator) (x y w wShoup : Nat) : Res (Nat × Nat) := do
  dassert pr (x < op.p.p * 4)
  dassert pr (y < op.p.p * 4)
  dassert pr (w < op.p.p)
  dassertEqR pr wShoup (op.p.shoup pr w)
  let x ← Modulus.reduceCt pr x op.pTwice
  let t ← op.p.lazyMulShoup pr y w wShoup
  let xs ← addW 64 pr x op.pTwice
  let y ← subW 64 pr xs t
  let x ← addW 64 pr x t
  dassert pr (x < op.p.p * 4)
  dassert pr (y < op.p.p * 4)
  .ok (x, y)

/-- `butterfly_inv` (src/ntt.rs:178-192). -/
def butterflyInv (pr : Profile) (op : NttOperator) (x y zInv zInvShoup : Nat) : Res (Nat × Nat) := do
  dassert pr (x < op.pTwice)
  dassert pr (y < op.pTwice)
  dassert pr (zInv < op.p.p)
  dassertEqR pr zInvShoup (op.p.shoup pr zInv)
  let t := x
  let s ← addW 64 pr y t
  let x ← Modulus.reduceCt pr s op.pTwice
  let pt ← addW 64 pr op.pTwice t
  let d ← subW 64 pr pt y
  let y ← op.p.lazyMulShoup pr d zInv zInvShoup
  dassert pr (x < op.pTwice)
  dassert pr (y < op.pTwice)
  .ok (x, y)

/-- `reduce_4p` (src/ntt.rs:241-245). -/
def reduce4p (pr : Profile) (a : Nat) (p : Modulus) : Res Nat := do
  dassert pr (a < p.p * 4)
  let p2 ← mulW 64 pr 2 p.p
  let r ← Modulus.reduceCt pr a p2
  Modulus.reduceCt pr r p.p

/-- In-place update of the two positions `j` and `j + l` (the `&mut *a_ptr.add(..)` pairs). -/
def updatePair (a : List Nat) (j l : Nat) (f : Nat → Nat → Res (Nat × Nat)) : Res (List Nat) := do
  let x ← idx a j
  let y ← idx a (j + l)
  let r ← f x y
  .ok ((a.set j r.1).set (j + l) r.2)

/-- One block of the forward transform (src/ntt.rs:93-113): `l = 1` also reduces both residues to `[0, p)`. -/
def forwardBlock (pr : Profile) (op : NttOperator) (l i omega omegaShoup : Nat) (a : List Nat) : Res (List Nat) :=
  let s := 2 * i * l
  if l = 1 then
    updatePair a s 1 (fun x y => do
      let r ← op.butterfly pr x y omega omegaShoup
      let x ← reduce4p pr r.1 op.p
      let y ← reduce4p pr r.2 op.p
      .ok (x, y))
  else foldR (fun a j => updatePair a (s + j) l (fun x y => op.butterfly pr x y omega omegaShoup)) a (List.range l)

/-- One layer (`for i in 0..m`, src/ntt.rs:87-115), state = (array, k). -/
def forwardLayer (pr : Profile) (op : NttOperator) (l m k : Nat) (a : List Nat) : Res (List Nat × Nat) :=
  foldR (fun (st : List Nat × Nat) i => do
    let omega ← idx op.omegas st.2
    let omegaShoup ← idx op.omegasShoup st.2
    let a ← op.forwardBlock pr l i omega omegaShoup st.1
    .ok (a, st.2 + 1)) (a, k) (List.range m)

/-- The `while l > 0` loop (src/ntt.rs:86-119). -/
def forwardLoop (pr : Profile) (op : NttOperator) (l m k : Nat) (a : List Nat) : Res (List Nat) :=
  if h : l = 0 then .ok a
  else do
    let st ← op.forwardLayer pr l m k a
    forwardLoop pr op (l >>> 1) (m <<< 1) st.2 st.1
termination_by l
decreasing_by simp only [Nat.shiftRight_eq_div_pow]; omega

/-- `forward` (src/ntt.rs:77-120). -/
def forward (pr : Profile) (op : NttOperator) (a : List Nat) : Res (List Nat) := do
  rassert (a.length = op.size)
  op.forwardLoop pr (op.size >>> 1) 1 1 a

/-- One layer of the backward transform (src/ntt.rs:132-148). -/
def backwardLayer (pr : Profile) (op : NttOperator) (l m k : Nat) (a : List Nat) : Res (List Nat × Nat) :=
  foldR (fun (st : List Nat × Nat) i => do
    let s := 2 * i * l
    let z ← idx op.zetasInv st.2
    let zs ← idx op.zetasInvShoup st.2
    let a ← foldR (fun a j => updatePair a (s + j) l (fun x y => op.butterflyInv pr x y z zs)) st.1 (List.range l)
    .ok (a, st.2 + 1)) (a, k) (List.range m)

/-- The `while m > 0` loop (src/ntt.rs:131-151). -/
def backwardLoop (pr : Profile) (op : NttOperator) (l m k : Nat) (a : List Nat) : Res (List Nat) :=
  if h : m = 0 then .ok a
  else do
    let st ← op.backwardLayer pr l m k a
    backwardLoop pr op (l <<< 1) (m >>> 1) st.2 st.1
termination_by m
decreasing_by simp only [Nat.shiftRight_eq_div_pow]; omega

/-- `backward` (src/ntt.rs:122-156). -/
def backward (pr : Profile) (op : NttOperator) (a : List Nat) : Res (List Nat) := do
  rassert (a.length = op.size)
  let a ← op.backwardLoop pr 1 (op.size >>> 1) 0 a
  mapR (fun x => op.p.mulShoup pr x op.sizeInv op.sizeInvShoup) a

end NttOperator
end OnionPIR
