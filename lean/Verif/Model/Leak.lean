import Verif.Model.Bfv
/-
What an observer of branches, memory addresses and divisions sees: the functions that handle secrets (src/modulus.rs, src/ntt.rs, src/rq.rs,
src/rns.rs, src/utils.rs, src/bfv.rs), written a second time with a trace. Proofs/Leak shows that the values are those of the first model.

An event is the outcome of a condition in the source (`if`, `while`, the end of a `for` or of an iterator, an assertion, the overflow check of the
debug build), the index of an access to a slice, or the operands of a division (`/`, `%`) by a number that is not a literal. Multiplications,
additions, shifts and bit operations leave no event. The compiler may add or remove branches; this is not modelled.
-/
namespace OnionPIR

/-- What is observed. -/
inductive Event where
  /-- the outcome of a condition -/
  | branch (b : Bool)
  /-- the index of an access to a slice -/
  | access (i : Nat)
  /-- the operands of a division -/
  | division (a b : Nat)
  deriving DecidableEq, Repr

/-- A computation with its trace. -/
structure Lk (α : Type) where
  val : Res α
  trace : List Event

namespace Lk

instance : Monad Lk where
  pure a := ⟨.ok a, []⟩
  bind x f := match x.val with
    | .ok a => ⟨(f a).val, x.trace ++ (f a).trace⟩
    | .error e => ⟨.error e, x.trace⟩

/-- A step without events. -/
def lift {α : Type} (x : Res α) : Lk α := ⟨x, []⟩

/-- A condition that is evaluated and branched on. -/
def test (b : Bool) : Lk Bool := ⟨.ok b, [.branch b]⟩

/-- The events of an overflow check, in the debug build. -/
def checked (pr : Profile) (b : Bool) : List Event := match pr with
  | .debug => [.branch b]
  | .release => []

/-- `a + b`, see `addW`. -/
def add (w : Nat) (pr : Profile) (a b : Nat) : Lk Nat := ⟨addW w pr a b, checked pr (decide (a + b < 2 ^ w))⟩
/-- `a * b`, see `mulW`. -/
def mul (w : Nat) (pr : Profile) (a b : Nat) : Lk Nat := ⟨mulW w pr a b, checked pr (decide (a * b < 2 ^ w))⟩
/-- `a - b`, see `subW`. -/
def sub (w : Nat) (pr : Profile) (a b : Nat) : Lk Nat := ⟨subW w pr a b, checked pr (decide (b ≤ a))⟩
/-- `a / b`, see `divR`. -/
def div (a b : Nat) : Lk Nat := ⟨divR a b, [.division a b]⟩
/-- `assert!`, see `rassert`. -/
def rassert (c : Prop) [Decidable c] : Lk Unit := ⟨OnionPIR.rassert c, [.branch (decide c)]⟩
/-- `debug_assert!`, see `dassert`. -/
def dassert (pr : Profile) (c : Prop) [Decidable c] : Lk Unit := ⟨OnionPIR.dassert pr c, checked pr (decide c)⟩
/-- Access to a slice, see `idx`; the bounds check leaves no further event if it passes. -/
def idx {α : Type} (l : List α) (i : Nat) : Lk α := ⟨OnionPIR.idx l i, [.access i]⟩

/-- `debug_assert!(x == y())`, see `dassertEqR`. -/
def dassertEqR (pr : Profile) (x : Nat) (y : Lk Nat) : Lk Unit :=
  match pr with
  | .debug => do
      let v ← y
      dassert pr (x = v)
  | .release => lift (.ok ())

/-- See `mapR`; every iteration and the end are observed. -/
def map {α β : Type} (f : α → Lk β) : List α → Lk (List β)
  | [] => do
      let _ ← test false
      pure []
  | a :: as => do
      let _ ← test true
      let x ← f a
      let r ← map f as
      pure (x :: r)

/-- See `foldR`. -/
def fold {α σ : Type} (f : σ → α → Lk σ) : σ → List α → Lk σ
  | s, [] => do
      let _ ← test false
      pure s
  | s, a :: as => do
      let _ ← test true
      let s' ← f s a
      fold f s' as

/-- See `zipMutM`. -/
def zipMut {α β : Type} (f : α → β → Lk α) : List α → List β → Lk (List α)
  | [], _ => do
      let _ ← test false
      pure []
  | a :: as, [] => do
      let _ ← test false
      pure (a :: as)
  | a :: as, b :: bs => do
      let _ ← test true
      let x ← f a b
      let r ← zipMut f as bs
      pure (x :: r)

/-- See `zip3MutM`. -/
def zip3Mut {α β γ : Type} (f : α → β → γ → Lk α) : List α → List β → List γ → Lk (List α)
  | a :: as, b :: bs, c :: cs => do
      let _ ← test true
      let x ← f a b c
      let r ← zip3Mut f as bs cs
      pure (x :: r)
  | as, _, _ => do
      let _ ← test false
      pure as

end Lk

namespace Modulus

/-- `lazy_reduce_ct` (src/modulus.rs:37-47). -/
def lazyReduceCtL (pr : Profile) (m : Modulus) (a : Nat) : Lk Nat := do
  let lowFull ← Lk.mul 128 pr a m.barretLo
  let low := lowFull >>> 64
  let high ← Lk.mul 128 pr a m.barretHi
  let s ← Lk.add 128 pr high low
  let num := s >>> 64
  let np ← Lk.mul 128 pr num m.p
  let val ← Lk.sub 128 pr a np
  pure (val % 2 ^ 64)

/-- `lazy_reduce_u128` (src/modulus.rs:49-62). -/
def lazyReduceU128L (pr : Profile) (m : Modulus) (a : Nat) : Lk Nat := do
  let alo := a % 2 ^ 64
  let ahi := (a >>> 64) % 2 ^ 64
  let aloLoFull ← Lk.mul 128 pr alo m.barretLo
  let aloLo := aloLoFull >>> 64
  let aloHi ← Lk.mul 128 pr alo m.barretHi
  let ahiLo ← Lk.mul 128 pr ahi m.barretLo
  let ahiHi ← Lk.mul 128 pr ahi m.barretHi
  let s1 ← Lk.add 128 pr aloHi ahiLo
  let s2 ← Lk.add 128 pr s1 aloLo
  let num ← Lk.add 128 pr (s2 >>> 64) ahiHi
  let np ← Lk.mul 128 pr num m.p
  let val ← Lk.sub 128 pr a np
  pure (val % 2 ^ 64)

/-- The last assertion of `reduce_ct` (src/modulus.rs:85): `r == x % p` divides, in the debug build only. -/
def reduceCtCheckL (pr : Profile) (r x p : Nat) : Lk Unit :=
  match pr with
  | .debug => ⟨dassert .debug (r = x % p), [.division x p, .branch (decide (r = x % p))]⟩
  | .release => Lk.lift (.ok ())

/-- The selection in `reduce_ct` (src/modulus.rs:76-83): wrapping subtractions, shifts and bit operations. -/
def ctSelect (x p : Nat) : Nat :=
  let y := (x + 2 ^ 64 - p) % 2 ^ 64
  let xp := x ^^^ p
  let yp := y ^^^ p
  let xy := xp ^^^ yp
  let xxy := x ^^^ xy
  let xxy := xxy >>> 63
  let c := (xxy + 2 ^ 64 - 1) % 2 ^ 64
  (c &&& y) ||| ((2 ^ 64 - 1 - c) &&& x)

/-- The end of `reduce_ct` (src/modulus.rs:85-86). -/
def reduceCtEndL (pr : Profile) (r x p : Nat) : Lk Nat := do
  reduceCtCheckL pr r x p
  pure r

/-- `reduce_ct` (src/modulus.rs:72-87). -/
def reduceCtL (pr : Profile) (x p : Nat) : Lk Nat := do
  Lk.dassert pr (p >>> 63 = 0)
  Lk.dassert pr (x < 2 * p)
  reduceCtEndL pr (ctSelect x p) x p

/-- `reduce` (src/modulus.rs:89-91). -/
def reduceL (pr : Profile) (m : Modulus) (a : Nat) : Lk Nat := do
  let v ← lazyReduceCtL pr m a
  reduceCtL pr v m.p

/-- `reduce_u128` (src/modulus.rs:93-95). -/
def reduceU128L (pr : Profile) (m : Modulus) (a : Nat) : Lk Nat := do
  let v ← lazyReduceU128L pr m a
  reduceCtL pr v m.p

/-- `reduce_i64` (src/modulus.rs:103-105). -/
def reduceI64L (pr : Profile) (m : Modulus) (a : Int) : Lk Nat :=
  reduceU128L pr m ((((m.p <<< 64 : Nat) : Int) + a) % (2 ^ 128 : Int)).toNat

/-- `reduce_vec_u64` (src/modulus.rs:107-109). -/
def reduceVecU64L (pr : Profile) (m : Modulus) (a : List Nat) : Lk (List Nat) := Lk.map (reduceL pr m) a
/-- `reduce_vec_i64` (src/modulus.rs:111-113). -/
def reduceVecI64L (pr : Profile) (m : Modulus) (a : List Int) : Lk (List Nat) := Lk.map (reduceI64L pr m) a

/-- `mul` (src/modulus.rs:182-186). -/
def mulL (pr : Profile) (m : Modulus) (a b : Nat) : Lk Nat := do
  Lk.dassert pr (a < m.p)
  Lk.dassert pr (b < m.p)
  let ab ← Lk.mul 128 pr a b
  reduceU128L pr m ab

/-- The `while bits >= 0` loop of `pow` (src/modulus.rs:133-142): the loop condition and the tested bit of the exponent are observed. -/
def powLoopL (pr : Profile) (m : Modulus) (a r : Nat) : (n : Nat) → (val : Nat) → Lk Nat
  | 0, val => do
      let _ ← Lk.test false
      pure val
  | n + 1, val => do
      let _ ← Lk.test true
      let val ← mulL pr m val val
      let b ← Lk.test (decide ((r >>> n) % 2 = 1))
      let val ← if b then mulL pr m val a else pure val
      powLoopL pr m a r n val

/-- `pow` (src/modulus.rs:122-145). -/
def powL (pr : Profile) (m : Modulus) (a r : Nat) : Lk Nat := do
  Lk.dassert pr (a < m.p ∧ r < m.p)
  let z ← Lk.test (decide (r = 0))
  if z then pure 1
  else do
    let o ← Lk.test (decide (r = 1))
    if o then pure a
    else do
      let bits ← Lk.sub 32 pr 62 (leadingZeros 64 r)
      powLoopL pr m a r (bits + 1) a

/-- `inv` (src/modulus.rs:153-156). -/
def invL (pr : Profile) (m : Modulus) (a : Nat) : Lk Nat := do
  Lk.dassert pr (a < m.p ∧ a ≠ 0)
  let e ← Lk.sub 64 pr m.p 2
  powL pr m a e

/-- `add` (src/modulus.rs:169-173). -/
def addL (pr : Profile) (m : Modulus) (a b : Nat) : Lk Nat := do
  Lk.dassert pr (a < m.p)
  Lk.dassert pr (b < m.p)
  let s ← Lk.add 64 pr a b
  reduceCtL pr s m.p

/-- `sub` (src/modulus.rs:175-180). -/
def subL (pr : Profile) (m : Modulus) (a b : Nat) : Lk Nat := do
  Lk.dassert pr (a < m.p)
  Lk.dassert pr (b < m.p)
  let d ← Lk.sub 64 pr m.p b
  let s ← Lk.add 64 pr a d
  reduceCtL pr s m.p

/-- `neg` (src/modulus.rs:188-191). -/
def negL (pr : Profile) (m : Modulus) (a : Nat) : Lk Nat := do
  Lk.dassert pr (a < m.p)
  let d ← Lk.sub 64 pr m.p a
  reduceCtL pr d m.p

/-- `add_vec` (src/modulus.rs:193-195). -/
def addVecL (pr : Profile) (m : Modulus) (a b : List Nat) : Lk (List Nat) := Lk.zipMut (addL pr m) a b
/-- `sub_vec` (src/modulus.rs:197-199). -/
def subVecL (pr : Profile) (m : Modulus) (a b : List Nat) : Lk (List Nat) := Lk.zipMut (subL pr m) a b
/-- `mul_vec` (src/modulus.rs:201-203). -/
def mulVecL (pr : Profile) (m : Modulus) (a b : List Nat) : Lk (List Nat) := Lk.zipMut (mulL pr m) a b
/-- `neg_vec` (src/modulus.rs:205-207). -/
def negVecL (pr : Profile) (m : Modulus) (a : List Nat) : Lk (List Nat) := Lk.map (negL pr m) a

/-- `shoup` (src/modulus.rs:214-217): a 128-bit division. -/
def shoupL (pr : Profile) (m : Modulus) (a : Nat) : Lk Nat := do
  Lk.dassert pr (a < m.p)
  let q ← Lk.div (a <<< 64) m.p
  pure (q % 2 ^ 64)

/-- `lazy_mul_shoup` (src/modulus.rs:230-242). -/
def lazyMulShoupL (pr : Profile) (m : Modulus) (a b bShoup : Nat) : Lk Nat := do
  Lk.dassert pr (b < m.p)
  Lk.dassertEqR pr bShoup (shoupL pr m b)
  let aq ← Lk.mul 128 pr a bShoup
  let q := aq >>> 64
  let ab ← Lk.mul 128 pr a b
  let qp ← Lk.mul 128 pr q m.p
  let d ← Lk.sub 128 pr ab qp
  let r := d % 2 ^ 64
  Lk.dassert pr (r < m.p * 2)
  pure r

/-- `mul_shoup` (src/modulus.rs:223-225). -/
def mulShoupL (pr : Profile) (m : Modulus) (a b bShoup : Nat) : Lk Nat := do
  let r ← lazyMulShoupL pr m a b bShoup
  reduceCtL pr r m.p

end Modulus

namespace NttOperator

/-- `butterfly` (src/ntt.rs:163-176). -/
def butterflyL (pr : Profile) (op : NttOperator) (x y w wShoup : Nat) : Lk (Nat × Nat) := do
  Lk.dassert pr (x < op.p.p * 4)
  Lk.dassert pr (y < op.p.p * 4)
  Lk.dassert pr (w < op.p.p)
  Lk.dassertEqR pr wShoup (op.p.shoupL pr w)
  let x ← Modulus.reduceCtL pr x op.pTwice
  let t ← op.p.lazyMulShoupL pr y w wShoup
  let xs ← Lk.add 64 pr x op.pTwice
  let y ← Lk.sub 64 pr xs t
  let x ← Lk.add 64 pr x t
  Lk.dassert pr (x < op.p.p * 4)
  Lk.dassert pr (y < op.p.p * 4)
  pure (x, y)

/-- `butterfly_inv` (src/ntt.rs:178-192). -/
def butterflyInvL (pr : Profile) (op : NttOperator) (x y zInv zInvShoup : Nat) : Lk (Nat × Nat) := do
  Lk.dassert pr (x < op.pTwice)
  Lk.dassert pr (y < op.pTwice)
  Lk.dassert pr (zInv < op.p.p)
  Lk.dassertEqR pr zInvShoup (op.p.shoupL pr zInv)
  let t := x
  let s ← Lk.add 64 pr y t
  let x ← Modulus.reduceCtL pr s op.pTwice
  let pt ← Lk.add 64 pr op.pTwice t
  let d ← Lk.sub 64 pr pt y
  let y ← op.p.lazyMulShoupL pr d zInv zInvShoup
  Lk.dassert pr (x < op.pTwice)
  Lk.dassert pr (y < op.pTwice)
  pure (x, y)

/-- `reduce_4p` (src/ntt.rs:241-245). -/
def reduce4pL (pr : Profile) (a : Nat) (p : Modulus) : Lk Nat := do
  Lk.dassert pr (a < p.p * 4)
  let p2 ← Lk.mul 64 pr 2 p.p
  let r ← Modulus.reduceCtL pr a p2
  Modulus.reduceCtL pr r p.p

/-- The pairs `&mut *a_ptr.add(..)`. -/
def updatePairL (a : List Nat) (j l : Nat) (f : Nat → Nat → Lk (Nat × Nat)) : Lk (List Nat) := do
  let x ← Lk.idx a j
  let y ← Lk.idx a (j + l)
  let r ← f x y
  pure ((a.set j r.1).set (j + l) r.2)

/-- One block of the forward transform (src/ntt.rs:93-113). -/
def forwardBlockL (pr : Profile) (op : NttOperator) (l i omega omegaShoup : Nat) (a : List Nat) : Lk (List Nat) := do
  let s := 2 * i * l
  let b ← Lk.test (decide (l = 1))
  if b then
    updatePairL a s 1 (fun x y => do
      let r ← op.butterflyL pr x y omega omegaShoup
      let x ← reduce4pL pr r.1 op.p
      let y ← reduce4pL pr r.2 op.p
      pure (x, y))
  else Lk.fold (fun a j => updatePairL a (s + j) l (fun x y => op.butterflyL pr x y omega omegaShoup)) a (List.range l)

/-- One layer (`for i in 0..m`, src/ntt.rs:87-115). -/
def forwardLayerL (pr : Profile) (op : NttOperator) (l m k : Nat) (a : List Nat) : Lk (List Nat × Nat) :=
  Lk.fold (fun (st : List Nat × Nat) i => do
    let omega ← Lk.idx op.omegas st.2
    let omegaShoup ← Lk.idx op.omegasShoup st.2
    let a ← op.forwardBlockL pr l i omega omegaShoup st.1
    pure (a, st.2 + 1)) (a, k) (List.range m)

/-- The `while l > 0` loop (src/ntt.rs:86-119). -/
def forwardLoopL (pr : Profile) (op : NttOperator) (l m k : Nat) (a : List Nat) : Lk (List Nat) :=
  if h : l = 0 then do
    let _ ← Lk.test false
    pure a
  else do
    let _ ← Lk.test true
    let st ← op.forwardLayerL pr l m k a
    forwardLoopL pr op (l >>> 1) (m <<< 1) st.2 st.1
termination_by l
decreasing_by simp only [Nat.shiftRight_eq_div_pow]; omega

/-- `forward` (src/ntt.rs:77-120). -/
def forwardL (pr : Profile) (op : NttOperator) (a : List Nat) : Lk (List Nat) := do
  Lk.rassert (a.length = op.size)
  op.forwardLoopL pr (op.size >>> 1) 1 1 a

/-- One layer of the backward transform (src/ntt.rs:132-148). -/
def backwardLayerL (pr : Profile) (op : NttOperator) (l m k : Nat) (a : List Nat) : Lk (List Nat × Nat) :=
  Lk.fold (fun (st : List Nat × Nat) i => do
    let s := 2 * i * l
    let z ← Lk.idx op.zetasInv st.2
    let zs ← Lk.idx op.zetasInvShoup st.2
    let a ← Lk.fold (fun a j => updatePairL a (s + j) l (fun x y => op.butterflyInvL pr x y z zs)) st.1 (List.range l)
    pure (a, st.2 + 1)) (a, k) (List.range m)

/-- The `while m > 0` loop (src/ntt.rs:131-151). -/
def backwardLoopL (pr : Profile) (op : NttOperator) (l m k : Nat) (a : List Nat) : Lk (List Nat) :=
  if h : m = 0 then do
    let _ ← Lk.test false
    pure a
  else do
    let _ ← Lk.test true
    let st ← op.backwardLayerL pr l m k a
    backwardLoopL pr op (l <<< 1) (m >>> 1) st.2 st.1
termination_by m
decreasing_by simp only [Nat.shiftRight_eq_div_pow]; omega

/-- `backward` (src/ntt.rs:122-156). -/
def backwardL (pr : Profile) (op : NttOperator) (a : List Nat) : Lk (List Nat) := do
  Lk.rassert (a.length = op.size)
  let a ← op.backwardLoopL pr 1 (op.size >>> 1) 0 a
  Lk.map (fun x => op.p.mulShoupL pr x op.sizeInv op.sizeInvShoup) a

end NttOperator

/-- One iteration of the loop of `sample_vec_cbd` (src/utils.rs:70-82). -/
def cbdStepL (pr : Profile) (rng : Nat → Nat) (variance : Nat) (s : CbdState) : Lk CbdState := do
  let numberBits := 4 * variance
  let maskAdd := ((2 ^ 64 - 1) >>> (64 - numberBits)) >>> (2 * variance)
  let maskSub := (maskAdd <<< (2 * variance)) % 2 ^ 128
  let b ← Lk.test (decide (s.nbits < numberBits))
  let s := if b then
      { s with pool := s.pool ||| ((rng s.pos <<< s.nbits) % 2 ^ 128), nbits := s.nbits + 64, pos := s.pos + 1 }
    else s
  Lk.dassert pr (numberBits ≤ s.nbits)
  let v : Int := (countOnes 128 (s.pool &&& maskAdd) : Int) - (countOnes 128 (s.pool &&& maskSub) : Int)
  let nb ← Lk.sub 64 pr s.nbits numberBits
  pure { pool := s.pool >>> numberBits, nbits := nb, pos := s.pos, out := s.out ++ [v] }

/-- `sample_vec_cbd` (src/utils.rs:54-85). -/
def sampleVecCbdL (pr : Profile) (rng : Nat → Nat) (vectorSize variance : Nat) : Lk (List Int) := do
  Lk.rassert (variance ≥ 1 ∧ variance ≤ 16)
  let s ← Lk.fold (fun s _ => cbdStepL pr rng variance s) ⟨0, 0, 0, []⟩ (List.range vectorSize)
  pure s.out

namespace Poly

/-- `change_representation` (src/rq.rs:272-310). The representations are tags of the operands, matched without an event for the tag itself
(C93 compares runs on operands with the same tags). -/
def changeRepresentationL (pr : Profile) (p : Poly) (tgt : Representation) : Lk Poly :=
  match p.representation, tgt with
  | .powerBasis, .ntt => do
      let c ← Lk.zipMut (fun row (op : NttOperator) => op.forwardL pr row) p.coefficients p.context.nttOps
      pure { p with coefficients := c, representation := .ntt }
  | .powerBasis, .powerBasis => pure p
  | .ntt, .powerBasis => do
      let c ← Lk.zipMut (fun row (op : NttOperator) => op.backwardL pr row) p.coefficients p.context.nttOps
      pure { p with coefficients := c, representation := .powerBasis }
  | .ntt, .ntt => pure p
  | _, _ => Lk.lift (.error .todo)

/-- `try_from_vec_i64` (src/rq.rs:524-531). -/
def tryFromVecI64L (pr : Profile) (ctx : RqContext) (a : List Int) : Lk Poly := do
  let c ← Lk.zipMut (fun coeffs (q : Modulus) => do
    let v ← q.reduceVecI64L pr a
    Lk.lift (copyPrefix coeffs v)) (zero ctx .powerBasis).coefficients ctx.moduli
  pure { zero ctx .powerBasis with coefficients := c }

/-- `random_small` (src/rq.rs:501-513). -/
def randomSmallL (pr : Profile) (ctx : RqContext) (rep : Representation) (variance : Nat) (rng : Nat → Nat) : Lk Poly := do
  let values ← sampleVecCbdL pr rng ctx.degree variance
  let poly ← tryFromVecI64L pr ctx values
  poly.changeRepresentationL pr rep

/-- `AddAssign<&Poly>` and `Add<&Poly>` (src/rq.rs:545-568). -/
def addL (pr : Profile) (a b : Poly) : Lk Poly := do
  Lk.rassert (a.representation = .ntt)
  Lk.rassert (b.representation = .ntt)
  let c ← Lk.zip3Mut (fun x y (q : Modulus) => q.addVecL pr x y) a.coefficients b.coefficients a.context.moduli
  pure { a with coefficients := c }

/-- `SubAssign<&Poly>` and `Sub<&Poly>` (src/rq.rs:570-593). -/
def subL (pr : Profile) (a b : Poly) : Lk Poly := do
  Lk.rassert (a.representation = .ntt)
  Lk.rassert (b.representation = .ntt)
  let c ← Lk.zip3Mut (fun x y (q : Modulus) => q.subVecL pr x y) a.coefficients b.coefficients a.context.moduli
  pure { a with coefficients := c }

/-- `MulAssign<&Poly>` and `Mul<&Poly>` (src/rq.rs:595-609, 630-637). -/
def mulL (pr : Profile) (a b : Poly) : Lk Poly := do
  Lk.rassert (a.representation = .ntt)
  Lk.rassert (b.representation = .ntt)
  let c ← Lk.zip3Mut (fun x y (q : Modulus) => q.mulVecL pr x y) a.coefficients b.coefficients a.context.moduli
  pure { a with coefficients := c }

end Poly

namespace RnsScaler

/-- The words of `ri * (lo + 2^64 hi)` (src/rns.rs:315-321 and 335-336). -/
def mulWordsL (pr : Profile) (ri tLo tHi : Nat) : Lk (Nat × Nat × Nat) := do
  let lo ← Lk.mul 128 pr ri tLo
  let h ← Lk.mul 128 pr ri tHi
  let hi ← Lk.add 128 pr h (lo >>> 64)
  pure (lo % 2 ^ 64, hi % 2 ^ 64, (hi >>> 64) % 2 ^ 64)

/-- The loop summing `theta_garner_i * r_i` (src/rns.rs:309-322). -/
def sumThetaGarnerL (pr : Profile) : List Nat → List Nat → List Nat → Nat → Lk Nat
  | tl :: tls, th :: ths, r :: rs, acc => do
      let _ ← Lk.test true
      let w ← mulWordsL pr r tl th
      sumThetaGarnerL pr tls ths rs ((acc + (w.1 + w.2.1 * 2 ^ 64 + w.2.2 * 2 ^ 128)) % 2 ^ 192)
  | _, _, _, acc => do
      let _ ← Lk.test false
      pure acc

/-- `div_ceil(x, 2)` (src/utils.rs:101-104): the divisor is the literal 2, so the division is a shift and leaves no event. -/
def divCeil2L (w : Nat) (pr : Profile) (a : Nat) : Lk Nat := do
  Lk.rassert ((2 : Nat) ≠ 0)
  let s ← Lk.add w pr a 2
  let s ← Lk.sub w pr s 1
  Lk.lift (divR s 2)

/-- `v = round(sum_theta_garner / 2^theta_garner_shift)` (src/rns.rs:309-326). -/
def scaleVL (pr : Profile) (s : RnsScaler) (rests : List Nat) : Lk Nat := do
  let sum ← sumThetaGarnerL pr s.thetaGarnerLo s.thetaGarnerHi rests 0
  let k ← Lk.sub 64 pr s.thetaGarnerShift 1
  let sum := sum >>> k
  divCeil2L 128 pr (sum % 2 ^ 128)

/-- The loop summing `± theta_omega_i * r_i` (src/rns.rs:333-357); the branch on the stored sign is observed. -/
def sumThetaOmegaL (pr : Profile) : List Nat → List Nat → List Bool → List Nat → U256 → Lk U256
  | tl :: tls, th :: ths, sg :: sgs, r :: rs, acc => do
      let _ ← Lk.test true
      let w ← mulWordsL pr r tl th
      let t := U256.ofU64s w.1 w.2.1 w.2.2 0
      let b ← Lk.test sg
      sumThetaOmegaL pr tls ths sgs rs (if b then acc.wrappingSub t else acc.wrappingAdd t)
  | _, _, _, _, acc => do
      let _ ← Lk.test false
      pure acc

/-- `v * theta_gamma` (src/rns.rs:360-366). -/
def vThetaGammaL (pr : Profile) (v tLo tHi : Nat) : Lk U256 := do
  let loLo ← Lk.mul 128 pr (v % 2 ^ 64) tLo
  let loHi ← Lk.mul 128 pr (v % 2 ^ 64) tHi
  let hiLo ← Lk.mul 128 pr (v >>> 64) tLo
  let hiHi ← Lk.mul 128 pr (v >>> 64) tHi
  let m1 ← Lk.add 128 pr (loLo >>> 64) (loHi % 2 ^ 64)
  let mi ← Lk.add 128 pr m1 (hiLo % 2 ^ 64)
  let h1 ← Lk.add 128 pr (loHi >>> 64) (mi >>> 64)
  let hi ← Lk.add 128 pr h1 (hiHi % 2 ^ 64)
  pure (U256.ofU64s (loLo % 2 ^ 64) (mi % 2 ^ 64) (hi % 2 ^ 64) 0)

/-- `>> 126` on a `U256` (src/utils.rs:254-290): the branches depend on the literal 126 only. -/
def shr126L (pr : Profile) (x : U256) : Lk U256 := ⟨x.shr pr 126, [.branch false, .branch false, .branch false, .branch true]⟩

/-- `u128::from(&U256)` (src/utils.rs:229-234). -/
def toU128L (pr : Profile) (x : U256) : Lk Nat := do
  Lk.dassert pr (x.l2 = 0 ∧ x.l3 = 0)
  Lk.add 128 pr x.l0 (x.l1 <<< 64)

/-- `w = round(sum_theta_omega / 2^127)` with its sign (src/rns.rs:384-392); the branch on the sign is observed. -/
def roundWL (pr : Profile) (sum : U256) : Lk (Bool × Nat) := do
  let b ← Lk.test (decide (sum.msb > 0))
  if b then do
    let x ← shr126L pr sum.not
    let w ← toU128L pr x
    let w ← Lk.add 128 pr w 1
    pure (true, w / 2)
  else do
    let x ← shr126L pr sum
    let w ← toU128L pr x
    let w ← divCeil2L 128 pr w
    pure (false, w)

/-- The computation of `(w_sign, w)` (src/rns.rs:330-393). -/
def scaleWL (pr : Profile) (s : RnsScaler) (rests : List Nat) (v : Nat) : Lk (Bool × Nat) := do
  let b ← Lk.test (!s.scalingFactor.isOne)
  if b then do
    let sum ← sumThetaOmegaL pr s.thetaOmegaLo s.thetaOmegaHi s.thetaOmegaSign rests U256.zero
    let vt ← vThetaGammaL pr v s.thetaGammaLo s.thetaGammaHi
    let g ← Lk.test s.thetaGammaSign
    let sum := if g then sum.wrappingAdd vt else sum.wrappingSub vt
    roundWL pr sum
  else pure (false, 0)

/-- The inner product added to `yi` (src/rns.rs:420-426); `j` is the index of the access. -/
def addOmegaL (pr : Profile) (qi : Modulus) : List Nat → List Nat → List Nat → Nat → Nat → Lk Nat
  | r :: rs, o :: os, sh :: shs, j, yi => do
      let _ ← Lk.test true
      let l ← (⟨.ok (), [.access j]⟩ : Lk Unit) >>= fun _ => qi.lazyMulShoupL pr r o sh
      let yi ← Lk.add 128 pr yi l
      addOmegaL pr qi rs os shs (j + 1) yi
  | [], _, _, _, yi => do
      let _ ← Lk.test false
      pure yi
  | _, _, _, _, _ => Lk.lift (.error .bounds)

/-- `wi` or `2 * qi - wi` (src/rns.rs:415): a branch on the sign of `w`. -/
def signedWL (pr : Profile) (qi : Modulus) (wSign : Bool) (wi : Nat) : Lk Nat := do
  let b ← Lk.test wSign
  if b then do
    let q2 ← Lk.mul 64 pr qi.p 2
    Lk.sub 64 pr q2 wi
  else pure wi

/-- The addition of `± w` to `yi` unless the factor is one (src/rns.rs:413-416). -/
def addWTermL (pr : Profile) (s : RnsScaler) (qi : Modulus) (wSign : Bool) (w yi : Nat) : Lk Nat := do
  let b ← Lk.test (!s.scalingFactor.isOne)
  if b then do
    let wi ← qi.lazyReduceU128L pr w
    let t ← signedWL pr qi wSign wi
    Lk.add 128 pr yi t
  else pure yi

/-- One output residue (src/rns.rs:396-429). -/
def scaleOutL (pr : Profile) (s : RnsScaler) (rests : List Nat) (v : Nat) (wSign : Bool) (w j : Nat) : Lk Nat := do
  let qi ← Lk.idx s.dst.moduli j
  let om ← Lk.idx s.omega j
  let oms ← Lk.idx s.omegaShoup j
  let g ← Lk.idx s.gamma j
  let gs ← Lk.idx s.gammaShoup j
  let vr ← qi.reduceU128L pr v
  let l ← qi.lazyMulShoupL pr vr g gs
  let q2 ← Lk.mul 64 pr qi.p 2
  let yi ← Lk.sub 64 pr q2 l
  let yi ← addWTermL pr s qi wSign w yi
  let yi ← addOmegaL pr qi rests om oms 0 yi
  qi.reduceU128L pr yi

/-- `RnsScaler::scale` (src/rns.rs:298-431). -/
def scaleL (pr : Profile) (s : RnsScaler) (rests : List Nat) (outLen startingIndex : Nat) : Lk (List Nat) := do
  Lk.dassert pr (rests.length = s.src.moduliU64.length)
  Lk.dassert pr (outLen ≠ 0)
  Lk.dassert pr (startingIndex + outLen ≤ s.dst.moduliU64.length)
  let v ← scaleVL pr s rests
  let w ← scaleWL pr s rests v
  Lk.map (fun i => scaleOutL pr s rests v w.1 w.2 (startingIndex + i)) (List.range outLen)

end RnsScaler

namespace RqScaler

/-- The `j`-th item of `coefficients.axis_iter(Axis(1))`: a view, read through the column accesses. -/
def columnL (p : Poly) (j : Nat) : Lk (List Nat) := ⟨p.column j, [.access j]⟩

/-- The scaled columns (src/rq.rs:132-143). -/
def scaleColumnsL (pr : Profile) (s : RqScaler) (p : Poly) : Lk (List (List Nat)) := do
  let b ← Lk.test (decide (s.numberCommonModuli < s.dst.moduli64.length))
  if b then
    Lk.map (fun j => do
      let col ← columnL p j
      s.rnsScaler.scaleL pr col (s.dst.moduli.length - s.numberCommonModuli) s.numberCommonModuli) (List.range s.src.degree)
  else pure []

/-- `scale` on a power-basis polynomial (src/rq.rs:119-150); the copies into the result have fixed positions and leave no event. -/
def scalePowerL (pr : Profile) (s : RqScaler) (p : Poly) : Lk Poly := do
  let cols ← scaleColumnsL pr s p
  let rows ← Lk.lift (mapR (fun i =>
    if i < s.numberCommonModuli then idx p.coefficients i
    else mapR (fun col => idx col (i - s.numberCommonModuli)) cols) (List.range s.dst.moduli.length))
  pure { context := s.dst, representation := .powerBasis, coefficients := rows }

/-- `scale` (src/rq.rs:107-151), for a polynomial in power basis, as `decrypt` calls it. -/
def scaleL (pr : Profile) (s : RqScaler) (p : Poly) : Lk Poly := do
  Lk.rassert (p.context = s.src)
  let b ← Lk.test (decide (p.representation ≠ .powerBasis))
  if b then do
    let tmp ← p.changeRepresentationL pr .powerBasis
    let tmp ← scalePowerL pr s tmp
    tmp.changeRepresentationL pr p.representation
  else scalePowerL pr s p

end RqScaler

namespace SecretKey

/-- `SecretKey::generate` (src/bfv.rs:279-290). -/
def generateL (pr : Profile) (P : BfvParameters) (rng : Nat → Nat) : Lk SecretKey := do
  let coeffs ← sampleVecCbdL pr rng P.degree P.variance
  pure { params := P, coeffs := coeffs }

/-- The secret key in NTT form, see `polyNtt`. -/
def polyNttL (pr : Profile) (sk : SecretKey) (ctx : RqContext) : Lk Poly := do
  let s ← Poly.tryFromVecI64L pr ctx sk.coeffs
  s.changeRepresentationL pr .ntt

/-- `encrypt_poly` (src/bfv.rs:299-329). Drawing the public mask `a` leaves no event. -/
def encryptPolyL (pr : Profile) (sk : SecretKey) (pt : Poly) (aTape : Nat → Nat → Nat) (rng : Nat → Nat) : Lk BfvCipherText := do
  let s ← sk.polyNttL pr pt.context
  let a := Poly.random pt.context aTape .ntt
  let as ← a.mulL pr s
  let b ← Poly.randomSmallL pr pt.context .ntt sk.params.variance rng
  let b ← b.subL pr as
  let b ← b.addL pr pt
  pure { cts := [b, a], params := sk.params, level := 0 }

/-- `decrypt_trial` (src/bfv.rs:336-345). -/
def decryptTrialL (pr : Profile) (sk : SecretKey) (ct0 ct1 : Poly) : Lk Poly := do
  Lk.rassert (ct0.context = ct1.context)
  let s ← sk.polyNttL pr ct0.context
  let v ← s.mulL pr ct1
  v.addL pr ct0

/-- The loop of `decrypt` (src/bfv.rs:353-356). -/
def phaseStepL (pr : Profile) (s : Poly) (st : Poly × Poly) (c : Poly) : Lk (Poly × Poly) := do
  let x ← st.2.mulL pr c
  let m ← st.1.addL pr x
  let si ← st.2.mulL pr s
  pure (m, si)

/-- The part of `decrypt` that computes `c0 + c1*s + c2*s^2 + …` (src/bfv.rs:348-356). -/
def phaseL (pr : Profile) (sk : SecretKey) (cts : List Poly) : Lk Poly := do
  let c0 ← Lk.idx cts 0
  let s ← sk.polyNttL pr c0.context
  let st ← Lk.fold (phaseStepL pr s) (c0, s) (cts.drop 1)
  pure st.1

/-- `decrypt` (src/bfv.rs:347-382). `Modulus::new` divides public numbers only. -/
def decryptL (pr : Profile) (sk : SecretKey) (ct : BfvCipherText) : Lk Plaintext := do
  let m ← sk.phaseL pr ct.cts
  let m ← m.changeRepresentationL pr .powerBasis
  let scaler ← Lk.idx sk.params.scalars ct.level
  let m ← scaler.scaleL pr m
  let row ← Lk.lift (idx m.coefficients 0)
  let row ← Lk.map (fun a => Lk.add 64 pr a sk.params.plaintextModulus) row
  let row ← Lk.lift (takeR row sk.params.degree)
  let ctx ← Lk.idx sk.params.qCtxs ct.level
  let q ← Lk.lift (idx ctx.moduli 0)
  let row ← q.reduceVecU64L pr row
  let tm ← Lk.lift (Modulus.new sk.params.plaintextModulus)
  let row ← tm.reduceVecU64L pr row
  pure { params := sk.params, values := row, level := ct.level, encoding := .none }

end SecretKey
end OnionPIR
