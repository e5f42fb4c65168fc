import Verif.Model.Machine
/-
Model of /repo/src/modulus.rs.
`u64` values are `Nat`s; `random`/`random_vec` are not functions here: their results are tape inputs of the callers.
-/
namespace OnionPIR

/-- `struct Modulus` (src/modulus.rs:7-11). -/
structure Modulus where
  p : Nat
  barretHi : Nat
  barretLo : Nat
  deriving DecidableEq, Repr

namespace Modulus

/-- `Modulus::new` (src/modulus.rs:18-29). `2^128 / p` panics on `p = 0`;
`to_u128().unwrap()` panics when the quotient is `2^128` (`p = 1`). -/
def new (p : Nat) : Res Modulus := do
  rassert (p < 2 ∨ p >>> 62 = 0)
  let r ← divR (2 ^ 128) p
  let r ← unwrapR (if r < 2 ^ 128 then some r else none)
  .ok { p := p, barretHi := (r >>> 64) % 2 ^ 64, barretLo := r % 2 ^ 64 }

/-- `lazy_reduce_ct` (src/modulus.rs:37-47). -/
def lazyReduceCt (pr : Profile) (m : Modulus) (a : Nat) : Res Nat := do
  let lowFull ← mulW 128 pr a m.barretLo
  let low := lowFull >>> 64
  let high ← mulW 128 pr a m.barretHi
  let s ← addW 128 pr high low
  let num := s >>> 64
  let np ← mulW 128 pr num m.p
  let val ← subW 128 pr a np
  .ok (val % 2 ^ 64)

/-- `lazy_reduce_u128` (src/modulus.rs:49-62). -/
def lazyReduceU128 (pr : Profile) (m : Modulus) (a : Nat) : Res Nat := do
  let alo := a % 2 ^ 64
  let ahi := (a >>> 64) % 2 ^ 64
  let aloLoFull ← mulW 128 pr alo m.barretLo
  let aloLo := aloLoFull >>> 64
  let aloHi ← mulW 128 pr alo m.barretHi
  let ahiLo ← mulW 128 pr ahi m.barretLo
  let ahiHi ← mulW 128 pr ahi m.barretHi
  let s1 ← addW 128 pr aloHi ahiLo
  let s2 ← addW 128 pr s1 aloLo
  let num ← addW 128 pr (s2 >>> 64) ahiHi
  let np ← mulW 128 pr num m.p
  let val ← subW 128 pr a np
  .ok (val % 2 ^ 64)

/-- `reduce_ct` (src/modulus.rs:72-87). The `2 * p` inside the second `debug_assert!` cannot overflow
after the first one passed. -/
def reduceCt (pr : Profile) (x p : Nat) : Res Nat := do
  dassert pr (p >>> 63 = 0)
  dassert pr (x < 2 * p)
  let y := (x + 2 ^ 64 - p) % 2 ^ 64
  let xp := x ^^^ p
  let yp := y ^^^ p
  let xy := xp ^^^ yp
  let xxy := x ^^^ xy
  let xxy := xxy >>> 63
  let c := (xxy + 2 ^ 64 - 1) % 2 ^ 64
  let r := (c &&& y) ||| ((2 ^ 64 - 1 - c) &&& x)
  dassert pr (r = x % p)
  .ok r

/-- `reduce` (src/modulus.rs:89-91). -/
def reduce (pr : Profile) (m : Modulus) (a : Nat) : Res Nat := do
  let v ← lazyReduceCt pr m a
  reduceCt pr v m.p

/-- `reduce_u128` (src/modulus.rs:93-95). -/
def reduceU128 (pr : Profile) (m : Modulus) (a : Nat) : Res Nat := do
  let v ← lazyReduceU128 pr m a
  reduceCt pr v m.p

/-- `reduce_biguint` (src/modulus.rs:98-100). -/
def reduceBigUint (m : Modulus) (a : Nat) : Res Nat := do
  let r ← modR a m.p
  unwrapR (if r < 2 ^ 64 then some r else none)

/-- `reduce_i64` (src/modulus.rs:103-105). The `i128` sum is computed exactly (it cannot overflow for
`p < 2^62`, `|a| ≤ 2^63`); the cast `as u128` is reduction modulo `2^128`. -/
def reduceI64 (pr : Profile) (m : Modulus) (a : Int) : Res Nat :=
  reduceU128 pr m ((((m.p <<< 64 : Nat) : Int) + a) % (2 ^ 128 : Int)).toNat

/-- `reduce_vec_u64` (src/modulus.rs:107-109). -/
def reduceVecU64 (pr : Profile) (m : Modulus) (a : List Nat) : Res (List Nat) := mapR (reduce pr m) a
/-- `reduce_vec_i64` (src/modulus.rs:111-113). -/
def reduceVecI64 (pr : Profile) (m : Modulus) (a : List Int) : Res (List Nat) := mapR (reduceI64 pr m) a
/-- `reduce_vec_biguint` (src/modulus.rs:115-117). -/
def reduceVecBigUint (m : Modulus) (a : List Nat) : Res (List Nat) := mapR (reduceBigUint m) a

/-- `mul` (src/modulus.rs:182-186). -/
def mul (pr : Profile) (m : Modulus) (a b : Nat) : Res Nat := do
  dassert pr (a < m.p)
  dassert pr (b < m.p)
  let ab ← mulW 128 pr a b
  reduceU128 pr m ab

/-- The `while bits >= 0` loop of `pow` (src/modulus.rs:133-142), `n = bits + 1`. -/
def powLoop (pr : Profile) (m : Modulus) (a r : Nat) : (n : Nat) → (val : Nat) → Res Nat
  | 0, val => .ok val
  | n + 1, val => do
      let val ← mul pr m val val
      let val ← if (r >>> n) % 2 = 1 then mul pr m val a else .ok val
      powLoop pr m a r n val

/-- `pow` (src/modulus.rs:122-145). -/
def pow (pr : Profile) (m : Modulus) (a r : Nat) : Res Nat := do
  dassert pr (a < m.p ∧ r < m.p)
  if r = 0 then .ok 1
  else if r = 1 then .ok a
  else do
    let bits ← subW 32 pr 62 (leadingZeros 64 r)
    powLoop pr m a r (bits + 1) a

/-- `inv` (src/modulus.rs:153-156). -/
def inv (pr : Profile) (m : Modulus) (a : Nat) : Res Nat := do
  dassert pr (a < m.p ∧ a ≠ 0)
  let e ← subW 64 pr m.p 2
  pow pr m a e

/-- `inv_vec` (src/modulus.rs:158-160). -/
def invVec (pr : Profile) (m : Modulus) (a : List Nat) : Res (List Nat) := mapR (inv pr m) a

/-- `add` (src/modulus.rs:169-173). -/
def add (pr : Profile) (m : Modulus) (a b : Nat) : Res Nat := do
  dassert pr (a < m.p)
  dassert pr (b < m.p)
  let s ← addW 64 pr a b
  reduceCt pr s m.p

/-- `sub` (src/modulus.rs:175-180). -/
def sub (pr : Profile) (m : Modulus) (a b : Nat) : Res Nat := do
  dassert pr (a < m.p)
  dassert pr (b < m.p)
  let d ← subW 64 pr m.p b
  let s ← addW 64 pr a d
  reduceCt pr s m.p

/-- `neg` (src/modulus.rs:188-191). -/
def neg (pr : Profile) (m : Modulus) (a : Nat) : Res Nat := do
  dassert pr (a < m.p)
  let d ← subW 64 pr m.p a
  reduceCt pr d m.p

/-- `add_vec` (src/modulus.rs:193-195). -/
def addVec (pr : Profile) (m : Modulus) (a b : List Nat) : Res (List Nat) := zipMutM (add pr m) a b
/-- `sub_vec` (src/modulus.rs:197-199). -/
def subVec (pr : Profile) (m : Modulus) (a b : List Nat) : Res (List Nat) := zipMutM (sub pr m) a b
/-- `mul_vec` (src/modulus.rs:201-203). -/
def mulVec (pr : Profile) (m : Modulus) (a b : List Nat) : Res (List Nat) := zipMutM (mul pr m) a b
/-- `neg_vec` (src/modulus.rs:205-207). -/
def negVec (pr : Profile) (m : Modulus) (a : List Nat) : Res (List Nat) := mapR (neg pr m) a

/-- `shoup` (src/modulus.rs:214-217). -/
def shoup (pr : Profile) (m : Modulus) (a : Nat) : Res Nat := do
  dassert pr (a < m.p)
  let q ← divR (a <<< 64) m.p
  .ok (q % 2 ^ 64)

/-- `shoup_vec` (src/modulus.rs:219-221). -/
def shoupVec (pr : Profile) (m : Modulus) (a : List Nat) : Res (List Nat) := mapR (shoup pr m) a

/-- `lazy_mul_shoup` (src/modulus.rs:230-242). The `debug_assert!(b_shoup == self.shoup(b))` re-runs `shoup`. -/
def lazyMulShoup (pr : Profile) (m : Modulus) (a b bShoup : Nat) : Res Nat := do
  dassert pr (b < m.p)
  dassertEqR pr bShoup (shoup pr m b)
  let aq ← mulW 128 pr a bShoup
  let q := aq >>> 64
  let ab ← mulW 128 pr a b
  let qp ← mulW 128 pr q m.p
  let d ← subW 128 pr ab qp
  let r := d % 2 ^ 64
  dassert pr (r < m.p * 2)
  .ok r

/-- `mul_shoup` (src/modulus.rs:223-225). -/
def mulShoup (pr : Profile) (m : Modulus) (a b bShoup : Nat) : Res Nat := do
  let r ← lazyMulShoup pr m a b bShoup
  reduceCt pr r m.p

/-- `scalar_mul_vec` (src/modulus.rs:162-167). -/
def scalarMulVec (pr : Profile) (m : Modulus) (a : List Nat) (b : Nat) : Res (List Nat) := do
  let bShoup ← shoup pr m b
  mapR (fun ai => lazyMulShoup pr m ai b bShoup) a

/-- `modulus` (src/modulus.rs:254-256). -/
def modulus (m : Modulus) : Nat := m.p

/-- `bits` (src/modulus.rs:258-260). -/
def bits (pr : Profile) (m : Modulus) : Res Nat := subW 64 pr (2 ^ 64 - 1) (leadingZeros 64 m.p)

end Modulus
end OnionPIR
