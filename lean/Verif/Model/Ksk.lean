import Verif.Model.Bfv
/-
Model of /repo/src/ksk.rs and of the parts of /repo/src/bfv.rs that use key-switching keys.
`aTape k i j` is the `j`-th value drawn for the `i`-th modulus by the `k`-th call of `Poly::random_from_seed`,
`rng k` is the `u64` stream read by the `k`-th call of `Poly::random_small`.
Not modelled: the unused enum `KskType`, the `#[cfg(test)]` module.
-/
namespace OnionPIR

/-- `struct Ksk` (src/ksk.rs:19-30). -/
structure Ksk where
  params : BfvParameters
  c0 : List Poly
  c1 : List Poly
  kskContext : RqContext
  ctContext : RqContext

namespace Ksk

/-- One iteration of the loop of `Ksk::new` (src/ksk.rs:65-91): the component `c0_i` for `c1` and the Garner
coefficient. -/
def newC0 (pr : Profile) (params : BfvParameters) (kskCtx : RqContext) (s src c1 : Poly) (garner : Nat)
    (rng : Nat → Nat) : Res Poly := do
  let as ← c1.mul pr s
  let b ← Poly.randomSmall pr kskCtx .ntt params.variance rng
  let b ← b.sub pr as
  let m ← src.mulBig pr garner
  b.add pr m

/-- `Ksk::new` (src/ksk.rs:47-100). -/
def new (pr : Profile) (sk : SecretKey) (src : Poly) (ctLevel kskLevel : Nat) (aTape : Nat → Nat → Nat → Nat)
    (rng : Nat → Nat → Nat) : Res Ksk := do
  let kskCtx ← idx sk.params.qCtxs kskLevel
  let ctCtx ← idx sk.params.qCtxs ctLevel
  let c1s := (List.range ctCtx.rns.moduli.length).map fun k => Poly.random kskCtx (aTape k) .ntt
  let s ← sk.polyNtt pr kskCtx
  let c0s ← mapR (fun (x : Nat × Poly × Nat) => newC0 pr sk.params kskCtx s src x.2.1 x.2.2 (rng x.1))
    ((List.range ctCtx.rns.moduli.length).zip (c1s.zip ctCtx.rns.garner))
  .ok { params := sk.params, c0 := c0s, c1 := c1s, kskContext := kskCtx, ctContext := ctCtx }

/-- `Ksk::new_with_pt` (src/ksk.rs:38-45). -/
def newWithPt (pr : Profile) (sk : SecretKey) (src : Plaintext) (ctLevel kskLevel : Nat)
    (aTape : Nat → Nat → Nat → Nat) (rng : Nat → Nat → Nat) : Res Ksk := do
  let p ← src.toPoly pr
  new pr sk p ctLevel kskLevel aTape rng

/-- The loop body of `key_switch` (src/ksk.rs:113-122). -/
def switchStep (pr : Profile) (kskCtx : RqContext) (st : Poly × Poly) (x : List Nat × Poly × Poly) :
    Res (Poly × Poly) := do
  let d ← Poly.tryFromVecU64 pr kskCtx x.1
  let d ← d.changeRepresentation pr .ntt
  let b ← d.mul pr x.2.1
  let a ← d.mul pr x.2.2
  let c0 ← st.1.add pr b
  let c1 ← st.2.add pr a
  .ok (c0, c1)

/-- `key_switch` (src/ksk.rs:102-125). -/
def keySwitch (pr : Profile) (k : Ksk) (p : Poly) : Res (Poly × Poly) := do
  rassert (p.context = k.ctContext)
  rassert (p.representation = .powerBasis)
  foldR (switchStep pr k.kskContext) (Poly.zero k.ctContext .ntt, Poly.zero k.ctContext .ntt)
    (p.coefficients.zip (k.c0.zip k.c1))

/-- One component taken from a ciphertext (src/ksk.rs:135-138, 142-145). -/
def component (params : BfvParameters) (i : Nat) (c : BfvCipherText) : Res Poly := do
  rassert (c.params = params)
  idx c.cts i

/-- `try_from_decomposed_rlwes` (src/ksk.rs:127-156). -/
def tryFromDecomposedRlwes (params : BfvParameters) (cts : List BfvCipherText) : Res Ksk := do
  let c0 ← mapR (component params 0) cts
  let c1 ← mapR (component params 1) cts
  let ctx ← idx params.qCtxs 0
  .ok { params := params, c0 := c0, c1 := c1, ctContext := ctx, kskContext := ctx }

end Ksk

/-- `struct GaliosKey` (src/bfv.rs:700-704). -/
structure GaliosKey where
  gk : Ksk
  substitution : Substitution
  level : Nat

namespace GaliosKey

/-- `GaliosKey::new` (src/bfv.rs:707-723). -/
def new (pr : Profile) (sk : SecretKey) (i : Substitution) (level : Nat) (aTape : Nat → Nat → Nat → Nat)
    (rng : Nat → Nat → Nat) : Res GaliosKey := do
  rassert (sk.params.ciphertextModuli.length ≠ 1)
  let ctx ← idx sk.params.qCtxs level
  let s ← Poly.tryFromVecI64 pr ctx sk.coeffs
  let si ← s.substitute pr i
  let si ← si.changeRepresentation pr .ntt
  let gk ← Ksk.new pr sk si level level aTape rng
  .ok { gk := gk, substitution := i, level := level }

/-- `GaliosKey::relinearize` (src/bfv.rs:725-740). -/
def relinearize (pr : Profile) (g : GaliosKey) (ct : BfvCipherText) : Res BfvCipherText := do
  rassert (ct.level = g.level)
  let c0 ← idx ct.cts 0
  dassert pr (c0.representation = .ntt)
  let c1 ← idx ct.cts 1
  let c1r ← c1.substitute pr g.substitution
  let c1r ← c1r.changeRepresentation pr .powerBasis
  let (d0, d1) ← g.gk.keySwitch pr c1r
  let c0r ← c0.substitute pr g.substitution
  let d0 ← d0.add pr c0r
  .ok { params := ct.params, cts := [d0, d1], level := g.level }

end GaliosKey

/-- `struct RelinearizationKey` (src/bfv.rs:743-746). -/
structure RelinearizationKey where
  ksk : Ksk
  params : BfvParameters

namespace RelinearizationKey

/-- `RelinearizationKey::new` (src/bfv.rs:749-760). -/
def new (pr : Profile) (sk : SecretKey) (level : Nat) (aTape : Nat → Nat → Nat → Nat) (rng : Nat → Nat → Nat) :
    Res RelinearizationKey := do
  let ctx ← idx sk.params.qCtxs level
  let s ← sk.polyNtt pr ctx
  let s2 ← s.mul pr s
  let ksk ← Ksk.new pr sk s2 level level aTape rng
  .ok { params := sk.params, ksk := ksk }

/-- `relinearize_poly` (src/bfv.rs:762-770). -/
def relinearizePoly (pr : Profile) (k : RelinearizationKey) (p : Poly) : Res (Poly × Poly) :=
  if p.representation = .ntt then do
    let tmp ← p.changeRepresentation pr .powerBasis
    k.ksk.keySwitch pr tmp
  else k.ksk.keySwitch pr p

end RelinearizationKey

/-- `multiply_with_strategy` (src/bfv.rs:657-695). -/
def multiplyWithStrategy (pr : Profile) (lhs rhs : BfvCipherText) (rlk : RelinearizationKey) : Res BfvCipherText := do
  rassert (lhs.level = rhs.level)
  rassert (lhs.params = rhs.params)
  rassert (lhs.params = rlk.params)
  rassert (lhs.cts.length = 2)
  rassert (rhs.cts.length = 2)
  let mp ← idx lhs.params.mulParams lhs.level
  let l0 ← idx lhs.cts 0
  let c00 ← mp.upScaler.scale pr l0
  let l1 ← idx lhs.cts 1
  let c01 ← mp.upScaler.scale pr l1
  let r0 ← idx rhs.cts 0
  let c10 ← mp.upScaler.scale pr r0
  let r1 ← idx rhs.cts 1
  let c11 ← mp.upScaler.scale pr r1
  let c0 ← c00.mul pr c10
  let x ← c00.mul pr c11
  let y ← c10.mul pr c01
  let c1 ← x.add pr y
  let c2 ← c01.mul pr c11
  let c0 ← mp.downScaler.scale pr c0
  let c1 ← mp.downScaler.scale pr c1
  let c2 ← mp.downScaler.scale pr c2
  let (e0, e1) ← rlk.relinearizePoly pr c2
  let c0 ← c0.add pr e0
  let c1 ← c1.add pr e1
  .ok { cts := [c0, c1], params := lhs.params, level := lhs.level }

end OnionPIR
