import Verif.Model.Ksk
/-
Model of /repo/src/rgsw.rs. The two key-switching keys of an RGSW ciphertext use separate tapes.
Not modelled: the unused struct `RGSW` (src/rgsw.rs:17-19), the `#[cfg(test)]` module.
-/
namespace OnionPIR

/-- `struct RgswCt` (src/rgsw.rs:21-25). -/
structure RgswCt where
  ksk0 : Ksk
  ksk1 : Ksk

namespace RgswCt

/-- `encrypt_poly` (src/rgsw.rs:28-42). -/
def encryptPoly (pr : Profile) (sk : SecretKey) (m : Poly) (aTape0 aTape1 : Nat → Nat → Nat → Nat)
    (rng0 rng1 : Nat → Nat → Nat) : Res RgswCt := do
  rassert (m.representation = .ntt)
  let level ← unwrapR (sk.params.ctxLevel m.context)
  let s ← sk.polyNtt pr m.context
  let sm ← s.mul pr m
  let k0 ← Ksk.new pr sk sm level level aTape0 rng0
  let k1 ← Ksk.new pr sk m level level aTape1 rng1
  .ok { ksk0 := k0, ksk1 := k1 }

/-- `encrypt` (src/rgsw.rs:44-61). -/
def encrypt (pr : Profile) (sk : SecretKey) (m : Plaintext) (aTape0 aTape1 : Nat → Nat → Nat → Nat)
    (rng0 rng1 : Nat → Nat → Nat) : Res RgswCt := do
  rassert (sk.params = m.params)
  let ctx ← idx sk.params.qCtxs m.level
  let mp ← Poly.tryFromVecU64 pr ctx m.values
  let mp ← mp.changeRepresentation pr .ntt
  let s ← sk.polyNtt pr ctx
  let sm ← s.mul pr mp
  let k0 ← Ksk.new pr sk sm m.level m.level aTape0 rng0
  let k1 ← Ksk.new pr sk mp m.level m.level aTape1 rng1
  .ok { ksk0 := k0, ksk1 := k1 }

/-- `external_product` (src/rgsw.rs:63-78). -/
def externalProduct (pr : Profile) (g : RgswCt) (ct : BfvCipherText) : Res (Poly × Poly) := do
  let c1 ← idx ct.cts 1
  let c0 ← idx ct.cts 0
  let c1 ← c1.changeRepresentation pr .powerBasis
  let c0 ← c0.changeRepresentation pr .powerBasis
  let (c10, c11) ← g.ksk0.keySwitch pr c1
  let (c00, c01) ← g.ksk1.keySwitch pr c0
  let r0 ← c00.add pr c10
  let r1 ← c01.add pr c11
  .ok (r0, r1)

/-- `try_from_ksks` (src/rgsw.rs:80-85). -/
def tryFromKsks (ksk0 ksk1 : Ksk) : RgswCt := { ksk0 := ksk0, ksk1 := ksk1 }

end RgswCt
end OnionPIR
