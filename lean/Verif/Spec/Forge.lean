import Verif.Model.Bfv
/- Specification vocabulary for C107: a ciphertext that can be written down without any key. -/
namespace OnionPIR

/-- The scaled plaintext with second component 0. Everything in it is public: `to_poly` (src/bfv.rs) and `Poly::zero` (src/rq.rs) take no key. -/
def Spec.forge (pr : Profile) (pt : Plaintext) : Res BfvCipherText := do
  let p ← pt.toPoly pr
  .ok { params := pt.params, cts := [p, Poly.zero p.context .ntt], level := pt.level }

end OnionPIR
