import Verif.Model.Bfv
/- Specification vocabulary for C141: adding a fresh encryption to a ciphertext. -/
namespace OnionPIR.Spec

/-- The ciphertext with a fresh encryption of `p` added to it. -/
def refresh (pr : Profile) (sk : SecretKey) (p : Plaintext) (x : BfvCipherText) (aTape : Nat → Nat → Nat) (rng : Nat → Nat) : Res BfvCipherText := do
  let y ← sk.encrypt pr p aTape rng
  x.add pr y

end OnionPIR.Spec
