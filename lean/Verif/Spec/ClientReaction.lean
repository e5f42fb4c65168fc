import Mathlib.Data.Nat.Log
import Verif.Model.Bfv
/- Specification vocabulary for C119: programs that see only whether the owner of a key accepts what a ciphertext decrypts to. -/
namespace OnionPIR.Spec

/-- A program that ends with a result or offers a ciphertext to the owner of the key and goes on depending on whether it is accepted. -/
inductive Offers (α : Type) where
  | ret (a : α)
  | offer (ct : BfvCipherText) (yes no : Offers α)

/-- The owner of the key `sk` accepts the ciphertexts that decrypt to `msg`; the program ends with the result after the given number of offers. -/
inductive Accepts {α : Type} (pr : Profile) (msg : List Nat) (sk : SecretKey) : Offers α → α → Nat → Prop where
  | ret (a : α) : Accepts pr msg sk (.ret a) a 0
  | yes {ct : BfvCipherText} {u v : Offers α} {pt : Plaintext} {a : α} {n : Nat} : sk.decrypt pr ct = .ok pt → pt.values = msg →
      Accepts pr msg sk u a n → Accepts pr msg sk (.offer ct u v) a (n + 1)
  | no {ct : BfvCipherText} {u v : Offers α} {pt : Plaintext} {a : α} {n : Nat} : sk.decrypt pr ct = .ok pt → pt.values ≠ msg →
      Accepts pr msg sk v a n → Accepts pr msg sk (.offer ct u v) a (n + 1)

/-- Searching a coefficient by bisection, where `ask θ` is the ciphertext that asks whether the coefficient is below `θ`. -/
def bisect {α : Type} (ask : ℤ → BfvCipherText) (k : ℤ → Offers α) : (rounds L : Nat) → (lo : ℤ) → Offers α
  | 0, _, lo => k lo
  | r + 1, L, lo => .offer (ask (lo + (L / 2 : Nat))) (bisect ask k r (L - L / 2) lo) (bisect ask k r (L - L / 2) (lo + (L / 2 : Nat)))

/-- Searching the given coefficients in `[-B, B]` after the known ones. -/
def bisectAll (ask : Nat → ℤ → BfvCipherText) (B : Nat) : List Nat → List ℤ → Offers (List ℤ)
  | [], known => .ret known
  | j :: js, known => bisect (ask j) (fun x => bisectAll ask B js (known ++ [x])) (Nat.clog 2 (2 * B + 1)) (2 * B + 1) (-(B : ℤ))

end OnionPIR.Spec
