import Mathlib.Data.Nat.Log
import Verif.Model.Leak
/- Specification vocabulary for C120: what a branch of decryption shows, and programs that see only the trace of decryptions. -/
namespace OnionPIR.Spec

/-- The weight of the residue modulo `q` in the sum whose sign decryption branches on: `2^127` times the difference between `t g / Q` and the nearest
integer, rounded up, where `g = (Q/q)^(q-1)` is `1` modulo `q` and `0` modulo the other moduli. -/
def leakWeight (t : Nat) (ms : List Nat) (q : Nat) : ℤ :=
  -(-(2 ^ 127 * Int.bmod ((t * (ms.prod / q) ^ (q - 1) : Nat) : ℤ) ms.prod) / (ms.prod : ℤ))

/-- The branch that decryption takes for a coefficient `x` of the phase. -/
def leakBit (t : Nat) (ms : List Nat) (x : ℤ) : Bool := decide ((ms.map fun (q : Nat) => x % (q : ℤ) * leakWeight t ms q).sum < 0)

/-- A program that ends with a result or has a ciphertext decrypted and goes on depending on the trace. -/
inductive Watches (α : Type) where
  | ret (a : α)
  | watch (ct : BfvCipherText) (next : List Event → Watches α)

/-- All ciphertexts that the program may ask for satisfy `p`. -/
inductive Watches.All {α : Type} (p : BfvCipherText → Prop) : Watches α → Prop where
  | ret (a : α) : Watches.All p (.ret a)
  | watch {ct : BfvCipherText} {next : List Event → Watches α} : p ct → (∀ tr, Watches.All p (next tr)) → Watches.All p (.watch ct next)

/-- The program ends with the result after the given number of decryptions by the owner of `sk`, of which it sees the traces of the release build. -/
inductive Sees {α : Type} (sk : SecretKey) : Watches α → α → Nat → Prop where
  | ret (a : α) : Sees sk (.ret a) a 0
  | watch {ct : BfvCipherText} {next : List Event → Watches α} {pt : Plaintext} {tr : List Event} {a : α} {n : Nat} :
      sk.decryptL .release ct = ⟨.ok pt, tr⟩ → Sees sk (next tr) a n → Sees sk (.watch ct next) a (n + 1)

end OnionPIR.Spec
