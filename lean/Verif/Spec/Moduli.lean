import Mathlib.Data.Nat.Prime.Defs
import Mathlib.Data.Nat.Log
import Mathlib.Data.Nat.ModEq

/-! NTT-friendly primes of a given size (C62, C63). -/

namespace OnionPIR

/-- Primes with exactly `s` bits that are 1 modulo `2 d`. -/
def friendly (d s : Nat) : Set Nat := {p | p.Prime ∧ Nat.log 2 p + 1 = s ∧ p ≡ 1 [MOD 2 * d]}

end OnionPIR
