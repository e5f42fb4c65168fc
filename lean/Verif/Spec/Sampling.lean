/-
The centered binomial distribution, for C68.
-/
import Mathlib.Data.Nat.Choose.Basic
import Mathlib.Data.Int.Basic
import Mathlib.Algebra.BigOperators.Group.Finset.Basic

namespace OnionPIR.Spec

/-- The number of bit strings of length `4v` for which (ones in the first half) - (ones in the second half) = `x`:
the binomial coefficient `4v choose 2v + x`. -/
def binomial (v : Nat) (x : Int) : Nat := if -(2 * v : Int) ≤ x then (4 * v).choose (2 * v + x).toNat else 0

/-- The random stream that begins with the words `w` (the words after them are irrelevant). -/
def stream {W : Nat} (w : Fin W → Fin (2 ^ 64)) (i : Nat) : Nat := if h : i < W then w ⟨i, h⟩ else 0

/-- One stream of random words per row. -/
def streams {n W : Nat} (w : Fin n → Fin W → Fin (2 ^ 64)) (l i : Nat) : Nat := if h : l < n then stream (w ⟨l, h⟩) i else 0

/-- The `i`-th centered binomial value of the word stream `rng`: popcount of `2v` bits minus popcount of the next `2v` bits. -/
def cbd (rng : Nat → Nat) (v i : Nat) : Int :=
  ((∑ k ∈ Finset.range (2 * v), ((rng ((4 * v * i + k) / 64)).testBit ((4 * v * i + k) % 64)).toNat : Nat) : Int) -
    ((∑ k ∈ Finset.range (2 * v), ((rng ((4 * v * i + 2 * v + k) / 64)).testBit ((4 * v * i + 2 * v + k) % 64)).toNat : Nat) : Int)

end OnionPIR.Spec
