import Verif.Model.Cost
import Mathlib.Algebra.BigOperators.Intervals
/-
Specification vocabulary for C125: amounts of work as closed formulas in the sizes.
`N` is the degree, `n` the number of moduli.
-/
namespace OnionPIR.Spec

/-- `rows` number-theoretic transforms of `N` words, each of `N/2 · log N` butterflies, and `words` products of rows of `N` words. -/
def workOf (N rows words : Nat) : Work := ⟨rows * (N / 2 * Nat.log2 N), words * N⟩

/-- The number of blocks of `size` elements that cover `len` elements. -/
def blocks (len size : Nat) : Nat := (len + size - 1) / size

/-- Transforms of rows in one expansion of a ciphertext. -/
def expandRows (N n : Nat) : Nat := 2 * n + (N - 1) * (n ^ 2 + 2 * n)
/-- Products of rows in one expansion. -/
def expandWords (N n : Nat) : Nat := 2 * n + (N - 1) * (2 * n ^ 2 + 3 * n)

/-- External products of an answer: `n` for every selector and one for every block that remains before each of the `k` further dimensions. -/
def answerProducts (n len fd dim k : Nat) : Nat := dim * k * n + ∑ j ∈ Finset.range k, blocks len (fd * dim ^ j)

/-- Transforms of rows in an answer. -/
def answerRows (N n len fd dim k : Nat) : Nat := (n + 1) * expandRows N n + answerProducts n len fd dim k * (2 * (n ^ 2 + n))
/-- Products of rows in an answer. -/
def answerWords (N n len fd dim k : Nat) : Nat :=
  (n + 1) * expandWords N n + answerProducts n len fd dim k * (2 * (2 * n ^ 2 + n)) + len * (2 * n)

end OnionPIR.Spec
