import Mathlib.Data.ZMod.Basic
import Mathlib.NumberTheory.LegendreSymbol.JacobiSymbol

/-! The Baillie–PSW test as it is described in the literature: trial division, a strong Fermat test to base 2 and an extra strong Lucas test with
the parameters of "method C". -/

namespace OnionPIR.Spec

/-- `n` is a strong probable prime to base `b`. -/
def StrongProbablePrime (b n : Nat) : Prop :=
  ∃ k q, Odd q ∧ n - 1 = 2 ^ k * q ∧ ((b : ZMod n) ^ q = 1 ∨ ∃ i, i < k ∧ (b : ZMod n) ^ (2 ^ i * q) = -1)

/-- Lucas sequence of the first kind with parameters `P`, `1`. -/
def lucasU {R : Type*} [CommRing R] (P : R) : Nat → R
  | 0 => 0
  | 1 => 1
  | k + 2 => P * lucasU P (k + 1) - lucasU P k

/-- Lucas sequence of the second kind with parameters `P`, `1`. -/
def lucasV {R : Type*} [CommRing R] (P : R) : Nat → R
  | 0 => 2
  | 1 => P
  | k + 2 => P * lucasV P (k + 1) - lucasV P k

/-- `n` is an extra strong Lucas probable prime for the parameter `P`. -/
def ExtraStrongLucas (P n : Nat) : Prop :=
  ∃ r s, Odd s ∧ n + 1 = 2 ^ r * s ∧
    ((lucasU (P : ZMod n) s = 0 ∧ (lucasV (P : ZMod n) s = 2 ∨ lucasV (P : ZMod n) s = -2)) ∨
      ∃ i, i + 1 < r ∧ lucasV (P : ZMod n) (2 ^ i * s) = 0)

/-- The Jacobi symbol of the discriminant `P² - 4`. -/
def discSym (n P : Nat) : Int := jacobiSym ((P : Int) ^ 2 - 4) n

/-- `P` is the first parameter, from 3 on, whose discriminant does not have symbol 1; the search gives up above 10000. -/
def FirstParam (n P : Nat) : Prop := 3 ≤ P ∧ P ≤ 10000 ∧ discSym n P ≠ 1 ∧ ∀ P', 3 ≤ P' → P' < P → discSym n P' = 1

/-- The numbers accepted by the Baillie–PSW test. -/
def BailliePSW (n : Nat) : Prop :=
  (n < 64 ∧ n.Prime) ∨
  (64 ≤ n ∧ (∀ p, p.Prime → p ≤ 53 → ¬ p ∣ n) ∧ StrongProbablePrime 2 n ∧
    ∃ P, FirstParam n P ∧ ((discSym n P = -1 ∧ ExtraStrongLucas P n) ∨ (discSym n P = 0 ∧ n = P + 2)))

end OnionPIR.Spec
