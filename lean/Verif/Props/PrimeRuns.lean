import Verif.Props.PrimeTest

/-! C98: runs of the modelled primality test and of `generate_moduli` with it. -/

namespace OnionPIR
open Spec Prime

/-- The moduli of the tests of the repository for degrees 8 and 64 are found by `generate_moduli` with the modelled test, in both builds. -/
theorem c98_test_moduli (pr : Profile) :
    generateModuliT pr [62, 62, 62, 62] 64 = .ok (some [4611686018427382913, 4611686018427379201, 4611686018427378049, 4611686018427375361]) ∧
    generateModuliT pr [62, 62, 62, 62] 8 = .ok (some [4611686018427387761, 4611686018427387617, 4611686018427387409, 4611686018427387329]) ∧
    generateModuliT pr [50, 55, 55] 64 = .ok (some [1125899906840833, 36028797018963841, 36028797018963457]) ∧
    generateModuliT pr [61, 61, 61] 64 = .ok (some [2305843009213689601, 2305843009213689089, 2305843009213687297]) := by
  cases pr <;> decide +kernel

/-- A 62-bit prime that is 1 modulo 8192. -/
example : probablyPrime 4611686018427322369 = .ok true := by decide +kernel

/-- A strong pseudoprime to base 2 and a number that passes the Lucas part alone are both rejected. -/
example : millerRabin 3215031751 = true ∧ probablyPrime 3215031751 = .ok false ∧ lucas 5777 = .ok true ∧ probablyPrime 5777 = .ok false := by
  decide +kernel

/-- The hypothesis of `c98_primes` for the first ciphertext modulus of the examples: 19 is not a quadratic residue. -/
example : Nat.Prime 1048609 ∧ ¬ IsSquare ((19 : Nat) : ZMod 1048609) := by
  refine ⟨by norm_num, ?_⟩
  have := ZMod.nonsquare_of_jacobiSym_eq_neg_one (a := 19) (b := 1048609) (by
    rw [← one_mul (jacobiSym 19 1048609), ← jacobiLoop_eq (fuel := 1048610) (by norm_num) (by norm_num)]; decide +kernel)
  exact_mod_cast this

/-- The hypothesis of `c98_generate_prime` for 10-bit primes that are 1 modulo 64: 577, 641 and 769 are primes, 705, 833, 897 and 961 are not. -/
example : ∀ t, t < 962 → leadingZeros 64 t = 64 - 10 → t % 64 = 1 → probablyPrime t = .ok (isPrime t) := by
  intro t h1 h2 h3
  have h4 : 512 ≤ t := by
    by_contra hc
    have : ∀ t, t < 512 → leadingZeros 64 t ≠ 64 - 10 := by decide +kernel
    exact this t (by omega) h2
  obtain ⟨k, rfl⟩ : ∃ k, t = 64 * k + 1 := ⟨t / 64, by omega⟩
  have : 8 ≤ k := by omega
  have : k < 16 := by omega
  unfold isPrime
  interval_cases k <;> norm_num <;> decide +kernel

/-- The hypothesis of `c98_generate_moduli` for one size and degree 64: the only candidates of 10 bits are 513, 641, 769 and 897. Both find 769; for
degree 1, where 8191 = 2^13 - 1 is a candidate, it is found. -/
example (pr : Profile) : generateModuliT pr [10] 64 = generateModuli pr [10] 64 ∧ generateModuli pr [10] 64 = .ok (some [769]) ∧
    generateModuliT pr [13] 1 = .ok (some [8191]) := by
  have e : generateModuliT pr [10] 64 = generateModuli pr [10] 64 := by
    refine c98_generate_moduli pr (by decide) (by decide) _ fun s hs t ht h1 h2 => ?_
    rw [List.mem_singleton] at hs
    subst hs
    have h3 : t = 1 + 128 * (t / 128) := by omega
    have h4 : t / 128 < 8 := by omega
    rw [h3] at h1 ⊢
    generalize t / 128 = k at h4 h1 ⊢
    interval_cases k <;> first | (exfalso; revert h1; decide +kernel) | skip
    all_goals unfold isPrime
    · rw [show decide (Nat.Prime (1 + 128 * 4)) = false from decide_eq_false (by norm_num)]; decide +kernel
    · rw [show decide (Nat.Prime (1 + 128 * 5)) = true from decide_eq_true (by norm_num)]; decide +kernel
    · rw [show decide (Nat.Prime (1 + 128 * 6)) = true from decide_eq_true (by norm_num)]; decide +kernel
    · rw [show decide (Nat.Prime (1 + 128 * 7)) = false from decide_eq_false (by norm_num)]; decide +kernel
  refine ⟨e, e ▸ ?_, ?_⟩ <;> cases pr <;> decide +kernel

end OnionPIR
