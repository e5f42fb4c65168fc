import Verif.Model.Rand
/-
The values that `primitive_root` draws (C89).
-/
namespace OnionPIR.Spec

/-- `sample p i` is the `i`-th value that `gen_range(0..p)` draws from the generator `ChaCha8Rng::seed_from_u64(0)` of `primitive_root`
(src/ntt.rs:214-217), for all `p` and `i` for which some number of its blocks suffices. -/
structure SeedZero (sample : Nat → Nat → Nat) : Prop where
  lt : ∀ p i, 0 < p → sample p i < p
  draws : ∀ p k blocks xs r, Rand.times (Rand.genRange p) k (ChaCha8.seeded 0 blocks) = .ok (xs, r) → ∀ i, i < k → xs[i]? = some (sample p i)

end OnionPIR.Spec
