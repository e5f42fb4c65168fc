import Mathlib.RingTheory.Ideal.Quotient.Defs
import Mathlib.Data.Real.Basic
import Verif.Spec.Rlwe
import Verif.Spec.Sampling
/- Specification vocabulary for C79: probabilities, RLWE samples and the advantage of a distinguisher. -/
namespace OnionPIR.Spec
open Rg

/-- The probability of an event for a uniform choice from a finite type. -/
noncomputable def prob {Ω : Type} (E : Ω → Prop) : ℝ := (Nat.card {ω // E ω} : ℝ) / Nat.card Ω

/-- The ring `Z[X]/(X^N + 1)` modulo `Q`. -/
abbrev Rq (N Q : Nat) : Type := Rg N ⧸ Ideal.span {((Q : ℤ) : Rg N)}

/-- Reduction modulo `Q`. -/
noncomputable abbrev toRq {N : Nat} (Q : Nat) (f : Rg N) : Rq N Q := Ideal.Quotient.mk _ f

/-- `W` random words. -/
abbrev Words (W : Nat) : Type := Fin W → Fin (2 ^ 64)

/-- The centered binomial error drawn with a stream of random words. -/
noncomputable def cbdRing (N v : Nat) (rng : Nat → Nat) : Rg N := smallRing N ((List.range N).map (cbd rng v))

/-- `k` RLWE samples `(e - a s, a)` for the secret `s`, from uniform `a` and uniform random words for `e`. -/
noncomputable def rlweSamples {N Q k W : Nat} (v : Nat) (s : Rg N) (c : Fin k → Rq N Q × Words W) (j : Fin k) : Rq N Q × Rq N Q :=
  (toRq Q (cbdRing N v (stream (c j).2)) - (c j).1 * toRq Q s, (c j).1)

/-- The advantage of `A` in telling `k` RLWE samples from `k` uniform pairs, when the secret is `s ω` and `A` is also given `aux ω`, for
uniform `ω`. -/
noncomputable def rlweAdvantage {Ω Aux : Type} {N Q k : Nat} (W v : Nat) (s : Ω → Rg N) (aux : Ω → Aux)
    (A : Aux → (Fin k → Rq N Q × Rq N Q) → Prop) : ℝ :=
  |prob (fun x : Ω × (Fin k → Rq N Q × Words W) => A (aux x.1) (rlweSamples v (s x.1) x.2)) -
    prob (fun x : Ω × (Fin k → Rq N Q × Rq N Q) => A (aux x.1) x.2)|

/-- `ct` is the level-0 ciphertext that stores the pair `x`. -/
def Stored {N Q : Nat} (P : BfvParameters) (x : Rq N Q × Rq N Q) (ct : BfvCipherText) : Prop :=
  ∃ f₀ f₁ : Rg N, toRq Q f₀ = x.1 ∧ toRq Q f₁ = x.2 ∧ IsCt P 0 [f₀, f₁] ct

/-- The distinguisher that adds `(M j, 0)` to the `j`-th pair and asks `D` about the resulting ciphertexts. -/
def shifted {Aux : Type} {N Q k : Nat} (P : BfvParameters) (M : Fin k → Rg N) (D : Aux → (Fin k → BfvCipherText) → Prop) (z : Aux)
    (x : Fin k → Rq N Q × Rq N Q) : Prop :=
  ∃ cts : Fin k → BfvCipherText, (∀ j, Stored P (x j + (toRq Q (M j), 0)) (cts j)) ∧ D z cts

/-- The coins of `k` encryptions: the values of the mask and the words of the error. -/
abbrev EncCoins (N : Nat) (l : List Nat) (k W : Nat) : Type := Fin k → Rows N l 0 × Words W

/-- The tape of the mask of the `j`-th encryption. -/
def EncCoins.tape {N : Nat} {l : List Nat} {k W : Nat} (c : EncCoins N l k W) (j : Nat) : Nat → Nat → Nat :=
  if h : j < k then (c ⟨j, h⟩).1.tape else fun _ _ => 0

/-- The stream of words of the error of the `j`-th encryption. -/
def EncCoins.words {N : Nat} {l : List Nat} {k W : Nat} (c : EncCoins N l k W) (j : Nat) : Nat → Nat :=
  if h : j < k then stream (c ⟨j, h⟩).2 else fun _ => 0

end OnionPIR.Spec
