import Verif.Proofs.Ring
import Mathlib.Algebra.BigOperators.Intervals
/- The algebra of oblivious expansion: partial traces of a ring element under `X ↦ X^(N/2^i+1)`. -/
namespace OnionPIR.Rg
open Finset

variable {K : Nat}

/-- `2^i` times the coefficients at positions `j + 2^i u`, placed at `X^(2^i u)`. -/
noncomputable def tr (K i j : Nat) (f : Rg (2 ^ K)) : Rg (2 ^ K) :=
  ((2 ^ i : ℤ) : Rg (2 ^ K)) * ∑ u ∈ range (2 ^ (K - i)), ((cf f (j + 2 ^ i * u) : ℤ) : Rg (2 ^ K)) * xx ^ (2 ^ i * u)

theorem sum_even_odd {M : Type*} [AddCommMonoid M] (g : Nat → M) (n : Nat) :
    ∑ u ∈ range (2 * n), g u = ∑ v ∈ range n, g (2 * v) + ∑ v ∈ range n, g (2 * v + 1) := by
  induction n with
  | zero => simp
  | succ n ih =>
    rw [show 2 * (n + 1) = 2 * n + 1 + 1 by ring, sum_range_succ, sum_range_succ, ih, sum_range_succ _ n, sum_range_succ _ n]
    abel

theorem sg_sum {N : Nat} (hN : 0 < N) (k : Nat) {ι : Type*} (s : Finset ι) (f : ι → Rg N) :
    sg k (∑ i ∈ s, f i) = ∑ i ∈ s, sg k (f i) := by
  classical
  induction s using Finset.induction_on with
  | empty => simp only [sum_empty]; exact ev_zero hN _
  | insert a s ha ih => rw [sum_insert ha, sum_insert ha, sg_add hN, ih]

theorem tr_zero (f : Rg (2 ^ K)) : tr K 0 0 f = f := by
  have hN : 0 < 2 ^ K := by positivity
  unfold tr
  conv_rhs => rw [sum_cf hN f]
  simp

theorem tr_last (j : Nat) (f : Rg (2 ^ K)) : tr K K j f = ((2 ^ K * cf f j : ℤ) : Rg (2 ^ K)) := by
  unfold tr
  simp

/-- The exponent of stage `i`. -/
theorem odd_exp {i : Nat} (hi : i < K) : Odd (2 ^ (K - i) + 1) := by
  have : Even (2 ^ (K - i)) := (Nat.even_pow.mpr ⟨even_two, by omega⟩)
  exact this.add_one

theorem sg_term {i : Nat} (hi : i < K) (c : ℤ) (u : Nat) :
    sg (2 ^ (K - i) + 1) ((c : Rg (2 ^ K)) * xx ^ (2 ^ i * u)) = (-1) ^ u * ((c : Rg (2 ^ K)) * xx ^ (2 ^ i * u)) := by
  have hN : 0 < 2 ^ K := by positivity
  have ho := odd_exp hi
  rw [sg_mul hN ho, sg_int hN ho, sg_pow hN ho, sg_xx hN ho, ← pow_mul]
  have : (2 ^ (K - i) + 1) * (2 ^ i * u) = 2 ^ K * u + 2 ^ i * u := by
    have : 2 ^ (K - i) * 2 ^ i = 2 ^ K := by rw [← pow_add]; congr 1; omega
    rw [← this]; ring
  rw [this, pow_add, pow_mul, xx_pow]
  ring

theorem sg_tr {i : Nat} (hi : i < K) (j : Nat) (f : Rg (2 ^ K)) : sg (2 ^ (K - i) + 1) (tr K i j f) =
    ((2 ^ i : ℤ) : Rg (2 ^ K)) * ∑ u ∈ range (2 ^ (K - i)), (-1) ^ u * (((cf f (j + 2 ^ i * u) : ℤ) : Rg (2 ^ K)) * xx ^ (2 ^ i * u)) := by
  have hN : 0 < 2 ^ K := by positivity
  unfold tr
  rw [sg_mul hN (odd_exp hi), sg_int hN (odd_exp hi), sg_sum hN]
  congr 1
  exact sum_congr rfl fun u _ => sg_term hi _ u

theorem tr_even {i : Nat} (hi : i < K) (j : Nat) (f : Rg (2 ^ K)) :
    tr K i j f + sg (2 ^ (K - i) + 1) (tr K i j f) = tr K (i + 1) j f := by
  rw [sg_tr hi]
  unfold tr
  rw [← mul_add, ← sum_add_distrib, show 2 ^ (K - i) = 2 * 2 ^ (K - (i + 1)) by rw [← pow_succ']; congr 1; omega, sum_even_odd,
    sum_eq_zero (s := range (2 ^ (K - (i + 1)))) (f := fun v => _ + (-1) ^ (2 * v + 1) * _), add_zero, pow_succ, Int.cast_mul, mul_assoc, mul_sum, mul_sum, mul_sum]
  · refine sum_congr rfl fun v _ => ?_
    rw [show 2 ^ (i + 1) * v = 2 ^ i * (2 * v) by ring, (even_two_mul v).neg_one_pow]
    push_cast
    ring
  · intro v _
    rw [(odd_two_mul_add_one v).neg_one_pow]
    ring

theorem tr_odd {i : Nat} (hi : i < K) (j : Nat) (f : Rg (2 ^ K)) :
    tr K i j f - sg (2 ^ (K - i) + 1) (tr K i j f) = xx ^ 2 ^ i * tr K (i + 1) (j + 2 ^ i) f := by
  rw [sg_tr hi]
  unfold tr
  rw [← mul_sub, ← sum_sub_distrib, show 2 ^ (K - i) = 2 * 2 ^ (K - (i + 1)) by rw [← pow_succ']; congr 1; omega, sum_even_odd,
    sum_eq_zero (s := range (2 ^ (K - (i + 1)))) (f := fun v => _ - (-1) ^ (2 * v) * _), zero_add, pow_succ, Int.cast_mul, mul_assoc, mul_left_comm, mul_left_comm (xx ^ 2 ^ i), mul_sum, mul_sum, mul_sum, mul_sum]
  · refine sum_congr rfl fun v _ => ?_
    rw [(odd_two_mul_add_one v).neg_one_pow, show j + 2 ^ i + 2 ^ (i + 1) * v = j + 2 ^ i * (2 * v + 1) by ring,
      show (xx : Rg (2 ^ K)) ^ (2 ^ i * (2 * v + 1)) = xx ^ 2 ^ i * xx ^ (2 ^ (i + 1) * v) by rw [← pow_add]; congr 1; ring]
    push_cast
    ring
  · intro v _
    rw [(even_two_mul v).neg_one_pow]
    ring

/-- `X^(2^i)` times `-X^(N-2^i)` is 1. -/
theorem xx_inv {i : Nat} (hi : i < K) : (xx : Rg (2 ^ K)) ^ 2 ^ i * -(xx ^ (2 ^ K - 2 ^ i)) = 1 := by
  have : 2 ^ i ≤ 2 ^ K := Nat.pow_le_pow_right (by norm_num) hi.le
  rw [mul_neg, ← pow_add, Nat.add_sub_cancel' this, xx_pow, neg_neg]

end OnionPIR.Rg
