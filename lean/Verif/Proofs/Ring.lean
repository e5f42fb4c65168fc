import Mathlib.RingTheory.AdjoinRoot
import Mathlib.Data.ZMod.Basic
import Mathlib.Algebra.Polynomial.Degree.Lemmas
import Mathlib.Algebra.Order.BigOperators.Ring.Finset
import Mathlib.Tactic.LinearCombination
import Mathlib.Tactic.Linarith
import Verif.Spec.Poly
import Verif.Spec.Ring
/-
The ring `Z[X]/(X^N+1)`, its coefficients, evaluations and sizes.
-/
namespace OnionPIR
open Polynomial

namespace Rg
variable {N : Nat}

theorem monic (hN : 0 < N) : (X ^ N + 1 : ℤ[X]).Monic := by
  have := monic_X_pow_add_C (1 : ℤ) (n := N) (by omega)
  simpa using this

theorem natDegree (_ : 0 < N) : (X ^ N + 1 : ℤ[X]).natDegree = N := by
  have := natDegree_X_pow_add_C (R := ℤ) (n := N) (r := 1)
  simpa using this

theorem xx_pow : (xx : Rg N) ^ N = -1 := by
  have h := AdjoinRoot.eval₂_root (X ^ N + 1 : ℤ[X])
  rw [eval₂_add, eval₂_pow, eval₂_X, eval₂_one] at h
  exact eq_neg_of_add_eq_zero_left h

theorem cf_mk (hN : 0 < N) (p : ℤ[X]) (k : Nat) : cf (AdjoinRoot.mk (X ^ N + 1) p : Rg N) k = (p %ₘ (X ^ N + 1)).coeff k := by
  unfold cf
  have h := Function.surjInv_eq (AdjoinRoot.mk_surjective (g := (X ^ N + 1 : ℤ[X]))) (AdjoinRoot.mk (X ^ N + 1) p)
  rw [← AdjoinRoot.modByMonicHom_mk (monic hN), h, AdjoinRoot.modByMonicHom_mk]

theorem cf_eq (hN : 0 < N) (f : Rg N) (k : Nat) : cf f k = (AdjoinRoot.modByMonicHom (monic hN) f).coeff k := by
  obtain ⟨p, rfl⟩ := AdjoinRoot.mk_surjective f
  rw [cf_mk hN, AdjoinRoot.modByMonicHom_mk]

theorem cf_add (hN : 0 < N) (f g : Rg N) (k : Nat) : cf (f + g) k = cf f k + cf g k := by
  simp only [cf_eq hN, map_add, coeff_add]
theorem cf_neg (hN : 0 < N) (f : Rg N) (k : Nat) : cf (-f) k = -cf f k := by
  simp only [cf_eq hN, map_neg, coeff_neg]
theorem cf_sub (hN : 0 < N) (f g : Rg N) (k : Nat) : cf (f - g) k = cf f k - cf g k := by
  simp only [cf_eq hN, map_sub, coeff_sub]
theorem cf_zero (hN : 0 < N) (k : Nat) : cf (0 : Rg N) k = 0 := by
  simp only [cf_eq hN, map_zero, coeff_zero]
theorem cf_int_mul (hN : 0 < N) (c : ℤ) (f : Rg N) (k : Nat) : cf ((c : Rg N) * f) k = c * cf f k := by
  rw [← zsmul_eq_mul]
  simp only [cf_eq hN, map_zsmul]
  simp
theorem cf_sum (hN : 0 < N) {ι : Type*} (s : Finset ι) (f : ι → Rg N) (k : Nat) :
    cf (∑ i ∈ s, f i) k = ∑ i ∈ s, cf (f i) k := by
  simp only [cf_eq hN, map_sum, finsetSum_coeff]

theorem cf_of_ge (hN : 0 < N) (f : Rg N) {k : Nat} (hk : N ≤ k) : cf f k = 0 := by
  obtain ⟨p, rfl⟩ := AdjoinRoot.mk_surjective f
  rw [cf_mk hN]
  apply coeff_eq_zero_of_natDegree_lt
  have h1 : (X ^ N + 1 : ℤ[X]) ≠ 1 := by
    intro h
    have := natDegree hN
    rw [h] at this; simp at this; omega
  have := natDegree_modByMonic_lt p (monic hN) h1
  rw [natDegree hN] at this
  omega

theorem sum_cf (hN : 0 < N) (f : Rg N) : f = ∑ k ∈ Finset.range N, (cf f k : Rg N) * xx ^ k := by
  obtain ⟨p, rfl⟩ := AdjoinRoot.mk_surjective f
  have h := AdjoinRoot.mk_leftInverse (monic hN) (AdjoinRoot.mk (X ^ N + 1) p)
  have h1 : (X ^ N + 1 : ℤ[X]) ≠ 1 := by
    intro h
    have := natDegree hN
    rw [h] at this; simp at this; omega
  have hd := natDegree_modByMonic_lt p (monic hN) h1
  rw [natDegree hN] at hd
  conv_lhs => rw [← h, AdjoinRoot.modByMonicHom_mk, as_sum_range' _ N hd]
  rw [map_sum]
  apply Finset.sum_congr rfl
  intro k _
  rw [cf_mk hN, ← C_mul_X_pow_eq_monomial, map_mul, map_pow, AdjoinRoot.mk_X]
  simp [xx]

theorem cf_xx_pow (hN : 0 < N) {m : Nat} (hm : m < N) (k : Nat) : cf (xx ^ m : Rg N) k = if m = k then 1 else 0 := by
  have : (xx ^ m : Rg N) = AdjoinRoot.mk (X ^ N + 1) (X ^ m) := by rw [map_pow, AdjoinRoot.mk_X]; rfl
  rw [this, cf_mk hN, (modByMonic_eq_self_iff (monic hN)).mpr, coeff_X_pow]
  · simp only [eq_comm]
  · rw [degree_X_pow, degree_eq_natDegree (monic hN).ne_zero, natDegree hN]
    exact_mod_cast hm

theorem cf_ofCoeffs (hN : 0 < N) (c : Nat → ℤ) {k : Nat} (hk : k < N) : cf (ofCoeffs N c) k = c k := by
  unfold ofCoeffs
  rw [cf_sum hN, Finset.sum_eq_single k]
  · rw [cf_int_mul hN, cf_xx_pow hN hk, if_pos rfl, mul_one]
  · intro i hi hne
    rw [cf_int_mul hN, cf_xx_pow hN (Finset.mem_range.mp hi), if_neg hne, mul_zero]
  · intro h; exact absurd (Finset.mem_range.mpr hk) h

theorem ofCoeffs_cf (hN : 0 < N) (f : Rg N) : ofCoeffs N (cf f) = f := (sum_cf hN f).symm

theorem ext_cf (hN : 0 < N) {f g : Rg N} (h : ∀ k, k < N → cf f k = cf g k) : f = g := by
  rw [sum_cf hN f, sum_cf hN g]
  apply Finset.sum_congr rfl
  intro k hk
  rw [h k (Finset.mem_range.mp hk)]

/-- Coefficients of a power of `X`. -/
theorem cf_xx_pow' (hN : 0 < N) (m k : Nat) :
    cf (xx ^ m : Rg N) k = if m % N = k then (-1) ^ (m / N) else 0 := by
  have h : (xx ^ m : Rg N) = (((-1) ^ (m / N) : ℤ) : Rg N) * xx ^ (m % N) := by
    conv_lhs => rw [← Nat.div_add_mod m N, pow_add, pow_mul, xx_pow]
    push_cast; rfl
  rw [h, cf_int_mul hN, cf_xx_pow hN (Nat.mod_lt _ hN)]
  split_ifs <;> simp

theorem cf_int (hN : 0 < N) (c : ℤ) (k : Nat) : cf (c : Rg N) k = if k = 0 then c else 0 := by
  have := cf_int_mul hN c (xx ^ 0 : Rg N) k
  rw [pow_zero, mul_one] at this
  rw [this, ← pow_zero (xx : Rg N), cf_xx_pow hN hN]
  by_cases h : k = 0
  · rw [if_pos h.symm, if_pos h, mul_one]
  · rw [if_neg (Ne.symm h), if_neg h, mul_zero]

/-- Multiplication by `X` is a negated rotation. -/
theorem cf_xx_mul (hN : 0 < N) (f : Rg N) {k : Nat} (hk : k < N) :
    cf (xx * f) k = if k = 0 then -cf f (N - 1) else cf f (k - 1) := by
  conv_lhs => rw [sum_cf hN f, Finset.mul_sum, cf_sum hN]
  have : ∀ i ∈ Finset.range N, cf (xx * ((cf f i : Rg N) * xx ^ i)) k =
      cf f i * (if (i + 1) % N = k then (-1) ^ ((i + 1) / N) else 0) := by
    intro i _
    rw [show (xx : Rg N) * ((cf f i : Rg N) * xx ^ i) = (cf f i : Rg N) * xx ^ (i + 1) by ring, cf_int_mul hN, cf_xx_pow' hN]
  rw [Finset.sum_congr rfl this]
  by_cases h0 : k = 0
  · rw [if_pos h0, Finset.sum_eq_single (N - 1)]
    · rw [show N - 1 + 1 = N by omega, Nat.mod_self, if_pos h0.symm, Nat.div_self hN]; ring
    · intro i hi hne
      rw [Finset.mem_range] at hi
      rw [Nat.mod_eq_of_lt (by omega), if_neg (by omega), mul_zero]
    · intro h; exact absurd (Finset.mem_range.mpr (by omega)) h
  · rw [if_neg h0, Finset.sum_eq_single (k - 1)]
    · rw [show k - 1 + 1 = k by omega, Nat.mod_eq_of_lt hk, if_pos rfl, Nat.div_eq_of_lt hk]; ring
    · intro i hi hne
      rw [Finset.mem_range] at hi
      by_cases hi' : i + 1 = N
      · rw [hi', Nat.mod_self, if_neg (by omega), mul_zero]
      · rw [Nat.mod_eq_of_lt (by omega), if_neg (by omega), mul_zero]
    · intro h; exact absurd (Finset.mem_range.mpr (by omega)) h

theorem dvd_iff (hN : 0 < N) (Q : ℤ) (f : Rg N) : (Q : Rg N) ∣ f ↔ ∀ k, k < N → Q ∣ cf f k := by
  constructor
  · rintro ⟨g, rfl⟩ k _
    rw [cf_int_mul hN]; exact dvd_mul_right _ _
  · intro h
    choose! c hc using h
    refine ⟨ofCoeffs N c, ext_cf hN fun k hk => ?_⟩
    rw [cf_int_mul hN, cf_ofCoeffs hN _ hk, hc k hk]

/-! ### Evaluation -/

section ev
variable {S : Type*} [CommRing S]

/-- For `z^N = -1`, evaluation at `z` as a ring homomorphism. -/
noncomputable def evHom (z : S) (hz : z ^ N = -1) : Rg N →+* S :=
  AdjoinRoot.lift (Int.castRingHom S) z (by simp [eval₂_add, eval₂_pow, eval₂_X, hz])

theorem evHom_xx (z : S) (hz : z ^ N = -1) : evHom z hz xx = z := AdjoinRoot.lift_root _

theorem ev_eq (hN : 0 < N) (z : S) (hz : z ^ N = -1) (f : Rg N) : ev z f = evHom z hz f := by
  conv_rhs => rw [sum_cf hN f, map_sum]
  apply Finset.sum_congr rfl
  intro k _
  rw [map_mul, map_pow, evHom_xx, map_intCast]

theorem ev_add (hN : 0 < N) (z : S) (f g : Rg N) : ev z (f + g) = ev z f + ev z g := by
  simp only [ev, cf_add hN, Int.cast_add, add_mul, Finset.sum_add_distrib]
theorem ev_neg (hN : 0 < N) (z : S) (f : Rg N) : ev z (-f) = -ev z f := by
  simp only [ev, cf_neg hN, Int.cast_neg, neg_mul, Finset.sum_neg_distrib]
theorem ev_sub (hN : 0 < N) (z : S) (f g : Rg N) : ev z (f - g) = ev z f - ev z g := by
  rw [sub_eq_add_neg, ev_add hN, ev_neg hN, sub_eq_add_neg]
theorem ev_zero (hN : 0 < N) (z : S) : ev z (0 : Rg N) = 0 := by simp [ev, cf_zero hN]
theorem ev_mul (hN : 0 < N) (z : S) (hz : z ^ N = -1) (f g : Rg N) : ev z (f * g) = ev z f * ev z g := by
  rw [ev_eq hN z hz, ev_eq hN z hz, ev_eq hN z hz, map_mul]
theorem ev_pow (hN : 0 < N) (z : S) (hz : z ^ N = -1) (f : Rg N) (n : Nat) : ev z (f ^ n) = ev z f ^ n := by
  rw [ev_eq hN z hz, ev_eq hN z hz, map_pow]
theorem ev_xx (hN : 0 < N) (z : S) (hz : z ^ N = -1) : ev z (xx : Rg N) = z := by rw [ev_eq hN z hz, evHom_xx]
theorem ev_int (hN : 0 < N) (z : S) (hz : z ^ N = -1) (c : ℤ) : ev z (c : Rg N) = c := by
  rw [ev_eq hN z hz, map_intCast]
theorem ev_one (hN : 0 < N) (z : S) (hz : z ^ N = -1) : ev z (1 : Rg N) = 1 := by
  rw [ev_eq hN z hz, map_one]
end ev

/-! ### The automorphisms `X ↦ X^k` -/

theorem xx_pow_odd {k : Nat} (hk : Odd k) : ((xx : Rg N) ^ k) ^ N = -1 := by
  rw [← pow_mul, mul_comm, pow_mul, xx_pow, hk.neg_one_pow]

theorem sg_add (hN : 0 < N) (k : Nat) (f g : Rg N) : sg k (f + g) = sg k f + sg k g := ev_add hN _ _ _
theorem sg_sub (hN : 0 < N) (k : Nat) (f g : Rg N) : sg k (f - g) = sg k f - sg k g := ev_sub hN _ _ _
theorem sg_neg (hN : 0 < N) (k : Nat) (f : Rg N) : sg k (-f) = -sg k f := ev_neg hN _ _
theorem sg_mul (hN : 0 < N) {k : Nat} (hk : Odd k) (f g : Rg N) : sg k (f * g) = sg k f * sg k g :=
  ev_mul hN _ (xx_pow_odd hk) _ _
theorem sg_int (hN : 0 < N) {k : Nat} (hk : Odd k) (c : ℤ) : sg k (c : Rg N) = c := by
  rw [sg, ev_int hN _ (xx_pow_odd hk)]
theorem sg_xx (hN : 0 < N) {k : Nat} (hk : Odd k) : sg k (xx : Rg N) = xx ^ k := ev_xx hN _ (xx_pow_odd hk)
theorem sg_pow (hN : 0 < N) {k : Nat} (hk : Odd k) (f : Rg N) (n : Nat) : sg k (f ^ n) = sg k f ^ n :=
  ev_pow hN _ (xx_pow_odd hk) _ _

theorem cf_sg (hN : 0 < N) (k : Nat) (f : Rg N) (j : Nat) :
    cf (sg k f) j = ∑ i ∈ Finset.range N, if i * k % N = j then cf f i * (-1) ^ (i * k / N) else 0 := by
  rw [sg, ev, cf_sum hN]
  apply Finset.sum_congr rfl
  intro i _
  rw [cf_int_mul hN, ← pow_mul, cf_xx_pow' hN, mul_comm k i]
  split_ifs <;> simp

theorem ev_sg {S : Type*} [CommRing S] (hN : 0 < N) (z : S) (hz : z ^ N = -1) {k : Nat} (f : Rg N) :
    ev z (sg k f) = ev (z ^ k) f := by
  rw [ev_eq hN z hz, sg, ev, map_sum, ev]
  apply Finset.sum_congr rfl
  intro i _
  rw [map_mul, map_pow, map_pow, map_intCast, evHom_xx]

theorem sg_sg (hN : 0 < N) {k l : Nat} (hl : Odd l) (f : Rg N) : sg l (sg k f) = sg (l * k) f := by
  rw [sg, ev_sg hN _ (xx_pow_odd hl), sg, ← pow_mul]

theorem xx_pow_two_mul : (xx : Rg N) ^ (2 * N) = 1 := by
  rw [mul_comm, pow_mul, xx_pow]; ring

theorem sg_mod (k : Nat) (f : Rg N) : sg (k % (2 * N)) f = sg k f := by
  have : (xx : Rg N) ^ (k % (2 * N)) = xx ^ k := by
    conv_rhs => rw [← Nat.div_add_mod k (2 * N), pow_add, pow_mul, xx_pow_two_mul, one_pow, one_mul]
  rw [sg, this, sg]

theorem sg_one (hN : 0 < N) (f : Rg N) : sg 1 f = f := by
  rw [sg, pow_one, ev, ← sum_cf hN]

/-! ### Sizes -/

theorem Bdd.mono {B B' : ℤ} {f : Rg N} (h : Bdd B f) (hB : B ≤ B') : Bdd B' f := fun k hk => (h k hk).trans hB
theorem Bdd.nonneg (hN : 0 < N) {B : ℤ} {f : Rg N} (h : Bdd B f) : 0 ≤ B := (abs_nonneg _).trans (h 0 hN)
theorem Bdd.zero (hN : 0 < N) : Bdd 0 (0 : Rg N) := fun k _ => by rw [cf_zero hN, abs_zero]
theorem Bdd.add (hN : 0 < N) {A B : ℤ} {f g : Rg N} (hf : Bdd A f) (hg : Bdd B g) : Bdd (A + B) (f + g) := by
  intro k hk
  rw [cf_add hN]
  exact (abs_add_le _ _).trans (add_le_add (hf k hk) (hg k hk))
theorem Bdd.neg (hN : 0 < N) {A : ℤ} {f : Rg N} (hf : Bdd A f) : Bdd A (-f) := by
  intro k hk
  rw [cf_neg hN, abs_neg]; exact hf k hk
theorem Bdd.sub (hN : 0 < N) {A B : ℤ} {f g : Rg N} (hf : Bdd A f) (hg : Bdd B g) : Bdd (A + B) (f - g) := by
  rw [sub_eq_add_neg]; exact hf.add hN (hg.neg hN)
theorem Bdd.int_mul (hN : 0 < N) {A : ℤ} (c : ℤ) {f : Rg N} (hf : Bdd A f) : Bdd (|c| * A) ((c : Rg N) * f) := by
  intro k hk
  rw [cf_int_mul hN, abs_mul]
  exact mul_le_mul_of_nonneg_left (hf k hk) (abs_nonneg _)
theorem Bdd.sum (hN : 0 < N) {ι : Type*} (s : Finset ι) {A : ι → ℤ} {f : ι → Rg N} (h : ∀ i ∈ s, Bdd (A i) (f i)) :
    Bdd (∑ i ∈ s, A i) (∑ i ∈ s, f i) := by
  intro k hk
  rw [cf_sum hN]
  exact (Finset.abs_sum_le_sum_abs _ _).trans (Finset.sum_le_sum fun i hi => h i hi k hk)
theorem Bdd.xx_mul (hN : 0 < N) {A : ℤ} {f : Rg N} (hf : Bdd A f) : Bdd A (xx * f) := by
  intro k hk
  rw [cf_xx_mul hN _ hk]
  split_ifs
  · rw [abs_neg]; exact hf _ (by omega)
  · exact hf _ (by omega)
theorem Bdd.xx_pow_mul (hN : 0 < N) {A : ℤ} {f : Rg N} (hf : Bdd A f) (m : Nat) : Bdd A (xx ^ m * f) := by
  induction m with
  | zero => rwa [pow_zero, one_mul]
  | succ m ih => rw [pow_succ', mul_assoc]; exact ih.xx_mul hN
theorem Bdd.mul (hN : 0 < N) {A B : ℤ} {f g : Rg N} (hf : Bdd A f) (hg : Bdd B g) : Bdd (N * A * B) (f * g) := by
  have h : f * g = ∑ i ∈ Finset.range N, (cf f i : Rg N) * (xx ^ i * g) := by
    conv_lhs => rw [sum_cf hN f, Finset.sum_mul]
    exact Finset.sum_congr rfl fun i _ => by ring
  rw [h]
  have hs : Bdd (∑ i ∈ Finset.range N, A * B) (∑ i ∈ Finset.range N, (cf f i : Rg N) * (xx ^ i * g)) := by
    apply Bdd.sum hN
    intro i hi
    exact ((hg.xx_pow_mul hN i).int_mul hN (cf f i)).mono
      (mul_le_mul_of_nonneg_right (hf i (Finset.mem_range.mp hi)) (hg.nonneg hN))
  refine hs.mono (le_of_eq ?_)
  rw [Finset.sum_const, Finset.card_range, nsmul_eq_mul]; ring
theorem Bdd.sg (hN : 0 < N) {A : ℤ} {f : Rg N} (hf : Bdd A f) {k : Nat} (hk : Nat.Coprime k N) : Bdd A (sg k f) := by
  intro j hj
  rw [cf_sg hN]
  have hA := hf.nonneg hN
  by_cases hex : ∃ i, i < N ∧ i * k % N = j
  · obtain ⟨i, hi, hij⟩ := hex
    rw [Finset.sum_eq_single i]
    · rw [if_pos hij, abs_mul, abs_pow, abs_neg, abs_one, one_pow, mul_one]
      exact hf i hi
    · intro i' hi' hne
      rw [if_neg]
      intro h
      apply hne
      have h2 : i' * k ≡ i * k [MOD N] := by rw [Nat.ModEq, h, hij]
      have h3 := Nat.ModEq.cancel_right_of_coprime (by rw [Nat.gcd_comm]; exact hk) h2
      rw [Nat.ModEq, Nat.mod_eq_of_lt (Finset.mem_range.mp hi'), Nat.mod_eq_of_lt hi] at h3
      exact h3
    · intro h; exact absurd (Finset.mem_range.mpr hi) h
  · rw [Finset.sum_eq_zero]
    · rwa [abs_zero]
    · intro i hi
      rw [if_neg]
      intro h
      exact hex ⟨i, Finset.mem_range.mp hi, h⟩

/-- Coefficients of a product. -/
theorem cf_mul (hN : 0 < N) (f g : Rg N) {k : Nat} (hk : k < N) :
    cf (f * g) k = Spec.negacyclic N (cf f) (cf g) k := by
  have h : f * g = ∑ i ∈ Finset.range N, ∑ j ∈ Finset.range N, ((cf f i * cf g j : ℤ) : Rg N) * xx ^ (i + j) := by
    conv_lhs => rw [sum_cf hN f, sum_cf hN g, Finset.sum_mul_sum]
    apply Finset.sum_congr rfl; intro i _
    apply Finset.sum_congr rfl; intro j _
    push_cast; ring
  rw [h, cf_sum hN, Spec.negacyclic]
  apply Finset.sum_congr rfl; intro i hi
  rw [cf_sum hN]
  apply Finset.sum_congr rfl; intro j hj
  rw [Finset.mem_range] at hi hj
  rw [cf_int_mul hN, cf_xx_pow' hN]
  by_cases hlt : i + j < N
  · rw [Nat.mod_eq_of_lt hlt, Nat.div_eq_of_lt hlt]
    split_ifs <;> omega
  · have h1 : (i + j) % N = i + j - N := by rw [Nat.mod_eq_sub_mod (by omega), Nat.mod_eq_of_lt (by omega)]
    have h2 : (i + j) / N = 1 := by
      rw [Nat.div_eq_sub_div hN (by omega), Nat.div_eq_of_lt (by omega)]
    rw [h1, h2]
    split_ifs <;> omega

end Rg
end OnionPIR
