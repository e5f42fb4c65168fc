import Verif.Spec.Attained
import Verif.Proofs.Utils
import Verif.Proofs.Ring
import Batteries.Data.Nat.Lemmas
/-
Streams of random words with given samples, and polynomials with the largest products.
-/
namespace OnionPIR
open Rg Spec

/-- A stream of words with given bits. -/
theorem exists_stream (b : Nat → Bool) : ∃ rng : Nat → Nat, (∀ i, rng i < 2 ^ 64) ∧ ∀ j, streamBit rng j = b j := by
  refine ⟨fun i => Nat.ofBits fun k : Fin 64 => b (64 * i + k), fun i => Nat.ofBits_lt_two_pow _, fun j => ?_⟩
  unfold streamBit
  rw [Nat.testBit_ofBits_lt _ _ (Nat.mod_lt _ (by norm_num))]
  exact congrArg b (Nat.div_add_mod j 64)

theorem sum_lt (n m : Nat) (h : m ≤ n) : ∑ k ∈ Finset.range n, (decide (k < m)).toNat = m := by
  have : ∀ k, (decide (k < m)).toNat = if k < m then 1 else 0 := fun k => by split_ifs with hk <;> simp [hk]
  simp only [this]
  rw [← Finset.sum_filter, Finset.sum_const, smul_eq_mul, mul_one, show (Finset.range n).filter (· < m) = Finset.range m by
    ext k; simp only [Finset.mem_filter, Finset.mem_range]; omega, Finset.card_range]

/-- A stream of words with given samples. -/
theorem exists_samples {v : Nat} (hv : 1 ≤ v) (e : Nat → ℤ) (he : ∀ i, |e i| ≤ 2 * v) : ∃ rng : Nat → Nat, (∀ i, rng i < 2 ^ 64) ∧ ∀ i, cbdValue rng v i = e i := by
  obtain ⟨rng, h1, h2⟩ := exists_stream fun j =>
    if j % (4 * v) < 2 * v then decide (j % (4 * v) < (e (j / (4 * v))).toNat) else decide (j % (4 * v) - 2 * v < (-e (j / (4 * v))).toNat)
  refine ⟨rng, h1, fun i => ?_⟩
  have hb := abs_le.mp (he i)
  have hdiv : ∀ r, r < 4 * v → (4 * v * i + r) % (4 * v) = r ∧ (4 * v * i + r) / (4 * v) = i := by
    intro r hr
    rw [Nat.mul_add_mod, Nat.mod_eq_of_lt hr, Nat.mul_add_div (by omega), Nat.div_eq_of_lt hr]
    exact ⟨rfl, rfl⟩
  have a1 : ∑ k ∈ Finset.range (2 * v), (streamBit rng (4 * v * i + k)).toNat = (e i).toNat := by
    rw [← sum_lt (2 * v) (e i).toNat (by omega)]
    refine Finset.sum_congr rfl fun k hk => ?_
    have hk := Finset.mem_range.mp hk
    obtain ⟨d1, d2⟩ := hdiv k (by omega)
    rw [h2, d1, d2, if_pos hk]
  have a2 : ∑ k ∈ Finset.range (2 * v), (streamBit rng (4 * v * i + 2 * v + k)).toNat = (-e i).toNat := by
    rw [← sum_lt (2 * v) (-e i).toNat (by omega)]
    refine Finset.sum_congr rfl fun k hk => ?_
    have hk := Finset.mem_range.mp hk
    obtain ⟨d1, d2⟩ := hdiv (2 * v + k) (by omega)
    rw [Nat.add_assoc, h2, d1, d2, if_neg (by omega), Nat.add_sub_cancel_left]
  unfold cbdValue
  rw [a1, a2]
  omega

/-- The last coefficient of a product of two polynomials with constant coefficients. -/
theorem cf_last_const {N : Nat} (hN : 0 < N) {f g : Rg N} {a b : ℤ} (hf : ∀ k, k < N → cf f k = a) (hg : ∀ k, k < N → cf g k = b) :
    cf (f * g) (N - 1) = N * (a * b) := by
  rw [cf_mul hN f g (by omega)]
  unfold negacyclic
  have : ∀ i ∈ Finset.range N, ∑ j ∈ Finset.range N, (if i + j = N - 1 then cf f i * cf g j else if i + j = N - 1 + N then -(cf f i * cf g j) else 0) = a * b := by
    intro i hi
    have hi := Finset.mem_range.mp hi
    rw [Finset.sum_eq_single (N - 1 - i)]
    · rw [if_pos (by omega), hf i hi, hg _ (by omega)]
    · intro j hj hne
      have hj := Finset.mem_range.mp hj
      rw [if_neg (by omega), if_neg (by omega)]
    · intro hn
      exact absurd (Finset.mem_range.mpr (by omega)) hn
  rw [Finset.sum_congr rfl this, Finset.sum_const, Finset.card_range, nsmul_eq_mul]

theorem sum_getD_pred (ms : List Nat) : ∑ j ∈ Finset.range ms.length, (ms.getD j 1 - 1) = (ms.map fun q => q - 1).sum := by
  induction ms with
  | nil => simp
  | cons x l ih =>
    rw [List.length_cons, Finset.sum_range_succ', List.map_cons, List.sum_cons, ← ih]
    simp [add_comm]

/-- The last coefficient of the error of a switch of `allMinusOne` when all errors are `B`. -/
theorem switchError_top {N : Nat} (hN : 0 < N) {l : List Nat} (hl : ∀ q ∈ l, 0 < q) (i B : Nat) {e : Nat → List Int}
    (he : ∀ j k, k < N → (e j).getD k 0 = (B : ℤ)) : cf (switchError l i (allMinusOne N) e) (N - 1) = topNoise N l i B := by
  have hpos : ∀ j, 0 < (levelModuli l i).getD j 1 := by
    intro j
    rcases lt_or_ge j (levelModuli l i).length with hj | hj
    · rw [List.getD_eq_getElem _ _ hj]
      exact hl _ (List.mem_of_mem_take (List.getElem_mem hj))
    · rw [List.getD_eq_default _ _ hj]; norm_num
  unfold switchError topNoise
  rw [cf_sum hN, ← sum_getD_pred, Nat.cast_mul, Nat.cast_sum, Finset.mul_sum]
  refine Finset.sum_congr rfl fun j _ => ?_
  have hp := hpos j
  rw [cf_last_const hN (a := ((levelModuli l i).getD j 1 : ℤ) - 1) (b := B)]
  · rw [Nat.cast_mul, Nat.cast_sub hp]
    push_cast
    ring
  · intro k hk
    unfold digitRing allMinusOne
    rw [cf_ofCoeffs hN _ hk, cf_ofCoeffs hN _ hk]
    generalize (levelModuli l i).getD j 1 = q at hp
    rw [show (-1 : ℤ) = ((q : ℤ) - 1) + q * (-1) by ring, Int.add_mul_emod_self_left, Int.emod_eq_of_lt (by omega) (by omega)]
  · intro k hk
    unfold smallRing
    rw [cf_ofCoeffs hN _ hk, he j k hk]

/-- A number congruent to `a`, where `0 ≤ 2a ≤ Q`, is at least `a` in size. -/
theorem abs_of_congr {Q a : Nat} (h2 : 2 * a ≤ Q) {x : ℤ} (h : (Q : ℤ) ∣ x - a) : (a : ℤ) ≤ |x| := by
  obtain ⟨w, hw⟩ := h
  rcases lt_trichotomy w 0 with hw0 | rfl | hw0
  · have : (Q : ℤ) * w ≤ Q * (-1) := mul_le_mul_of_nonneg_left (by omega) (by omega)
    have := neg_abs_le x
    omega
  · have := le_abs_self x
    omega
  · have : 0 ≤ (Q : ℤ) * w := mul_nonneg (by omega) hw0.le
    have := le_abs_self x
    omega

/-- Odd exponents have inverses: every polynomial is the image of another under `X ↦ X^x`. -/
theorem sg_surjective {K x : Nat} (hx : Odd x) (f : Rg (2 ^ K)) : ∃ g : Rg (2 ^ K), sg x g = f := by
  have hN : 0 < 2 ^ K := by positivity
  have hc : Nat.Coprime x (2 * 2 ^ K) := by
    rw [← pow_succ']
    exact Nat.Coprime.pow_right _ (Nat.coprime_two_right.mpr hx)
  obtain ⟨y, -, hy⟩ := Nat.exists_mul_mod_eq_one_of_coprime hc (by omega)
  refine ⟨sg y f, ?_⟩
  rw [sg_sg hN hx, ← sg_mod, hy, sg_one hN]

end OnionPIR
