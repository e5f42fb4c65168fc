/-
Tail bounds of weighted sums of centered binomial values drawn from several streams, by counting (Chernoff's method), for C78.
-/
import Verif.Proofs.Tail
import Mathlib.Algebra.BigOperators.Field

namespace OnionPIR.Sampling
open Spec Real

/-- The moment generating function of a weighted sum of outputs. -/
theorem sum_blocks_weighted (v n : Nat) (x : ℝ) (e : Fin n → ℝ) :
    ∑ p : Fin n → Fin (4 * v) → Bool, exp (x * ∑ i, (blockValue v (p i) : Int) * e i) ≤
      2 ^ (4 * v * n) * exp (v * x ^ 2 * (∑ i, e i ^ 2) / 2) := by
  have h : ∀ p : Fin n → Fin (4 * v) → Bool, exp (x * ∑ i, (blockValue v (p i) : Int) * e i) =
      ∏ i, exp ((x * e i) * (blockValue v (p i) : Int)) := by
    intro p
    rw [← exp_sum, Finset.mul_sum]
    congr 1
    exact Finset.sum_congr rfl fun k _ => by ring
  simp only [h]
  have h2 := Finset.prod_univ_sum (fun _ : Fin n => (Finset.univ : Finset (Fin (4 * v) → Bool)))
    fun i b => exp ((x * e i) * (blockValue v b : Int))
  rw [Fintype.piFinset_univ] at h2
  rw [← h2]
  calc _ ≤ ∏ i : Fin n, 2 ^ (4 * v) * exp (v * (x * e i) ^ 2 / 2) :=
        Finset.prod_le_prod (fun k _ => Finset.sum_nonneg fun b _ => (exp_pos _).le) fun i _ => sum_block v _
    _ = _ := by
        rw [Finset.prod_mul_distrib, Finset.prod_const, Finset.card_univ, Fintype.card_fin, ← exp_sum, ← pow_mul]
        congr 2
        rw [Finset.mul_sum, Finset.sum_div]
        exact Finset.sum_congr rfl fun i _ => by ring

/-- The same over the random words. -/
theorem sum_words_weighted {v n W : Nat} (hW : 4 * v * n ≤ 64 * W) (x : ℝ) (e : Nat → ℝ) :
    ∑ w : Fin W → Fin (2 ^ 64), exp (x * ∑ i ∈ Finset.range n, (cbdValue (stream w) v i : Int) * e i) ≤
      2 ^ (64 * W) * exp (v * x ^ 2 * (∑ i ∈ Finset.range n, e i ^ 2) / 2) := by
  obtain ⟨R, hR⟩ : ∃ R, 64 * W = 4 * v * n + R := ⟨64 * W - 4 * v * n, by omega⟩
  let g : (Fin W → Fin (2 ^ 64)) → (Fin n → Fin (4 * v) → Bool) × (Fin R → Bool) :=
    fun w => split v n R (fun k => bits w (finCongr hR.symm k))
  have hg : Function.Bijective g := by
    have h := (Equiv.arrowCongr (finCongr hR) (Equiv.refl Bool)).bijective.comp (bits_bijective W)
    exact (split_bijective v n R).comp h
  have h : ∀ w, exp (x * ∑ i ∈ Finset.range n, (cbdValue (stream w) v i : Int) * e i) =
      (fun p : (Fin n → Fin (4 * v) → Bool) × (Fin R → Bool) => exp (x * ∑ i, (blockValue v (p.1 i) : Int) * e i)) (g w) := by
    intro w
    rw [Finset.sum_range]
    simp only [cbdValue_split hR w, g]
  simp only [h]
  rw [hg.sum_comp (fun p : (Fin n → Fin (4 * v) → Bool) × (Fin R → Bool) => exp (x * ∑ i, (blockValue v (p.1 i) : Int) * e i)),
    Fintype.sum_prod_type]
  simp only [Finset.sum_const, Finset.card_univ, Fintype.card_pi, Fintype.card_bool, Finset.prod_const, Fintype.card_fin, nsmul_eq_mul]
  rw [← Finset.mul_sum, hR, pow_add]
  have := sum_blocks_weighted v n x (fun i => e i)
  rw [Finset.sum_range]
  calc _ ≤ ((2 ^ R : Nat) : ℝ) * (2 ^ (4 * v * n) * exp (v * x ^ 2 * (∑ i : Fin n, e i ^ 2) / 2)) := mul_le_mul_of_nonneg_left this (by positivity)
    _ = _ := by push_cast; ring

theorem streams_of_lt {m W : Nat} (w : Fin m → Fin W → Fin (2 ^ 64)) {l : Nat} (hl : l < m) : streams w l = stream (w ⟨l, hl⟩) := by
  funext i; unfold streams; rw [dif_pos hl]

theorem streams_lt {m W : Nat} (w : Fin m → Fin W → Fin (2 ^ 64)) (l i : Nat) : streams w l i < 2 ^ 64 := by
  unfold streams
  split
  · exact stream_lt _ _
  · norm_num

/-- The same over several streams. -/
theorem sum_rows {v n m W : Nat} (hW : 4 * v * n ≤ 64 * W) (x : ℝ) (e : Nat → Nat → ℝ) :
    ∑ w : Fin m → Fin W → Fin (2 ^ 64), exp (x * ∑ l ∈ Finset.range m, ∑ i ∈ Finset.range n, (cbdValue (streams w l) v i : Int) * e l i) ≤
      2 ^ (64 * W * m) * exp (v * x ^ 2 * (∑ l ∈ Finset.range m, ∑ i ∈ Finset.range n, e l i ^ 2) / 2) := by
  have h : ∀ w : Fin m → Fin W → Fin (2 ^ 64),
      exp (x * ∑ l ∈ Finset.range m, ∑ i ∈ Finset.range n, (cbdValue (streams w l) v i : Int) * e l i) =
      ∏ l : Fin m, exp (x * ∑ i ∈ Finset.range n, (cbdValue (stream (w l)) v i : Int) * e l i) := by
    intro w
    rw [← exp_sum, Finset.mul_sum, Finset.sum_range]
    congr 1
    exact Finset.sum_congr rfl fun l _ => by rw [streams_of_lt w l.2]
  simp only [h]
  have h2 := Finset.prod_univ_sum (fun _ : Fin m => (Finset.univ : Finset (Fin W → Fin (2 ^ 64))))
    fun l w => exp (x * ∑ i ∈ Finset.range n, (cbdValue (stream w) v i : Int) * e l i)
  rw [Fintype.piFinset_univ] at h2
  rw [← h2]
  calc _ ≤ ∏ l : Fin m, 2 ^ (64 * W) * exp (v * x ^ 2 * (∑ i ∈ Finset.range n, e l i ^ 2) / 2) :=
        Finset.prod_le_prod (fun k _ => Finset.sum_nonneg fun b _ => (exp_pos _).le) fun l _ => sum_words_weighted hW x (e l)
    _ = _ := by
        rw [Finset.prod_mul_distrib, Finset.prod_const, Finset.card_univ, Fintype.card_fin, ← exp_sum, ← pow_mul]
        congr 2
        rw [Finset.mul_sum, Finset.sum_div, Finset.sum_range]

/-- Chernoff's bound, one side. -/
theorem card_rows_one {v n m W : Nat} (hv : 1 ≤ v) (hW : 4 * v * n ≤ 64 * W) (e : Nat → Nat → ℝ) {D : ℝ} (hD : 0 < D)
    (he : ∑ l ∈ Finset.range m, ∑ i ∈ Finset.range n, e l i ^ 2 ≤ D) {T : ℝ} (hT : 0 ≤ T) (s : Finset (Fin m → Fin W → Fin (2 ^ 64)))
    (hs : ∀ w ∈ s, T ≤ ∑ l ∈ Finset.range m, ∑ i ∈ Finset.range n, (cbdValue (streams w l) v i : Int) * e l i) :
    (s.card : ℝ) ≤ 2 ^ (64 * W * m) * exp (-(T ^ 2 / (2 * v * D))) := by
  have hvn : (0 : ℝ) < v * D := by positivity
  set x : ℝ := T / (v * D) with hx
  have hx0 : 0 ≤ x := by positivity
  have h1 : (s.card : ℝ) * exp (x * T) ≤ 2 ^ (64 * W * m) * exp (v * x ^ 2 * D / 2) := by
    calc (s.card : ℝ) * exp (x * T) = ∑ w ∈ s, exp (x * T) := by rw [Finset.sum_const, nsmul_eq_mul]
      _ ≤ ∑ w ∈ s, exp (x * ∑ l ∈ Finset.range m, ∑ i ∈ Finset.range n, (cbdValue (streams w l) v i : Int) * e l i) :=
          Finset.sum_le_sum fun w hw => exp_le_exp.mpr (mul_le_mul_of_nonneg_left (hs w hw) hx0)
      _ ≤ ∑ w, exp (x * ∑ l ∈ Finset.range m, ∑ i ∈ Finset.range n, (cbdValue (streams w l) v i : Int) * e l i) :=
          Finset.sum_le_sum_of_subset_of_nonneg (Finset.subset_univ _) fun w _ _ => (exp_pos _).le
      _ ≤ _ := sum_rows hW x e
      _ ≤ _ := by
        refine mul_le_mul_of_nonneg_left (exp_le_exp.mpr ?_) (by positivity)
        have : (v : ℝ) * x ^ 2 * (∑ l ∈ Finset.range m, ∑ i ∈ Finset.range n, e l i ^ 2) ≤ v * x ^ 2 * D :=
          mul_le_mul_of_nonneg_left he (by positivity)
        linarith
  have h2 : exp (v * x ^ 2 * D / 2) = exp (-(T ^ 2 / (2 * v * D))) * exp (x * T) := by
    rw [← exp_add]
    congr 1
    rw [hx]
    field_simp
    ring
  rw [h2, ← mul_assoc] at h1
  exact le_of_mul_le_mul_right h1 (exp_pos _)

/-- Chernoff's bound: the number of choices of words for which the weighted sum of outputs is at least `T` in absolute value. -/
theorem card_rows {v n m W : Nat} (hv : 1 ≤ v) (hW : 4 * v * n ≤ 64 * W) (e : Nat → Nat → ℝ) {D : ℝ} (hD : 0 < D)
    (he : ∑ l ∈ Finset.range m, ∑ i ∈ Finset.range n, e l i ^ 2 ≤ D) {T : ℝ} (hT : 0 ≤ T) (s : Finset (Fin m → Fin W → Fin (2 ^ 64)))
    (hs : ∀ w ∈ s, T ≤ |∑ l ∈ Finset.range m, ∑ i ∈ Finset.range n, (cbdValue (streams w l) v i : Int) * e l i|) :
    (s.card : ℝ) ≤ 2 ^ (64 * W * m) * (2 * exp (-(T ^ 2 / (2 * v * D)))) := by
  classical
  have h1 := card_rows_one hv hW e hD he hT
    (s.filter fun w => T ≤ ∑ l ∈ Finset.range m, ∑ i ∈ Finset.range n, (cbdValue (streams w l) v i : Int) * e l i)
    (fun w hw => (Finset.mem_filter.mp hw).2)
  have h2 := card_rows_one hv hW (fun l i => -e l i) hD (by simpa using he) hT
    (s.filter fun w => ¬ T ≤ ∑ l ∈ Finset.range m, ∑ i ∈ Finset.range n, (cbdValue (streams w l) v i : Int) * e l i) (fun w hw => by
      rw [Finset.mem_filter] at hw
      have := hs w hw.1
      rw [le_abs] at this
      refine (this.resolve_left hw.2).trans (le_of_eq ?_)
      rw [← Finset.sum_neg_distrib]
      refine Finset.sum_congr rfl fun l _ => ?_
      rw [← Finset.sum_neg_distrib]
      exact Finset.sum_congr rfl fun i _ => by ring)
  have h3 := Finset.card_filter_add_card_filter_not (s := s)
    (fun w => T ≤ ∑ l ∈ Finset.range m, ∑ i ∈ Finset.range n, (cbdValue (streams w l) v i : Int) * e l i)
  rw [← h3, Nat.cast_add]
  exact (add_le_add h1 h2).trans_eq (by ring)

end OnionPIR.Sampling
