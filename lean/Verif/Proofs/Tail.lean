/-
Tail bounds of sums of centered binomial values, by counting (Chernoff's method), for C69.
-/
import Verif.Props.Sampling
import Mathlib.Analysis.SpecialFunctions.Trigonometric.Series
import Mathlib.Algebra.BigOperators.Ring.Finset

namespace OnionPIR.Sampling
open Spec Real

/-- The moment generating function of one bit. -/
theorem sum_bit (x : ℝ) : ∑ b : Bool, exp (x * ((b.toNat : ℝ) - 1 / 2)) ≤ 2 * exp (x ^ 2 / 8) := by
  have h := cosh_le_exp_half_sq (x / 2)
  rw [cosh_eq] at h
  rw [Fintype.sum_bool]
  have e1 : x * (((true.toNat : Nat) : ℝ) - 1 / 2) = x / 2 := by simp; ring
  have e2 : x * (((false.toNat : Nat) : ℝ) - 1 / 2) = -(x / 2) := by simp; ring
  rw [e1, e2, show x ^ 2 / 8 = (x / 2) ^ 2 / 2 by ring]
  linarith

theorem blockValue_eq (v : Nat) (b : Fin (4 * v) → Bool) :
    ((blockValue v b : Int) : ℝ) = ∑ k, (if k.1 < 2 * v then 1 else -1 : ℝ) * (((b k).toNat : ℝ) - 1 / 2) := by
  have e : (∑ k, (if k.1 < 2 * v then 1 else -1 : ℝ) * (((b k).toNat : ℝ) - 1 / 2)) =
      ∑ k : Fin (2 * v + 2 * v), (if k.1 < 2 * v then 1 else -1 : ℝ) * (((b ⟨k, by omega⟩).toNat : ℝ) - 1 / 2) :=
    Fintype.sum_equiv (finCongr (by omega)) _ _ fun k => rfl
  rw [e, Fin.sum_univ_add]
  unfold blockValue
  push_cast
  have e1 : ∀ k : Fin (2 * v), (if (Fin.castAdd (2 * v) k).1 < 2 * v then 1 else -1 : ℝ) *
      (((b ⟨(Fin.castAdd (2 * v) k).1, by have := k.2; simp; omega⟩).toNat : ℝ) - 1 / 2) = ((b ⟨k, by omega⟩).toNat : ℝ) - 1 / 2 := fun k => by
    rw [if_pos (by simp), one_mul]; rfl
  have e2 : ∀ k : Fin (2 * v), (if (Fin.natAdd (2 * v) k).1 < 2 * v then 1 else -1 : ℝ) *
      (((b ⟨(Fin.natAdd (2 * v) k).1, by have := k.2; simp; omega⟩).toNat : ℝ) - 1 / 2) = 1 / 2 - ((b ⟨2 * v + k, by omega⟩).toNat : ℝ) := fun k => by
    rw [if_neg (by simp), neg_one_mul, neg_sub]; rfl
  rw [Finset.sum_congr rfl fun k _ => e1 k, Finset.sum_congr rfl fun k _ => e2 k, Finset.sum_sub_distrib, Finset.sum_sub_distrib]
  ring

/-- The moment generating function of one output. -/
theorem sum_block (v : Nat) (x : ℝ) :
    ∑ b : Fin (4 * v) → Bool, exp (x * (blockValue v b : Int)) ≤ 2 ^ (4 * v) * exp (v * x ^ 2 / 2) := by
  have h : ∀ b : Fin (4 * v) → Bool, exp (x * (blockValue v b : Int)) =
      ∏ k, exp ((x * (if k.1 < 2 * v then 1 else -1 : ℝ)) * (((b k).toNat : ℝ) - 1 / 2)) := by
    intro b
    rw [← exp_sum, blockValue_eq, Finset.mul_sum]
    congr 1
    exact Finset.sum_congr rfl fun k _ => by ring
  simp only [h]
  have h2 := Finset.prod_univ_sum (fun _ : Fin (4 * v) => (Finset.univ : Finset Bool))
    fun k b => exp ((x * (if k.1 < 2 * v then 1 else -1 : ℝ)) * ((b.toNat : ℝ) - 1 / 2))
  rw [Fintype.piFinset_univ] at h2
  rw [← h2]
  calc _ ≤ ∏ _k : Fin (4 * v), 2 * exp (x ^ 2 / 8) := by
        refine Finset.prod_le_prod (fun k _ => Finset.sum_nonneg fun b _ => (exp_pos _).le) fun k _ => ?_
        refine (sum_bit _).trans (le_of_eq ?_)
        congr 2
        split <;> ring
    _ = _ := by
        rw [Finset.prod_const, Finset.card_univ, Fintype.card_fin, mul_pow, ← exp_nat_mul]
        congr 2
        push_cast
        ring

/-- The moment generating function of a sum of selected outputs. -/
theorem sum_blocks (v n : Nat) (x : ℝ) (e : Fin n → ℝ) (he : ∀ i, e i ^ 2 ≤ 1) :
    ∑ p : Fin n → Fin (4 * v) → Bool, exp (x * ∑ i, (blockValue v (p i) : Int) * e i) ≤
      2 ^ (4 * v * n) * exp (v * n * x ^ 2 / 2) := by
  have h : ∀ p : Fin n → Fin (4 * v) → Bool, exp (x * ∑ i, (blockValue v (p i) : Int) * e i) =
      ∏ i, exp ((x * e i) * (blockValue v (p i) : Int)) := by
    intro p
    rw [← exp_sum, Finset.mul_sum]
    congr 1
    exact Finset.sum_congr rfl fun k _ => by ring
  simp only [h]
  have h2 := Finset.prod_univ_sum (fun _ : Fin n => (Finset.univ : Finset (Fin (4 * v) → Bool)))
    fun i b => exp ((x * e i) * (blockValue v b : Int))
  rw [Fintype.piFinset_univ] at h2
  rw [← h2]
  calc _ ≤ ∏ _i : Fin n, 2 ^ (4 * v) * exp (v * x ^ 2 / 2) := by
        refine Finset.prod_le_prod (fun k _ => Finset.sum_nonneg fun b _ => (exp_pos _).le) fun i _ => ?_
        refine (sum_block v _).trans ?_
        refine mul_le_mul_of_nonneg_left (exp_le_exp.mpr ?_) (by positivity)
        have h1 := he i
        have h3 : (x * e i) ^ 2 ≤ x ^ 2 := by
          rw [mul_pow]
          calc x ^ 2 * e i ^ 2 ≤ x ^ 2 * 1 := mul_le_mul_of_nonneg_left h1 (sq_nonneg x)
            _ = x ^ 2 := mul_one _
        have h4 : (v : ℝ) * (x * e i) ^ 2 ≤ v * x ^ 2 := mul_le_mul_of_nonneg_left h3 (by positivity)
        linarith
    _ = _ := by
        rw [Finset.prod_const, Finset.card_univ, Fintype.card_fin, mul_pow, ← exp_nat_mul, ← pow_mul]
        congr 2
        ring

/-- The same over the random words. -/
theorem sum_words {v n W : Nat} (hW : 4 * v * n ≤ 64 * W) (x : ℝ) (e : Nat → ℝ) (he : ∀ i, e i ^ 2 ≤ 1) :
    ∑ w : Fin W → Fin (2 ^ 64), exp (x * ∑ i ∈ Finset.range n, (cbdValue (stream w) v i : Int) * e i) ≤
      2 ^ (64 * W) * exp (v * n * x ^ 2 / 2) := by
  obtain ⟨R, hR⟩ : ∃ R, 64 * W = 4 * v * n + R := ⟨64 * W - 4 * v * n, by omega⟩
  let g : (Fin W → Fin (2 ^ 64)) → (Fin n → Fin (4 * v) → Bool) × (Fin R → Bool) :=
    fun w => split v n R (fun k => bits w (finCongr hR.symm k))
  have hg : Function.Bijective g := by
    have h := (Equiv.arrowCongr (finCongr hR) (Equiv.refl Bool)).bijective.comp (bits_bijective W)
    exact (split_bijective v n R).comp h
  have h : ∀ w, exp (x * ∑ i ∈ Finset.range n, (cbdValue (stream w) v i : Int) * e i) =
      (fun p : (Fin n → Fin (4 * v) → Bool) × (Fin R → Bool) => exp (x * ∑ i, (blockValue v (p.1 i) : Int) * e i)) (g w) := by
    intro w
    rw [Finset.sum_range]
    simp only [cbdValue_split hR w, g]
  simp only [h]
  rw [hg.sum_comp (fun p : (Fin n → Fin (4 * v) → Bool) × (Fin R → Bool) => exp (x * ∑ i, (blockValue v (p.1 i) : Int) * e i)),
    Fintype.sum_prod_type]
  simp only [Finset.sum_const, Finset.card_univ, Fintype.card_pi, Fintype.card_bool, Finset.prod_const, Fintype.card_fin, nsmul_eq_mul]
  rw [← Finset.mul_sum, hR, pow_add]
  have := sum_blocks v n x (fun i => e i) (fun i => he i)
  calc _ ≤ ((2 ^ R : Nat) : ℝ) * (2 ^ (4 * v * n) * exp (v * n * x ^ 2 / 2)) := mul_le_mul_of_nonneg_left this (by positivity)
    _ = _ := by push_cast; ring

/-- Chernoff's bound: the number of choices of words for which the sum of outputs weighted by `e` is at least `T`. -/
theorem card_tail {v n W : Nat} (hv : 1 ≤ v) (hn : 1 ≤ n) (hW : 4 * v * n ≤ 64 * W) (e : Nat → ℝ) (he : ∀ i, e i ^ 2 ≤ 1) {T : ℝ}
    (hT : 0 ≤ T) (s : Finset (Fin W → Fin (2 ^ 64)))
    (hs : ∀ w ∈ s, T ≤ ∑ i ∈ Finset.range n, (cbdValue (stream w) v i : Int) * e i) :
    (s.card : ℝ) ≤ 2 ^ (64 * W) * exp (-(T ^ 2 / (2 * v * n))) := by
  have hvn : (0 : ℝ) < v * n := by positivity
  set x : ℝ := T / (v * n) with hx
  have hx0 : 0 ≤ x := by positivity
  have h1 : (s.card : ℝ) * exp (x * T) ≤ 2 ^ (64 * W) * exp (v * n * x ^ 2 / 2) := by
    calc (s.card : ℝ) * exp (x * T) = ∑ w ∈ s, exp (x * T) := by rw [Finset.sum_const, nsmul_eq_mul]
      _ ≤ ∑ w ∈ s, exp (x * ∑ i ∈ Finset.range n, (cbdValue (stream w) v i : Int) * e i) :=
          Finset.sum_le_sum fun w hw => exp_le_exp.mpr (mul_le_mul_of_nonneg_left (hs w hw) hx0)
      _ ≤ ∑ w, exp (x * ∑ i ∈ Finset.range n, (cbdValue (stream w) v i : Int) * e i) :=
          Finset.sum_le_sum_of_subset_of_nonneg (Finset.subset_univ _) fun w _ _ => (exp_pos _).le
      _ ≤ _ := sum_words hW x e he
  have h2 : exp (v * n * x ^ 2 / 2) = exp (-(T ^ 2 / (2 * v * n))) * exp (x * T) := by
    rw [← exp_add]
    congr 1
    rw [hx]
    field_simp
    ring
  rw [h2, ← mul_assoc] at h1
  exact le_of_mul_le_mul_right h1 (exp_pos _)

/-- The choices of several rows of words with a condition on one of them. -/
theorem card_row {n W : Nat} (l : Fin n) (s : Finset (Fin W → Fin (2 ^ 64))) (S : Finset (Fin n → Fin W → Fin (2 ^ 64)))
    (hS : ∀ w ∈ S, w l ∈ s) : (S.card : ℝ) * 2 ^ (64 * W) ≤ s.card * 2 ^ (64 * W * n) := by
  let F : Fin n → Finset (Fin W → Fin (2 ^ 64)) := Function.update (fun _ => Finset.univ) l s
  have h1 : S ⊆ Fintype.piFinset F := by
    intro w hw
    rw [Fintype.mem_piFinset]
    intro i
    by_cases hi : i = l
    · subst hi; simp only [F]; rw [Function.update_self]; exact hS w hw
    · simp only [F]; rw [Function.update_of_ne hi]; exact Finset.mem_univ _
  have h2 := Finset.card_le_card h1
  have hu : (Finset.univ : Finset (Fin W → Fin (2 ^ 64))).card = 2 ^ (64 * W) := by
    rw [Finset.card_univ, Fintype.card_pi, Finset.prod_const, Fintype.card_fin, Finset.card_univ, Fintype.card_fin, ← pow_mul]
  have h3 : (Fintype.piFinset F).card = s.card * (2 ^ (64 * W)) ^ (n - 1) := by
    rw [Fintype.card_piFinset]
    have : ∀ i, (F i).card = Function.update (fun _ => 2 ^ (64 * W)) l s.card i := by
      intro i
      simp only [F]
      by_cases hi : i = l
      · subst hi; rw [Function.update_self, Function.update_self]
      · rw [Function.update_of_ne hi, Function.update_of_ne hi, hu]
    rw [Finset.prod_congr rfl fun i _ => this i, Finset.prod_update_of_mem (Finset.mem_univ _), Finset.prod_const, Finset.card_sdiff]
    simp
  rw [h3] at h2
  have hn : n = (n - 1) + 1 := by have := l.2; omega
  have h4 : S.card * 2 ^ (64 * W) ≤ s.card * 2 ^ (64 * W * n) := by
    calc S.card * 2 ^ (64 * W) ≤ s.card * (2 ^ (64 * W)) ^ (n - 1) * 2 ^ (64 * W) := Nat.mul_le_mul_right _ h2
      _ = s.card * 2 ^ (64 * W * n) := by
        rw [mul_assoc, ← pow_succ, ← hn, ← pow_mul]
  exact_mod_cast h4

end OnionPIR.Sampling
