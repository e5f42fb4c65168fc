import Mathlib.Algebra.Order.BigOperators.Ring.Finset
import Mathlib.Algebra.BigOperators.Field
import Mathlib.Algebra.Order.Chebyshev
import Mathlib.Analysis.Real.Sqrt
import Mathlib.Data.Fintype.Pi
import Mathlib.Data.Fintype.BigOperators
import Mathlib.GroupTheory.QuotientGroup.Basic
import Mathlib.GroupTheory.Coset.Card
import Mathlib.Tactic.Ring
import Mathlib.Tactic.FieldSimp
import Mathlib.Tactic.Positivity
import Mathlib.Tactic.Linarith
/- The leftover hash lemma for random subset sums in a finite abelian group, for C81. -/
namespace OnionPIR.Leftover
open Finset

variable {G : Type} [AddCommGroup G] [Fintype G] [DecidableEq G] {m : Nat}

/-- The sum of the elements selected by the bits. -/
def subsetSum (x : Fin m → G) (e : Fin m → Fin 2) : G := ∑ j, (e j : Nat) • x j

/-- The difference of two subset sums is a homomorphism of the elements. -/
def diffHom (e e' : Fin m → Fin 2) : (Fin m → G) →+ G where
  toFun x := subsetSum x e - subsetSum x e'
  map_zero' := by simp [subsetSum]
  map_add' x y := by simp only [subsetSum, Pi.add_apply, smul_add, sum_add_distrib]; abel

omit [Fintype G] [DecidableEq G] in
theorem diffHom_surjective {e e' : Fin m → Fin 2} (h : e ≠ e') : Function.Surjective (diffHom (G := G) e e') := by
  obtain ⟨j, hj⟩ := Function.ne_iff.mp h
  have hs : ∀ (g : G) (b : Fin m → Fin 2), subsetSum (Pi.single j g) b = (b j : Nat) • g := by
    intro g b
    unfold subsetSum
    rw [sum_eq_single j (fun i _ hi => by rw [Pi.single_eq_of_ne hi, smul_zero]) (by simp), Pi.single_eq_same]
  intro g
  have hd : ∀ g, diffHom (G := G) e e' (Pi.single j g) = (e j : Nat) • g - (e' j : Nat) • g := fun g => by
    show subsetSum (Pi.single j g) e - subsetSum (Pi.single j g) e' = _
    rw [hs, hs]
  rcases (show (e j = 0 ∧ e' j = 1) ∨ (e j = 1 ∧ e' j = 0) by
    clear hd hs; generalize e j = a at *; generalize e' j = b at *; clear h e e'; revert a b; decide) with ⟨h1, h2⟩ | ⟨h1, h2⟩
  · exact ⟨Pi.single j (-g), by rw [hd, h1, h2]; simp⟩
  · exact ⟨Pi.single j g, by rw [hd, h1, h2]; simp⟩

/-- Two different selections collide for one in `|G|` of the choices of the elements. -/
theorem card_collision {e e' : Fin m → Fin 2} (h : e ≠ e') :
    (univ.filter fun x : Fin m → G => subsetSum x e = subsetSum x e').card * Fintype.card G = Fintype.card G ^ m := by
  have h1 := AddSubgroup.card_eq_card_quotient_mul_card_addSubgroup (diffHom (G := G) e e').ker
  rw [Nat.card_congr (QuotientAddGroup.quotientKerEquivOfSurjective _ (diffHom_surjective h)).toEquiv, Nat.card_eq_fintype_card,
    Nat.card_eq_fintype_card, Fintype.card_fun, Fintype.card_fin] at h1
  rw [h1, mul_comm]
  congr 1
  rw [Nat.card_eq_fintype_card, ← Fintype.card_subtype]
  refine Fintype.card_congr (Equiv.subtypeEquivRight fun x => ?_)
  rw [AddMonoidHom.mem_ker]
  exact sub_eq_zero.symm

/-- The number of selections with a given sum. -/
def count (x : Fin m → G) (u : G) : Nat := (univ.filter fun e : Fin m → Fin 2 => subsetSum x e = u).card

theorem sum_count (x : Fin m → G) : ∑ u, count x u = 2 ^ m := by
  unfold count
  rw [← card_eq_sum_card_fiberwise (f := fun e => subsetSum x e) (s := univ) (t := univ) (fun _ _ => by simp), card_univ]
  simp

theorem sum_count_sq : (∑ x : Fin m → G, ∑ u, (count x u : ℝ) ^ 2) =
    2 ^ m * (Fintype.card G : ℝ) ^ m + (4 ^ m - 2 ^ m) * ((Fintype.card G : ℝ) ^ m / Fintype.card G) := by
  classical
  have hG : (Fintype.card G : ℝ) ≠ 0 := by exact_mod_cast Fintype.card_ne_zero
  have h1 : ∀ x : Fin m → G, ∑ u, (count x u : ℝ) ^ 2 = ∑ e : Fin m → Fin 2, ∑ e' : Fin m → Fin 2, if subsetSum x e = subsetSum x e' then (1 : ℝ) else 0 := by
    intro x
    have : ∀ u, (count x u : ℝ) = ∑ e : Fin m → Fin 2, if subsetSum x e = u then (1 : ℝ) else 0 := fun u => by
      unfold count; rw [Finset.sum_boole]
    simp only [this, sq, sum_mul_sum]
    rw [sum_comm]
    refine sum_congr rfl fun e _ => ?_
    rw [sum_comm]
    refine sum_congr rfl fun e' _ => ?_
    rw [sum_eq_single (subsetSum x e) (fun u _ hu => by rw [if_neg (Ne.symm hu), zero_mul]) (by simp), if_pos rfl, one_mul]
    exact if_congr eq_comm rfl rfl
  simp only [h1]
  rw [sum_comm]
  have h2 : ∀ e : Fin m → Fin 2, (∑ x : Fin m → G, ∑ e' : Fin m → Fin 2, if subsetSum x e = subsetSum x e' then (1 : ℝ) else 0) =
      (Fintype.card G : ℝ) ^ m + (2 ^ m - 1) * ((Fintype.card G : ℝ) ^ m / Fintype.card G) := by
    intro e
    rw [sum_comm, ← add_sum_erase _ _ (mem_univ e)]
    congr 1
    · simp
    · rw [sum_congr rfl (g := fun _ => (Fintype.card G : ℝ) ^ m / Fintype.card G), sum_const, card_erase_of_mem (mem_univ _), card_univ, nsmul_eq_mul]
      · congr 1
        rw [Nat.cast_sub Fintype.card_pos]
        simp
      · intro e' he'
        rw [Finset.sum_boole, eq_div_iff hG]
        exact_mod_cast card_collision (G := G) (Ne.symm (ne_of_mem_erase he'))
  rw [sum_congr rfl fun e _ => h2 e, sum_const, card_univ, nsmul_eq_mul]
  have h4 : (4 : ℝ) ^ m = 2 ^ m * 2 ^ m := by rw [← mul_pow]; norm_num
  rw [h4]
  simp
  ring

/-- The squared distance of the distribution of subset sums from the uniform one, summed over the elements. -/
theorem sum_sq : (∑ x : Fin m → G, ∑ u, ((count x u : ℝ) / 2 ^ m - 1 / Fintype.card G) ^ 2) ≤ (Fintype.card G : ℝ) ^ m / 2 ^ m := by
  have hG : (0 : ℝ) < Fintype.card G := by exact_mod_cast Fintype.card_pos
  have h2 : (0 : ℝ) < 2 ^ m := by positivity
  have h4 : (4 : ℝ) ^ m = 2 ^ m * 2 ^ m := by rw [← mul_pow]; norm_num
  have hx : ∀ x : Fin m → G, ∑ u, ((count x u : ℝ) / 2 ^ m - 1 / Fintype.card G) ^ 2 =
      (∑ u, (count x u : ℝ) ^ 2) / (2 ^ m * 2 ^ m) - 1 / Fintype.card G := by
    intro x
    have hs : (∑ u, (count x u : ℝ)) = 2 ^ m := by exact_mod_cast sum_count x
    have : ∀ u, ((count x u : ℝ) / 2 ^ m - 1 / Fintype.card G) ^ 2 =
        (count x u : ℝ) ^ 2 * (1 / (2 ^ m * 2 ^ m)) - (count x u : ℝ) * (2 / (2 ^ m * Fintype.card G)) + 1 / Fintype.card G ^ 2 := by
      intro u; field_simp; ring
    rw [sum_congr rfl fun u _ => this u, sum_add_distrib, sum_sub_distrib, ← sum_mul, ← sum_mul, hs, sum_const, card_univ, nsmul_eq_mul]
    field_simp
    ring
  rw [sum_congr rfl fun x _ => hx x, sum_sub_distrib, ← sum_div, sum_count_sq, h4, sum_const, card_univ, nsmul_eq_mul, Fintype.card_fun, Fintype.card_fin]
  push_cast
  have : (2 ^ m * (Fintype.card G : ℝ) ^ m + (2 ^ m * 2 ^ m - 2 ^ m) * ((Fintype.card G : ℝ) ^ m / Fintype.card G)) / (2 ^ m * 2 ^ m) -
      (Fintype.card G : ℝ) ^ m * (1 / Fintype.card G) = (Fintype.card G : ℝ) ^ m / 2 ^ m - (Fintype.card G : ℝ) ^ m / Fintype.card G / 2 ^ m := by
    field_simp; ring
  rw [this]
  have : 0 ≤ (Fintype.card G : ℝ) ^ m / Fintype.card G / 2 ^ m := by positivity
  linarith

/-- The leftover hash lemma: for every predicate of the elements and a group element, being given a random subset sum of random elements
or a random element makes a difference of at most `sqrt(|G| / 2^m) / 2`. -/
theorem leftover (d : (Fin m → G) → G → Prop) [∀ x u, Decidable (d x u)] :
    |((univ.filter fun p : (Fin m → G) × (Fin m → Fin 2) => d p.1 (subsetSum p.1 p.2)).card : ℝ) / ((Fintype.card G : ℝ) ^ m * 2 ^ m) -
      ((univ.filter fun p : (Fin m → G) × G => d p.1 p.2).card : ℝ) / ((Fintype.card G : ℝ) ^ m * Fintype.card G)| ≤
      Real.sqrt ((Fintype.card G : ℝ) / 2 ^ m) / 2 := by
  have hG : (0 : ℝ) < Fintype.card G := by exact_mod_cast Fintype.card_pos
  have h2 : (0 : ℝ) < 2 ^ m := by positivity
  have hGm : (0 : ℝ) < (Fintype.card G : ℝ) ^ m := by positivity
  let I : (Fin m → G) → G → ℝ := fun x u => if d x u then 1 else 0
  let w : (Fin m → G) → G → ℝ := fun x u => (count x u : ℝ) / 2 ^ m - 1 / Fintype.card G
  have e1 : ((univ.filter fun p : (Fin m → G) × (Fin m → Fin 2) => d p.1 (subsetSum p.1 p.2)).card : ℝ) =
      ∑ x, ∑ u, (count x u : ℝ) * I x u := by
    rw [← Finset.sum_boole, ← univ_product_univ, sum_product]
    refine sum_congr rfl fun x _ => ?_
    have : ∀ u, (count x u : ℝ) * I x u = ∑ e : Fin m → Fin 2, if subsetSum x e = u then I x u else 0 := fun u => by
      unfold count
      rw [← Finset.sum_boole, sum_mul]
      exact sum_congr rfl fun e _ => by split_ifs <;> simp
    rw [sum_congr rfl fun u _ => this u, sum_comm]
    exact sum_congr rfl fun e _ => by rw [sum_ite_eq]; simp [I]
  have e2 : ((univ.filter fun p : (Fin m → G) × G => d p.1 p.2).card : ℝ) = ∑ x, ∑ u, I x u := by
    rw [← Finset.sum_boole, ← univ_product_univ, sum_product]
  have hw0 : ∀ x, ∑ u, w x u = 0 := by
    intro x
    have hs : (∑ u, (count x u : ℝ)) = 2 ^ m := by exact_mod_cast sum_count x
    simp only [w]
    rw [sum_sub_distrib, ← sum_div, hs, sum_const, card_univ, nsmul_eq_mul]
    field_simp; ring
  have hdiff : ((univ.filter fun p : (Fin m → G) × (Fin m → Fin 2) => d p.1 (subsetSum p.1 p.2)).card : ℝ) / ((Fintype.card G : ℝ) ^ m * 2 ^ m) -
      ((univ.filter fun p : (Fin m → G) × G => d p.1 p.2).card : ℝ) / ((Fintype.card G : ℝ) ^ m * Fintype.card G) =
      (∑ x, ∑ u, (I x u - 1 / 2) * w x u) / (Fintype.card G : ℝ) ^ m := by
    have h3 : ∀ x, ∑ u, (I x u - 1 / 2) * w x u = (∑ u, (count x u : ℝ) * I x u) / 2 ^ m - (∑ u, I x u) / Fintype.card G := by
      intro x
      have : ∀ u, (I x u - 1 / 2) * w x u = (count x u : ℝ) * I x u / 2 ^ m - I x u / Fintype.card G - 1 / 2 * w x u := fun u => by
        simp only [w]; ring
      rw [sum_congr rfl fun u _ => this u, sum_sub_distrib, ← mul_sum, hw0, mul_zero, sub_zero, sum_sub_distrib, ← sum_div, ← sum_div]
    rw [e1, e2, sum_congr rfl fun x _ => h3 x, sum_sub_distrib, ← sum_div, ← sum_div, sub_div, div_div, div_div, mul_comm, mul_comm (Fintype.card G : ℝ)]
  rw [hdiff, abs_div, abs_of_pos hGm, div_le_iff₀ hGm]
  have hI : ∀ x u, (I x u - 1 / 2) ^ 2 = 1 / 4 := fun x u => by
    simp only [I]; split_ifs <;> norm_num
  have hcs := sum_mul_sq_le_sq_mul_sq (univ : Finset ((Fin m → G) × G)) (fun p => I p.1 p.2 - 1 / 2) (fun p => w p.1 p.2)
  rw [sum_congr rfl (f := fun p : (Fin m → G) × G => (I p.1 p.2 - 1 / 2) ^ 2) fun p (_ : p ∈ univ) => hI p.1 p.2, sum_const, card_univ, nsmul_eq_mul, Fintype.card_prod, Fintype.card_fun, Fintype.card_fin] at hcs
  simp only [← univ_product_univ, sum_product] at hcs
  have hb : (∑ x, ∑ u, (I x u - 1 / 2) * w x u) ^ 2 ≤ (Real.sqrt ((Fintype.card G : ℝ) / 2 ^ m) / 2 * (Fintype.card G : ℝ) ^ m) ^ 2 := by
    refine hcs.trans ?_
    rw [mul_pow, div_pow, Real.sq_sqrt (by positivity)]
    push_cast
    calc _ ≤ ((Fintype.card G : ℝ) ^ m * Fintype.card G) * (1 / 4) * ((Fintype.card G : ℝ) ^ m / 2 ^ m) :=
          mul_le_mul_of_nonneg_left sum_sq (by positivity)
      _ = _ := by ring
  exact abs_le_of_sq_le_sq hb (by positivity)

end OnionPIR.Leftover
