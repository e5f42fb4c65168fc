/-
C68: the distribution of `sample_vec_cbd` (src/utils.rs:54-85) over uniformly random words, by counting.
-/
import Verif.Spec.Sampling
import Verif.Props.Utils
import Verif.Model.Bfv
import Mathlib.Data.Fintype.BigOperators
import Mathlib.Data.Fintype.Pi
import Mathlib.Data.Fintype.Powerset
import Mathlib.Algebra.BigOperators.Fin
import Mathlib.Algebra.BigOperators.Intervals
import Mathlib.Order.Interval.Finset.Defs
import Mathlib.Data.Int.Interval
import Mathlib.Tactic.IntervalCases

namespace OnionPIR
open Spec

namespace Sampling

/-- The bit strings with `j` ones. -/
theorem card_ones (m j : Nat) : (Finset.univ.filter fun b : Fin m → Bool => ∑ k, (b k).toNat = j).card = m.choose j := by
  have : (Finset.powersetCard j (Finset.univ : Finset (Fin m))).card = m.choose j := by simp
  rw [← this]
  refine Finset.card_bij (fun b _ => Finset.univ.filter fun k => b k = true) ?_ ?_ ?_
  · intro b hb
    rw [Finset.mem_filter] at hb
    rw [Finset.mem_powersetCard]
    refine ⟨Finset.subset_univ _, ?_⟩
    rw [← hb.2, Finset.card_filter]
    exact Finset.sum_congr rfl fun k _ => by cases b k <;> rfl
  · intro a _ b _ h
    funext k
    have := congrArg (k ∈ ·) h
    simp only [Finset.mem_filter, Finset.mem_univ, true_and, eq_iff_iff] at this
    cases ha : a k <;> cases hb : b k <;> simp_all
  · intro s hs
    rw [Finset.mem_powersetCard] at hs
    refine ⟨fun k => decide (k ∈ s), ?_, by ext; simp⟩
    rw [Finset.mem_filter]
    refine ⟨Finset.mem_univ _, ?_⟩
    rw [← hs.2, Finset.card_eq_sum_ones, ← Finset.sum_filter_add_sum_filter_not Finset.univ (· ∈ s)]
    have h1 : (Finset.univ.filter (· ∈ s)) = s := by ext; simp
    rw [h1, Finset.sum_congr rfl (g := fun _ => 1) (fun k hk => by simp [hk])]
    rw [Finset.sum_eq_zero (s := Finset.univ.filter fun k => k ∉ s) (fun k hk => by simpa using hk)]
    simp

/-- The value computed from one block of `4v` bits. -/
def blockValue (v : Nat) (b : Fin (4 * v) → Bool) : Int :=
  ((∑ k : Fin (2 * v), (b ⟨k, by omega⟩).toNat : Nat) : Int) - ((∑ k : Fin (2 * v), (b ⟨2 * v + k, by omega⟩).toNat : Nat) : Int)

theorem card_block (v : Nat) (x : Int) :
    (Finset.univ.filter fun b : Fin (4 * v) → Bool => blockValue v b = x).card = binomial v x := by
  -- flip the bits of the second half
  let flip (b : Fin (4 * v) → Bool) : Fin (4 * v) → Bool := fun k => if k.1 < 2 * v then b k else !b k
  have hflip : ∀ b, flip (flip b) = b := by
    intro b; funext k; simp only [flip]; split <;> simp
  have hsum : ∀ b, ((∑ k, (flip b k).toNat : Nat) : Int) = 2 * v + blockValue v b := by
    intro b
    have e : (∑ k, (flip b k).toNat) = ∑ k : Fin (2 * v + 2 * v), (flip b ⟨k, by omega⟩).toNat :=
      Fintype.sum_equiv (finCongr (by omega)) _ _ fun k => rfl
    rw [e, Fin.sum_univ_add]
    have e1 : ∑ k : Fin (2 * v), (flip b ⟨(Fin.castAdd (2 * v) k).1, by have := k.2; simp; omega⟩).toNat =
        ∑ k : Fin (2 * v), (b ⟨k, by omega⟩).toNat :=
      Finset.sum_congr rfl fun k _ => by simp [flip]
    have e2 : ∑ k : Fin (2 * v), (flip b ⟨(Fin.natAdd (2 * v) k).1, by have := k.2; simp; omega⟩).toNat +
        ∑ k : Fin (2 * v), (b ⟨2 * v + k, by omega⟩).toNat = 2 * v := by
      rw [← Finset.sum_add_distrib, Finset.sum_congr rfl (g := fun _ => 1)]
      · simp
      · intro k _
        simp only [flip, Fin.val_natAdd]
        rw [if_neg (by omega)]
        cases b ⟨2 * v + k, by omega⟩ <;> rfl
    unfold blockValue
    rw [e1]
    push_cast at e2 ⊢
    have e2' := congrArg (Nat.cast (R := Int)) e2
    push_cast at e2'
    linarith
  unfold binomial
  split
  · rename_i hx
    rw [← card_ones (4 * v)]
    refine Finset.card_bij (fun b _ => flip b) ?_ ?_ ?_
    · intro b hb
      rw [Finset.mem_filter] at hb ⊢
      refine ⟨Finset.mem_univ _, ?_⟩
      have := hsum b
      rw [hb.2] at this
      omega
    · intro a _ b _ h
      rw [← hflip a, ← hflip b, h]
    · intro b hb
      rw [Finset.mem_filter] at hb
      refine ⟨flip b, ?_, hflip b⟩
      rw [Finset.mem_filter]
      refine ⟨Finset.mem_univ _, ?_⟩
      have := hsum (flip b)
      rw [hflip, hb.2] at this
      omega
  · rename_i hx
    rw [Finset.card_eq_zero, Finset.filter_eq_empty_iff]
    intro b _ hb
    have := hsum b
    rw [hb] at this
    omega

/-- The bits of the words. -/
def bits {W : Nat} (w : Fin W → Fin (2 ^ 64)) : Fin (64 * W) → Bool :=
  fun k => (stream w (k / 64)).testBit (k % 64)

theorem bits_bijective (W : Nat) : Function.Bijective (bits (W := W)) := by
  rw [Fintype.bijective_iff_injective_and_card]
  constructor
  · intro a b h
    funext i
    apply Fin.ext
    apply Nat.eq_of_testBit_eq
    intro k
    rcases Nat.lt_or_ge k 64 with hk | hk
    · have := congrFun h ⟨64 * i + k, by have := i.2; omega⟩
      simp only [bits, stream] at this
      rw [show (64 * (i : Nat) + k) / 64 = i by omega, show (64 * (i : Nat) + k) % 64 = k by omega, dif_pos i.2, dif_pos i.2] at this
      exact this
    · rw [Nat.testBit_lt_two_pow (lt_of_lt_of_le (a i).2 (Nat.pow_le_pow_right (by norm_num) hk)),
        Nat.testBit_lt_two_pow (lt_of_lt_of_le (b i).2 (Nat.pow_le_pow_right (by norm_num) hk))]
  · simp only [Fintype.card_pi, Fintype.card_fin, Fintype.card_bool, Finset.prod_const, Finset.card_univ]
    rw [← pow_mul]

/-- Splitting the bits into `n` blocks and a rest. -/
def split (v n R : Nat) (f : Fin (4 * v * n + R) → Bool) : (Fin n → Fin (4 * v) → Bool) × (Fin R → Bool) :=
  (fun i k => f ⟨4 * v * i + k, by
      have h1 := i.2
      have h2 := k.2
      calc 4 * v * i + k < 4 * v * i + 4 * v := by omega
        _ = 4 * v * (i + 1) := by ring
        _ ≤ 4 * v * n := Nat.mul_le_mul_left _ h1
        _ ≤ _ := Nat.le_add_right _ _⟩,
    fun r => f ⟨4 * v * n + r, by omega⟩)

theorem split_bijective (v n R : Nat) : Function.Bijective (split v n R) := by
  rw [Fintype.bijective_iff_injective_and_card]
  constructor
  · intro a b h
    funext ⟨k, hk⟩
    rcases Nat.lt_or_ge k (4 * v * n) with h1 | h1
    · have hv : 0 < 4 * v := by
        rcases Nat.eq_zero_or_pos v with rfl | h
        · simp at h1
        · omega
      have := congrFun (congrFun (congrArg Prod.fst h) ⟨k / (4 * v), Nat.div_lt_of_lt_mul h1⟩) ⟨k % (4 * v), Nat.mod_lt _ hv⟩
      simp only [split, Nat.div_add_mod] at this
      exact this
    · have := congrFun (congrArg Prod.snd h) ⟨k - 4 * v * n, by omega⟩
      simp only [split, Nat.add_sub_cancel' h1] at this
      exact this
  · simp only [Fintype.card_pi, Fintype.card_fin, Fintype.card_bool, Finset.prod_const, Finset.card_univ, Fintype.card_prod]
    rw [← pow_mul, pow_add]

theorem card_filter_bij {α β : Type*} [Fintype α] [Fintype β] {f : α → β} (hf : Function.Bijective f) (p : β → Prop)
    [DecidablePred p] : (Finset.univ.filter fun a => p (f a)).card = (Finset.univ.filter p).card := by
  refine Finset.card_bij (fun a _ => f a) (fun a ha => by simpa using ha) (fun a _ b _ h => hf.1 h) fun b hb => ?_
  obtain ⟨a, rfl⟩ := hf.2 b
  exact ⟨a, by simpa using hb, rfl⟩

theorem card_blocks (v n R : Nat) (x : Fin n → Int) :
    (Finset.univ.filter fun p : (Fin n → Fin (4 * v) → Bool) × (Fin R → Bool) => ∀ i, blockValue v (p.1 i) = x i).card =
      (∏ i, binomial v (x i)) * 2 ^ R := by
  have : (Finset.univ.filter fun p : (Fin n → Fin (4 * v) → Bool) × (Fin R → Bool) => ∀ i, blockValue v (p.1 i) = x i) =
      (Fintype.piFinset fun i => Finset.univ.filter fun b => blockValue v b = x i) ×ˢ Finset.univ := by
    ext p
    simp [Fintype.mem_piFinset]
  rw [this, Finset.card_product, Fintype.card_piFinset]
  simp only [card_block, Finset.card_univ, Fintype.card_pi, Fintype.card_bool, Finset.prod_const, Fintype.card_fin]

theorem stream_lt {W : Nat} (w : Fin W → Fin (2 ^ 64)) (i : Nat) : stream w i < 2 ^ 64 := by
  unfold stream
  split
  · exact (w _).2
  · norm_num

/-- The `i`-th output in terms of the split bits. -/
theorem cbdValue_split {W v n R : Nat} (hW : 64 * W = 4 * v * n + R) (w : Fin W → Fin (2 ^ 64)) (i : Fin n) :
    cbdValue (stream w) v i = blockValue v ((split v n R (fun k => bits w (finCongr hW.symm k))).1 i) := by
  unfold cbdValue blockValue
  rw [Finset.sum_range, Finset.sum_range]
  simp only [streamBit, split, bits, finCongr_apply_coe, Nat.add_assoc]

end Sampling

open Sampling

/-- C68: over the choices of the random words the outputs of `sample_vec_cbd` are independent and each follows the centered
binomial distribution: of the `2^(64 W)` choices of `W` words (enough for `n` outputs), exactly
`2^(64 W - 4 v n) * ∏ (4v choose 2v + x_i)` give the output `x_0, …, x_(n-1)`. -/
theorem c68_distribution (pr : Profile) {v : Nat} (hv1 : 1 ≤ v) (hv2 : v ≤ 16) {n W : Nat} (hW : 4 * v * n ≤ 64 * W) (x : List Int)
    (hx : x.length = n) :
    (Finset.univ.filter fun w : Fin W → Fin (2 ^ 64) => sampleVecCbd pr (stream w) n v = .ok x).card =
      2 ^ (64 * W - 4 * v * n) * (x.map (binomial v)).prod := by
  obtain ⟨R, hR⟩ : ∃ R, 64 * W = 4 * v * n + R := ⟨64 * W - 4 * v * n, by omega⟩
  let g : (Fin W → Fin (2 ^ 64)) → (Fin n → Fin (4 * v) → Bool) × (Fin R → Bool) :=
    fun w => split v n R (fun k => bits w (finCongr hR.symm k))
  have hg : Function.Bijective g := by
    have h := (Equiv.arrowCongr (finCongr hR) (Equiv.refl Bool)).bijective.comp (bits_bijective W)
    exact (split_bijective v n R).comp h
  have hiff : ∀ w, sampleVecCbd pr (stream w) n v = .ok x ↔ ∀ i : Fin n, blockValue v ((g w).1 i) = x[(i : Nat)]'(by omega) := by
    intro w
    rw [sampleVecCbd_ok pr (stream_lt w) hv1 hv2 n]
    constructor
    · intro h i
      have h := Except.ok.inj h
      rw [← cbdValue_split hR w i]
      simp [← h]
    · intro h
      congr 1
      apply List.ext_getElem (by simp [hx])
      intro i h1 h2
      have := h ⟨i, by omega⟩
      rw [← cbdValue_split hR w] at this
      simpa using this
  simp only [hiff]
  rw [card_filter_bij hg (fun p => ∀ i : Fin n, blockValue v (p.1 i) = x[(i : Nat)]'(by omega)), card_blocks,
    show 64 * W - 4 * v * n = R by omega, Nat.mul_comm]
  congr 1
  subst hx
  rw [← List.prod_ofFn]
  congr 1
  apply List.ext_getElem (by simp)
  intro i h1 h2
  simp

/-- C68: the distribution of each output has total weight `2^(4v)`, mean 0 and variance `v`, and it is symmetric. -/
theorem c68_moments {v : Nat} (hv1 : 1 ≤ v) (hv2 : v ≤ 16) :
    ∑ x ∈ Finset.Icc (-(2 * v : Int)) (2 * v), (binomial v x : Int) = 2 ^ (4 * v) ∧
    ∑ x ∈ Finset.Icc (-(2 * v : Int)) (2 * v), x * (binomial v x : Int) = 0 ∧
    ∑ x ∈ Finset.Icc (-(2 * v : Int)) (2 * v), x ^ 2 * (binomial v x : Int) = v * 2 ^ (4 * v) ∧
    (∀ x, binomial v (-x) = binomial v x) ∧ ∀ x, binomial v x = 0 ↔ x < -(2 * v) ∨ 2 * v < x := by
  refine ⟨?_, ?_, ?_, ?_, ?_⟩
  · interval_cases v <;> decide +kernel
  · interval_cases v <;> decide +kernel
  · interval_cases v <;> decide +kernel
  · intro x
    unfold binomial
    by_cases h1 : -(2 * v : Int) ≤ x
    · by_cases h2 : -(2 * v : Int) ≤ -x
      · rw [if_pos h1, if_pos h2, ← Nat.choose_symm (by omega)]
        congr 1
        omega
      · rw [if_pos h1, if_neg h2, Nat.choose_eq_zero_of_lt (by omega)]
    · rw [if_neg h1, if_pos (by omega), Nat.choose_eq_zero_of_lt (by omega)]
  · intro x
    unfold binomial
    split
    · rw [Nat.choose_eq_zero_iff]
      omega
    · simp only [true_iff]
      omega

/-- C68 for the secret key: it is distributed accordingly. -/
theorem c68_secret_key (pr : Profile) {P : BfvParameters} (hv1 : 1 ≤ P.variance) (hv2 : P.variance ≤ 16) {W : Nat}
    (hW : 4 * P.variance * P.degree ≤ 64 * W) (x : List Int) (hx : x.length = P.degree) :
    (Finset.univ.filter fun w : Fin W → Fin (2 ^ 64) => SecretKey.coeffs <$> SecretKey.generate pr P (stream w) = .ok x).card =
      2 ^ (64 * W - 4 * P.variance * P.degree) * (x.map (binomial P.variance)).prod := by
  rw [← c68_distribution pr hv1 hv2 hW x hx]
  congr 1
  apply Finset.filter_congr
  intro w _
  unfold SecretKey.generate
  cases sampleVecCbd pr (stream w) P.degree P.variance <;> rfl

/-- Non-vacuity: with variance 10, two outputs need 80 bits, hence two words; of the `2^128` pairs of words, these many give
`[3, -1]`. -/
example : (Finset.univ.filter fun w : Fin 2 → Fin (2 ^ 64) => sampleVecCbd .release (stream w) 2 10 = .ok [3, -1]).card =
    2 ^ 48 * (88732378800 * 131282408400) :=
  (c68_distribution .release (v := 10) (by norm_num) (by norm_num) (n := 2) (W := 2) (by norm_num) [3, -1] rfl).trans
    (by decide +kernel)

example : ∑ x ∈ Finset.Icc (-(2 * (10 : Nat) : Int)) (2 * (10 : Nat)), x ^ 2 * (binomial 10 x : Int) = (10 : Nat) * 2 ^ (4 * 10) :=
  (c68_moments (v := 10) (by norm_num) (by norm_num)).2.2.1

/-- The number of sequences of eight words that give the key `3, -1, 0, …, 0` of degree 8. -/
example (P : BfvParameters) (hd : P.degree = 8) (hv : P.variance = 10) :
    (Finset.univ.filter fun w : Fin 8 → Fin (2 ^ 64) => SecretKey.coeffs <$> SecretKey.generate .debug P (stream w) = .ok [3, -1, 0, 0, 0, 0, 0, 0]).card =
      2 ^ (64 * 8 - 4 * 10 * 8) * ([3, -1, 0, 0, 0, 0, 0, 0].map (binomial 10)).prod := by
  have := c68_secret_key .debug (P := P) (by rw [hv]; norm_num) (by rw [hv]; norm_num) (W := 8) (by rw [hv, hd]; norm_num) [3, -1, 0, 0, 0, 0, 0, 0]
    (by rw [hd]; rfl)
  rwa [hd, hv] at this

end OnionPIR
