import Verif.Spec.Privacy
import Verif.Props.Rlwe
import Verif.Props.Decrypt
import Mathlib.Data.Nat.Cast.Order.Field
/-
C116 (src/bfv.rs): what an encryption decrypts to under another key.
-/
namespace OnionPIR
open Rg Spec

variable {N t : Nat} {l : List Nat} {variance : Nat} {P : BfvParameters}

namespace WrongKey

theorem card_rows (N : Nat) (l : List Nat) (i : Nat) : Nat.card (Rows N l i) = levelQ l i ^ N := by
  rw [Nat.card_eq_fintype_card, Fintype.card_pi]
  simp only [Fintype.card_pi, Fintype.card_fin, Finset.prod_const, Finset.card_univ]
  rw [Finset.prod_pow, levelQ]
  congr 1
  rw [← List.prod_ofFn]
  congr 1
  refine List.ext_getElem (by simp) fun j h1 h2 => ?_
  rw [List.getElem_ofFn, List.getD_eq_getElem _ _ h2]

/-- Two numbers of a small interval that are equal modulo `t` and have the same quotient are equal. -/
theorem eq_of_div {t c a b : ℤ} (ht : 0 < t) (h : (a + c) / t = (b + c) / t) (hm : a % t = b % t) : a = b := by
  have h1 := Int.mul_ediv_add_emod (a + c) t
  have h2 := Int.mul_ediv_add_emod (b + c) t
  have h3 : (a + c) % t = (b + c) % t := by rw [Int.add_emod, hm, ← Int.add_emod]
  rw [h, h3] at h1
  linarith

end WrongKey

/-- C116: with keys whose difference is invertible modulo `Q`, the fraction of the masks for which an encryption under the one key decrypts to given
values under the other key is at most `((1 + 2^-31)/t + 1/Q)^N`: knowing the right values does not help. -/
theorem c116_wrong_key (h : IsParams N t l variance P) {sk sk' : SecretKey} (hk : IsKey P sk) (hk' : IsKey P sk') (pr pr' : Profile)
    (hv1 : 1 ≤ variance) (hv2 : variance ≤ 16) (h2t : 2 * t ≤ l.getD 0 0) {pt : Plaintext} (hp : pt.params = P) (hlev : pt.level = 0)
    (hlen : pt.values.length ≤ N) (hval : ∀ x ∈ pt.values, x < 2 ^ 64) {u : Rg N}
    (hu : Cong (levelQ l 0) (u * (keyRing N sk' - keyRing N sk)) 1) {rng : Nat → Nat} (hr : ∀ i, rng i < 2 ^ 64) (vals : List Nat) :
    (∀ r : Rows N l 0, ∃ ct out, sk.encrypt pr pt r.tape rng = .ok ct ∧ sk'.decrypt pr' ct = .ok out) ∧
    prob (fun r : Rows N l 0 => ∃ ct out, sk.encrypt pr pt r.tape rng = .ok ct ∧ sk'.decrypt pr' ct = .ok out ∧ out.values = vals) ≤
      ((1 + 1 / 2 ^ 31) / t + 1 / levelQ l 0) ^ N := by
  classical
  have hN : 0 < N := by
    obtain ⟨K, ext, rfl, -⟩ := BfvP.params h
    positivity
  have ht : 0 < t := by
    obtain ⟨K, ext, rfl, hw, rfl, rfl, -⟩ := BfvP.params h
    exact hw.t_prime.pos
  have hq : ∀ q ∈ l, 0 < q := fun q hq => by have := h.2.2.1 q hq; omega
  have hQ : 0 < levelQ l 0 := List.prod_pos fun q hq' => hq q (List.mem_of_mem_take hq')
  have hl0 : 0 < l.length := by
    obtain ⟨K, ext, rfl, hw, rfl, rfl, rfl⟩ := BfvP.params h
    exact List.length_pos_iff.mpr hw.ne
  obtain ⟨M, -, hM⟩ := c77_encrypt h hk pr hv1 hv2 hp hlev hlen hval
  choose a ha using fun r : Rows N l 0 => (c77_mask h hl0 (Rows.tapeAt hq r)).1
  choose e ct he hct hcts using fun r : Rows N l 0 => hM r.tape rng hr (a r) (ha r)
  choose out ho1 ho2 ho3 using fun r => c65_decrypt_rounds h hk' pr' (by simp) (hcts r) h2t
  refine ⟨fun r => ⟨ct r, out r, hct r, ho1 r⟩, ?_⟩
  obtain ⟨c, hc⟩ : ∃ c, levelQ l 0 * (2 ^ 31 + 1) / 2 ^ 32 = c := ⟨_, rfl⟩
  let φ : Rows N l 0 → Rg N := fun r => phase (keyRing N sk') [smallRing N (e r) - a r * keyRing N sk + M, a r]
  have key : ∀ r, ∃ y : Fin N → ℤ, ∀ k : Fin N, ((out r).values.getD k 0 : ℤ) = y k % t ∧ |levelQ l 0 * y k - t * cf (φ r) k| ≤ c := by
    intro r
    choose y hy1 hy2 using fun k : Fin N => ho3 r k k.isLt
    refine ⟨y, fun k => ⟨hy1 k, ?_⟩⟩
    have h1 := hy2 k
    have h2 : |levelQ l 0 * y k - t * cf (φ r) k| ≤ (levelQ l 0 * (2 ^ 31 + 1) : ℤ) / 2 ^ 32 := by
      rw [Int.le_ediv_iff_mul_le (by norm_num), mul_comm]
      exact h1
    rw [← hc]
    push_cast
    exact h2
  choose y hy1 hy2 using key
  let Bad := {r : Rows N l 0 // ∃ ct out, sk.encrypt pr pt r.tape rng = .ok ct ∧ sk'.decrypt pr' ct = .ok out ∧ out.values = vals}
  have hbad : ∀ r : Bad, (out r.1).values = vals := by
    rintro ⟨r, ct1, out1, h1, h2, h3⟩
    obtain rfl := Except.ok.inj ((hct r).symm.trans h1)
    obtain rfl := Except.ok.inj ((ho1 r).symm.trans h2)
    exact h3
  have hbound : ∀ (r : Rows N l 0) (k : Fin N), ((levelQ l 0 * y r k - t * cf (φ r) k + c) / t).toNat < 2 * c / t + 1 := by
    intro r k
    have h1 := abs_le.mp (hy2 r k)
    have h2 : (levelQ l 0 * y r k - t * cf (φ r) k + c) / t ≤ ((2 * c : Nat) : ℤ) / t := Int.ediv_le_ediv (by omega) (by push_cast; omega)
    have h3 : 0 ≤ (levelQ l 0 * y r k - t * cf (φ r) k + c) / t := Int.ediv_nonneg (by omega) (by omega)
    have h4 : ((2 * c : Nat) : ℤ) / t = ((2 * c / t : Nat) : ℤ) := by push_cast; rfl
    rw [h4] at h2
    omega
  let F : Bad → Fin N → Fin (2 * c / t + 1) := fun r k => ⟨_, hbound r.1 k⟩
  have hF : Function.Injective F := by
    intro r r' hrr
    have hd : ∀ k : Fin N, (levelQ l 0 : ℤ) ∣ cf (φ r.1) k - cf (φ r'.1) k := by
      intro k
      have h1 := congrArg Fin.val (congrFun hrr k)
      simp only [F] at h1
      have n1 : 0 ≤ (levelQ l 0 * y r.1 k - t * cf (φ r.1) k + c) / t :=
        Int.ediv_nonneg (by have := abs_le.mp (hy2 r.1 k); omega) (by omega)
      have n2 : 0 ≤ (levelQ l 0 * y r'.1 k - t * cf (φ r'.1) k + c) / t :=
        Int.ediv_nonneg (by have := abs_le.mp (hy2 r'.1 k); omega) (by omega)
      have h2 : (levelQ l 0 * y r.1 k - t * cf (φ r.1) k + c) / (t : ℤ) = (levelQ l 0 * y r'.1 k - t * cf (φ r'.1) k + c) / t := by omega
      have hy : y r.1 k % t = y r'.1 k % t := by
        rw [← hy1, ← hy1, hbad r, hbad r']
      have h3 : (t : ℤ) ∣ y r.1 k - y r'.1 k := Int.ModEq.dvd (show y r'.1 k % t = y r.1 k % t from hy.symm)
      have h4 : (levelQ l 0 * y r.1 k - t * cf (φ r.1) k) % (t : ℤ) = (levelQ l 0 * y r'.1 k - t * cf (φ r'.1) k) % t := by
        refine Int.ModEq.symm ((Int.modEq_iff_dvd).mpr ?_)
        obtain ⟨j, hj⟩ := h3
        exact ⟨levelQ l 0 * j - cf (φ r.1) k + cf (φ r'.1) k, by linear_combination (levelQ l 0 : ℤ) * hj⟩
      have h5 := WrongKey.eq_of_div (by omega) h2 h4
      obtain ⟨j, hj⟩ := h3
      refine ⟨j, mul_left_cancel₀ (show (t : ℤ) ≠ 0 by omega) ?_⟩
      linear_combination (levelQ l 0 : ℤ) * hj - h5
    have hcong : ((levelQ l 0 : ℤ) : Rg N) ∣ φ r.1 - φ r'.1 := (dvd_iff hN _ _).mpr fun k hk => by
      rw [cf_sub hN]
      exact hd ⟨k, hk⟩
    have hee : e r.1 = e r'.1 := Except.ok.inj ((he r.1).symm.trans (he r'.1))
    have hφ : φ r.1 - φ r'.1 = (a r.1 - a r'.1) * (keyRing N sk' - keyRing N sk) := by
      simp only [φ, phase, hee]
      ring
    rw [hφ] at hcong
    have haa : Cong (levelQ l 0) (a r.1) (a r'.1) := by
      obtain ⟨x, hx⟩ := hcong
      obtain ⟨z, hz⟩ := hu
      refine ⟨u * x - (a r.1 - a r'.1) * z, ?_⟩
      linear_combination u * hx - (a r.1 - a r'.1) * hz
    obtain ⟨r0, g1, g2⟩ := c77_mask_uniform h hl0 (a r'.1)
    have e1 := g2 r.1 (((c77_mask h hl0 (Rows.tapeAt hq r.1)).2 _ _ (ha r.1)).mpr haa)
    have e2 := g2 r'.1 (ha r'.1)
    exact Subtype.ext (e1.trans e2.symm)
  have hcard : Nat.card Bad ≤ (2 * c / t + 1) ^ N := by
    have := Nat.card_le_card_of_injective F hF
    simpa using this
  have hQr : (0 : ℝ) < levelQ l 0 := by exact_mod_cast hQ
  have htr : (0 : ℝ) < t := by exact_mod_cast ht
  have hB : ((2 * c / t + 1 : Nat) : ℝ) ≤ levelQ l 0 * ((1 + 1 / 2 ^ 31) / t + 1 / levelQ l 0) := by
    have h1 : ((2 * c / t : Nat) : ℝ) ≤ (2 * c : Nat) / t := Nat.cast_div_le
    have h2 : ((c : Nat) : ℝ) ≤ ((levelQ l 0 * (2 ^ 31 + 1) : Nat) : ℝ) / (2 ^ 32 : Nat) := by rw [← hc]; exact Nat.cast_div_le
    have h3 : ((2 * c : Nat) : ℝ) ≤ levelQ l 0 * (1 + 1 / 2 ^ 31) := by
      push_cast at h2 ⊢
      linarith
    have h4 : ((2 * c : Nat) : ℝ) / t ≤ levelQ l 0 * (1 + 1 / 2 ^ 31) / t := div_le_div_of_nonneg_right h3 htr.le
    rw [mul_add, mul_one_div_cancel hQr.ne', ← mul_div_assoc]
    push_cast at h1 h4 ⊢
    linarith
  unfold prob
  rw [WrongKey.card_rows, div_le_iff₀ (by positivity)]
  calc ((Nat.card Bad : Nat) : ℝ) ≤ ((2 * c / t + 1 : Nat) : ℝ) ^ N := by exact_mod_cast hcard
    _ ≤ (levelQ l 0 * ((1 + 1 / 2 ^ 31) / t + 1 / levelQ l 0)) ^ N := pow_le_pow_left₀ (Nat.cast_nonneg _) hB N
    _ = _ := by rw [mul_pow, mul_comm]; push_cast; rfl

/-- Two keys that differ by one in one coefficient: the values `3, 1, 16, …` come out for less than one in `10^9` of the masks. -/
example : ∃ (P : BfvParameters) (sk sk' : SecretKey), IsParams 8 17 Ex.mods 10 P ∧ IsKey P sk ∧ IsKey P sk' ∧
    prob (fun r : Rows 8 Ex.mods 0 => ∃ ct out, sk.encrypt .debug ⟨P, 0, .poly, [3, 1, 16]⟩ r.tape (fun i => i % 1000) = .ok ct ∧
      sk'.decrypt .debug ct = .ok out ∧ out.values = [3, 1, 16, 0, 0, 0, 0, 0]) < 1 / 10 ^ 9 := by
  obtain ⟨P, h⟩ := Ex.exists_params
  have hd : P.degree = 8 := by
    obtain ⟨K, ext, hK, hw, -, -, -⟩ := BfvP.params h
    rw [hw.deg, hK]
  have hk : ∀ x : Int, |x| ≤ 1 → IsKey P ⟨P, [x, -1, 0, 2]⟩ := fun x hx => ⟨rfl, by rw [hd]; norm_num, fun y hy => by
    rw [abs_le] at hx
    simp only [List.mem_cons, List.not_mem_nil, or_false] at hy
    rcases hy with rfl | rfl | rfl | rfl <;> omega⟩
  refine ⟨P, ⟨P, [1, -1, 0, 2]⟩, ⟨P, [0, -1, 0, 2]⟩, h, hk 1 (by norm_num), hk 0 (by norm_num), ?_⟩
  have hu : Cong (levelQ Ex.mods 0) (-1 * (keyRing 8 ⟨P, [0, -1, 0, 2]⟩ - keyRing 8 ⟨P, [1, -1, 0, 2]⟩)) 1 := by
    have : keyRing 8 ⟨P, [1, -1, 0, 2]⟩ - keyRing 8 ⟨P, [0, -1, 0, 2]⟩ = (1 : Rg 8) := by
      simp only [keyRing, ofCoeffs, Finset.sum_range_succ, Finset.sum_range_zero]
      simp
    rw [neg_one_mul, neg_sub, this]
    exact ⟨0, by simp⟩
  refine lt_of_le_of_lt (c116_wrong_key h (hk 1 (by norm_num)) (hk 0 (by norm_num)) .debug .debug (by norm_num) (by norm_num) (by decide)
    (pt := ⟨P, 0, .poly, [3, 1, 16]⟩) rfl rfl (by norm_num) (show ∀ x ∈ [3, 1, 16], x < 2 ^ 64 by decide) hu Ex.wordTape _).2 ?_
  have hQ : levelQ Ex.mods 0 = 1048609 * 1048721 * 1048897 := by decide
  rw [hQ]
  norm_num

end OnionPIR
