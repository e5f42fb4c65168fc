/-
C69: the probability that PVW decryption fails, over the random words of the key errors, by counting.
-/
import Verif.Proofs.Tail
import Verif.Props.Pvw
import Mathlib.Analysis.Complex.ExponentialBounds

namespace OnionPIR
open Spec Sampling

/-- The choices of words that make the error of one row at least `T` in absolute value. -/
theorem Sampling.card_error {params : PvwParams} (hv : 1 ≤ params.variance) (hm : 1 ≤ params.m) {W : Nat}
    (hW : 4 * params.variance * params.m ≤ 64 * W) {e : Nat → Nat} (he : ∀ m, e m < 2) {T : ℝ} (hT : 0 ≤ T) (l : Nat)
    (s : Finset (Fin W → Fin (2 ^ 64))) (hs : ∀ w ∈ s, T ≤ |((pvwError params (fun _ => stream w) e l : Int) : ℝ)|) :
    (s.card : ℝ) ≤ 2 ^ (64 * W) * (2 * Real.exp (-(T ^ 2 / (2 * params.variance * params.m)))) := by
  classical
  have hval : ∀ w : Fin W → Fin (2 ^ 64), ((pvwError params (fun _ => stream w) e l : Int) : ℝ) =
      ∑ i ∈ Finset.range params.m, (cbdValue (stream w) params.variance i : Int) * (e i : ℝ) := by
    intro w
    unfold pvwError
    push_cast
    rfl
  have he1 : ∀ i, ((e i : Nat) : ℝ) ^ 2 ≤ 1 := by
    intro i
    rcases (show e i = 0 ∨ e i = 1 by have := he i; omega) with h | h <;> rw [h] <;> norm_num
  have h1 := card_tail hv hm hW (fun i => (e i : ℝ)) he1 hT
    (s.filter fun w => T ≤ ((pvwError params (fun _ => stream w) e l : Int) : ℝ)) (fun w hw => by
      rw [← hval]; exact (Finset.mem_filter.mp hw).2)
  have h2 := card_tail hv hm hW (fun i => -(e i : ℝ)) (fun i => by rw [neg_sq]; exact he1 i) hT
    (s.filter fun w => ¬ T ≤ ((pvwError params (fun _ => stream w) e l : Int) : ℝ)) (fun w hw => by
      rw [Finset.mem_filter] at hw
      have := hs w hw.1
      rw [le_abs] at this
      have := this.resolve_left hw.2
      rw [hval] at this
      refine this.trans (le_of_eq ?_)
      rw [← Finset.sum_neg_distrib]
      exact Finset.sum_congr rfl fun i _ => by ring)
  have h3 := Finset.card_filter_add_card_filter_not (s := s) (fun w => T ≤ ((pvwError params (fun _ => stream w) e l : Int) : ℝ))
  rw [← h3, Nat.cast_add]
  exact (add_le_add h1 h2).trans_eq (by ring)

/-- C69: whatever the key, the public matrix, the selector and the message, of all choices of the random words of the key errors at most
the fraction `2 ell exp(-⌊q/4⌋² / (2 variance m))` make decryption return something else than the message. -/
theorem c69_failure (pr : Profile) {params : PvwParams} (hq : 2 ≤ params.q) (hq2 : params.q < 2 ^ 62) (hv : 1 ≤ params.variance)
    (hv2 : params.variance ≤ 16) (hm : 1 ≤ params.m) {W : Nat} (hW : 4 * params.variance * params.m ≤ 64 * W)
    {skTape aTape : Nat → Nat → Nat} (hsk : ∀ l i, skTape l i < params.q) (ha : ∀ m i, aTape m i < params.q) {e : Nat → Nat}
    (he : ∀ m, e m < 2) {msg : List Nat} (hlen : msg.length = params.ell) (hbit : ∀ x ∈ msg, x < 2) :
    ((Finset.univ.filter fun w : Fin params.ell → Fin W → Fin (2 ^ 64) =>
        pvwRun pr params skTape aTape (streams w) e msg ≠ .ok msg).card : ℝ) ≤
      2 ^ (64 * W * params.ell) * (2 * params.ell * Real.exp (-(((params.q / 4 : Nat) : ℝ) ^ 2 / (2 * params.variance * params.m)))) := by
  classical
  set T : ℝ := ((params.q / 4 : Nat) : ℝ) with hT
  set X := Real.exp (-(T ^ 2 / (2 * params.variance * params.m)))
  let s : Nat → Finset (Fin W → Fin (2 ^ 64)) := fun l =>
    Finset.univ.filter fun w => T ≤ |((pvwError params (fun _ => stream w) e l : Int) : ℝ)|
  have hs : ∀ l, ((s l).card : ℝ) ≤ 2 ^ (64 * W) * (2 * X) := fun l =>
    card_error hv hm hW he (by positivity) l _ fun w hw => (Finset.mem_filter.mp hw).2
  let S : Fin params.ell → Finset (Fin params.ell → Fin W → Fin (2 ^ 64)) := fun l => Finset.univ.filter fun w => w l ∈ s l
  have hS : ∀ l, ((S l).card : ℝ) ≤ 2 ^ (64 * W * params.ell) * (2 * X) := by
    intro l
    have h1 := card_row l (s l) (S l) fun w hw => (Finset.mem_filter.mp hw).2
    have h2 : ((S l).card : ℝ) * 2 ^ (64 * W) ≤ 2 ^ (64 * W * params.ell) * (2 * X) * 2 ^ (64 * W) := by
      refine h1.trans ?_
      calc ((s l).card : ℝ) * 2 ^ (64 * W * params.ell) ≤ (2 ^ (64 * W) * (2 * X)) * 2 ^ (64 * W * params.ell) :=
            mul_le_mul_of_nonneg_right (hs l) (by positivity)
        _ = _ := by ring
    exact le_of_mul_le_mul_right h2 (by positivity)
  have hsub : (Finset.univ.filter fun w : Fin params.ell → Fin W → Fin (2 ^ 64) =>
      pvwRun pr params skTape aTape (streams w) e msg ≠ .ok msg) ⊆ Finset.univ.biUnion S := by
    intro w hw
    rw [Finset.mem_filter] at hw
    rw [Finset.mem_biUnion]
    by_contra hcon
    apply hw.2
    have hc : PvwChoices params skTape aTape (streams w) e :=
      ⟨hq, hq2, hv, hv2, hsk, ha, fun l i => by unfold streams; split; exacts [stream_lt _ _, by norm_num], he⟩
    refine c46_roundtrip pr hc hlen hbit fun l hl => ?_
    have h1 : ¬ T ≤ |((pvwError params (fun _ => stream (w ⟨l, hl⟩)) e l : Int) : ℝ)| := by
      intro hle
      exact hcon ⟨⟨l, hl⟩, Finset.mem_univ _, by simp only [S, s, Finset.mem_filter, Finset.mem_univ, true_and]; exact hle⟩
    have h2 : pvwError params (streams w) e l = pvwError params (fun _ => stream (w ⟨l, hl⟩)) e l := by
      have : streams w l = stream (w ⟨l, hl⟩) := by funext i; unfold streams; rw [dif_pos hl]
      unfold pvwError
      rw [this]
    rw [h2]
    rw [not_le, hT, abs_lt] at h1
    have a : -((params.q / 4 : Nat) : Int) < pvwError params (fun _ => stream (w ⟨l, hl⟩)) e l := by exact_mod_cast h1.1
    have b : pvwError params (fun _ => stream (w ⟨l, hl⟩)) e l < ((params.q / 4 : Nat) : Int) := by
      have h3 := h1.2
      rw [← Int.cast_natCast] at h3
      exact Int.cast_lt.mp h3
    constructor <;> omega
  calc _ ≤ ((Finset.univ.biUnion S).card : ℝ) := by exact_mod_cast Finset.card_le_card hsub
    _ ≤ ((∑ l, (S l).card : Nat) : ℝ) := by exact_mod_cast Finset.card_biUnion_le
    _ = ∑ l, ((S l).card : ℝ) := by push_cast; rfl
    _ ≤ ∑ _l : Fin params.ell, 2 ^ (64 * W * params.ell) * (2 * X) := Finset.sum_le_sum fun l _ => hS l
    _ = _ := by rw [Finset.sum_const, Finset.card_univ, Fintype.card_fin, nsmul_eq_mul]; ring

/-- C69: with the default parameters, whatever the key, the public matrix, the selector and the message, at most one in `2^6000` of the
choices of the random words of the key errors makes decryption fail. -/
theorem c69_default (pr : Profile) {skTape aTape : Nat → Nat → Nat} (hsk : ∀ l i, skTape l i < 65537) (ha : ∀ m i, aTape m i < 65537)
    {e : Nat → Nat} (he : ∀ m, e m < 2) {msg : List Nat} (hlen : msg.length = 4) (hbit : ∀ x ∈ msg, x < 2) :
    (Finset.univ.filter fun w : Fin 4 → Fin 2000 → Fin (2 ^ 64) =>
        pvwRun pr PvwParams.default skTape aTape (streams w) e msg ≠ .ok msg).card * 2 ^ 6000 ≤
      Fintype.card (Fin 4 → Fin 2000 → Fin (2 ^ 64)) := by
  have h := c69_failure pr (params := PvwParams.default) (W := 2000) (by decide) (by decide) (by decide) (by decide) (by decide) (by decide)
    hsk ha he hlen hbit
  have hcard : Fintype.card (Fin 4 → Fin 2000 → Fin (2 ^ 64)) = 2 ^ (64 * 2000 * 4) := by
    rw [Fintype.card_pi, Finset.prod_const, Fintype.card_pi, Finset.prod_const, Fintype.card_fin, Finset.card_univ, Finset.card_univ,
      Fintype.card_fin, Fintype.card_fin, ← pow_mul, ← pow_mul]
  have hexp : (2 * 4 : ℝ) * Real.exp (-((16384 : ℝ) ^ 2 / (2 * 2 * 16000))) * 2 ^ 6000 ≤ 1 := by
    have h25 : (2 : ℝ) ^ 36 ≤ Real.exp 25 := by
      have : Real.exp 25 = Real.exp 1 ^ 25 := by rw [← Real.exp_nat_mul]; norm_num
      rw [this]
      calc (2 : ℝ) ^ 36 ≤ 2.7182818283 ^ 25 := by norm_num
        _ ≤ Real.exp 1 ^ 25 := pow_le_pow_left₀ (by norm_num) Real.exp_one_gt_d9.le 25
    have hbig : (2 : ℝ) ^ (36 * 167) ≤ Real.exp ((16384 : ℝ) ^ 2 / (2 * 2 * 16000)) := by
      calc (2 : ℝ) ^ (36 * 167) = (2 ^ 36) ^ 167 := pow_mul _ _ _
        _ ≤ Real.exp 25 ^ 167 := pow_le_pow_left₀ (by positivity) h25 167
        _ = Real.exp (167 * 25) := by rw [← Real.exp_nat_mul]; norm_num
        _ ≤ _ := Real.exp_le_exp.mpr (by norm_num)
    rw [Real.exp_neg]
    have hpos := Real.exp_pos ((16384 : ℝ) ^ 2 / (2 * 2 * 16000))
    rw [mul_assoc, mul_comm _ ((2 : ℝ) ^ 6000), ← mul_assoc, ← div_eq_mul_inv, div_le_one hpos]
    refine le_trans ?_ hbig
    calc (2 * 4 : ℝ) * 2 ^ 6000 = 2 ^ (3 + 6000) := by rw [pow_add]; norm_num
      _ ≤ _ := pow_le_pow_right₀ (by norm_num) (by norm_num)
  rw [hcard]
  have h2 : ((Finset.univ.filter fun w : Fin 4 → Fin 2000 → Fin (2 ^ 64) =>
        pvwRun pr PvwParams.default skTape aTape (streams w) e msg ≠ .ok msg).card : ℝ) * 2 ^ 6000 ≤ 2 ^ (64 * 2000 * 4) := by
    have hq : PvwParams.default.q / 4 = 16384 := rfl
    have hell : PvwParams.default.ell = 4 := rfl
    have hva : PvwParams.default.variance = 2 := rfl
    have hmm : PvwParams.default.m = 16000 := rfl
    rw [hq, hva, hmm] at h
    generalize hB : (2 : ℝ) ^ (64 * 2000 * PvwParams.default.ell) = B at h
    have hB' : (2 : ℝ) ^ (64 * 2000 * 4) = B := hB
    rw [hB']
    have hB0 : 0 ≤ B := by rw [← hB]; exact pow_nonneg (by norm_num) _
    rw [hell] at h
    push_cast at h
    calc _ ≤ B * (2 * 4 * Real.exp (-((16384 : ℝ) ^ 2 / (2 * 2 * 16000)))) * 2 ^ 6000 := mul_le_mul_of_nonneg_right h (by positivity)
      _ = B * (2 * 4 * Real.exp (-((16384 : ℝ) ^ 2 / (2 * 2 * 16000))) * 2 ^ 6000) := mul_assoc _ _ _
      _ ≤ B * 1 := mul_le_mul_of_nonneg_left hexp hB0
      _ = B := mul_one B
  exact_mod_cast h2

/-- Non-vacuity: an alternating selector, which selects 8000 of the 16000 samples (so that the worst-case bound of C47 does not apply),
and a nonzero key, matrix and message. -/
example : (∑ m ∈ Finset.range 16000, (m % 2)) = 8000 ∧ (Finset.univ.filter fun w : Fin 4 → Fin 2000 → Fin (2 ^ 64) =>
    pvwRun .debug PvwParams.default (fun l i => 65536 - (l + i) % 100) (fun m i => (m * i) % 65537) (streams w) (fun m => m % 2) [1, 0, 1, 1] ≠
      .ok [1, 0, 1, 1]).card * 2 ^ 6000 ≤ Fintype.card (Fin 4 → Fin 2000 → Fin (2 ^ 64)) := by
  refine ⟨by decide +kernel, c69_default .debug (fun l i => ?_) (fun m i => ?_) (fun m => ?_) rfl (by simp)⟩ <;> omega

/-- `c69_failure` for small parameters. -/
example : ((Finset.univ.filter fun w : Fin 1 → Fin 1 → Fin (2 ^ 64) =>
        pvwRun .debug ⟨2, 1, 8, 1009, 2⟩ (fun _ i => i % 1009) (fun m i => (m + i) % 1009) (streams w) (fun _ => 1) [1] ≠ .ok [1]).card : ℝ) ≤
      2 ^ (64 * 1 * 1) * (2 * (1 : Nat) * Real.exp (-(((1009 / 4 : Nat) : ℝ) ^ 2 / (2 * (2 : Nat) * (8 : Nat))))) :=
  c69_failure .debug (params := ⟨2, 1, 8, 1009, 2⟩) (by norm_num) (by norm_num) (by norm_num) (by norm_num) (by norm_num) (W := 1) (by norm_num)
    (fun _ i => Nat.mod_lt _ (by norm_num)) (fun m i => Nat.mod_lt _ (by norm_num)) (fun _ => by norm_num) rfl (by simp)

end OnionPIR
