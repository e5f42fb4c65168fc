import Mathlib.FieldTheory.Finite.Basic
import Verif.Proofs.LeakExact
import Verif.Proofs.BfvBridge
import Verif.Spec.Watch
/-
The sign that `scale` branches on during decryption (src/rns.rs:330-393).
-/
namespace OnionPIR
open Spec

namespace RnsScaler

/-- `theta` is rounded up, whatever its sign. -/
theorem scaleTheta_up {th den : Nat} (hd : 0 < den) (sg : Bool) :
    sgn sg (scaleTheta th den sg true) = -(-(2 ^ 127 * sgn sg th) / (den : ℤ)) := by
  cases sg
  · simp only [sgn, scaleTheta, if_true, Bool.false_eq_true, if_false, Nat.shiftLeft_eq]
    have hdm := Nat.div_add_mod (th * 2 ^ 127 + den - 1) den
    have hr := Nat.mod_lt (th * 2 ^ 127 + den - 1) hd
    have h1 : (den : ℤ) * (((th * 2 ^ 127 + den - 1) / den : Nat) : ℤ) + (((th * 2 ^ 127 + den - 1) % den : Nat) : ℤ) = 2 ^ 127 * th + den - 1 := by
      rw [← Nat.cast_mul, ← Nat.cast_add, hdm, Nat.cast_sub (by omega)]
      push_cast; ring
    generalize (th * 2 ^ 127 + den - 1) / den = d at *
    generalize (th * 2 ^ 127 + den - 1) % den = r at *
    have h2 : -(2 ^ 127 * (th : ℤ)) = (den - 1 - r) + den * -(d : ℤ) := by linarith
    rw [h2, Int.add_mul_ediv_left _ _ (by omega), Int.ediv_eq_zero_of_lt (by omega) (by omega)]
    ring
  · simp only [sgn, scaleTheta, if_true, Nat.shiftLeft_eq]
    rw [show -(2 ^ 127 * -(th : ℤ)) = ((th * 2 ^ 127 : Nat) : ℤ) by push_cast; ring, ← Int.natCast_ediv]

theorem flip_bmod {N den : Nat} (hd : 0 < den) : sgn (flipTheta (N % den) den).2 (flipTheta (N % den) den).1 = Int.bmod (N : ℤ) den := by
  have hr := Nat.mod_lt N hd
  unfold flipTheta Int.bmod
  rw [show den >>> 1 = den / 2 by rw [Nat.shiftRight_eq_div_pow, pow_one], show ((N : ℤ) % (den : ℤ)) = ((N % den : Nat) : ℤ) by push_cast; rfl]
  generalize N % den = r at *
  simp only [sgn]
  split_ifs <;> simp_all <;> omega

/-- The signed `theta_omega`. -/
theorem tom_eq {s : RnsScaler} (h : s.WF) (g : Nat) :
    tom s g = -(-(2 ^ 127 * Int.bmod ((s.scalingFactor.numerator * g : Nat) : ℤ) s.scalingFactor.denominator) / (s.scalingFactor.denominator : ℤ)) := by
  have hd := h.den
  obtain ⟨f1, -⟩ := flipTheta_spec (N := s.scalingFactor.numerator * g) hd
  rw [← flip_bmod hd]
  unfold tom colOf extractProjectionAndTheta
  rw [divR_ok (by omega), res_ok_bind, RnsContext.project_ok h.dst, res_ok_bind, modR_ok (by omega), res_ok_bind]
  generalize flipTheta (s.scalingFactor.numerator * g % s.scalingFactor.denominator) s.scalingFactor.denominator = fl at *
  obtain ⟨th, sg⟩ := fl
  simp only at *
  obtain ⟨s1, -⟩ := scaleTheta_spec hd f1 sg true
  have s2 := scaleTheta_up (th := th) hd sg
  generalize scaleTheta th s.scalingFactor.denominator sg true = T at *
  have hw : T - T >>> 64 <<< 64 = T % 2 ^ 64 := by
    rw [Nat.shiftRight_eq_div_pow, Nat.shiftLeft_eq]; omega
  have hlo : T % 2 ^ 64 < 2 ^ 64 := Nat.mod_lt _ (by norm_num)
  have hhi : T >>> 64 < 2 ^ 64 := by rw [Nat.shiftRight_eq_div_pow]; omega
  have hT : T % 2 ^ 64 + (T >>> 64) * 2 ^ 64 = T := by rw [Nat.shiftRight_eq_div_pow]; omega
  rw [hw, toU64R_ok hlo, res_ok_bind, toU64R_ok hhi, res_ok_bind]
  simp only
  rw [hT, s2]

/-- The sign is that of the weighted sum of the residues, if `theta_gamma` vanishes. -/
theorem signOf_eq {s : RnsScaler} (h : s.WF) {rests : List Nat} (hr : Canon s.src.moduliU64 rests) (ho : s.scalingFactor.isOne = false)
    (hz : s.scalingFactor.denominator ∣ s.scalingFactor.numerator * s.src.product) :
    s.signOf rests = some (decide (wsum (tom s) s.src.garner rests < 0)) := by
  have hq := sum_lt h hr
  obtain ⟨v, hv, hv2, -⟩ := scaleV_ok .release h hr
  obtain ⟨t, e, t1, t2, t3, t4⟩ := vThetaGamma_ok .release (v := v) h.tgLo h.tgHi (by omega)
  obtain ⟨u', sg, w, u1', c1, c2, c3⟩ := scaleW_core .release h hr hv2 t2 t3
  obtain ⟨u, u1, u2, u3⟩ := sumThetaOmega_ok .release s.thetaOmegaLo s.thetaOmegaHi s.thetaOmegaSign rests U256.zero
    (by unfold U256.zero U256.WF; simp)
    (by rw [h.toLo]; intro x hx; obtain ⟨g, _, rfl⟩ := List.mem_map.mp hx; exact (colOf_spec h g).1)
    (by rw [h.toHi]; intro x hx; obtain ⟨g, _, rfl⟩ := List.mem_map.mp hx; exact (colOf_spec h g).2.1)
    (by
      intro x hx; obtain ⟨q, hq, hlt⟩ := hr.mem hx
      have := (h.src.bound q hq).2; omega)
  obtain rfl : u = u' := Except.ok.inj (u1.symm.trans u1')
  have hw : sdot s.thetaOmegaLo s.thetaOmegaHi s.thetaOmegaSign rests = wsum (tom s) s.src.garner rests := by
    rw [h.toLo, h.toHi, h.toSign, sdot_eq]; rfl
  have hz0 : (U256.zero.val : Int) = 0 := by simp [U256.zero, U256.val]
  rw [hw, hz0, zero_add] at u3
  have b1 := wsum_abs (F := tom s) (c := 2 ^ 126) (gs := s.src.garner) (by positivity) rests (fun g _ => (colOf_spec h g).2.2.1)
  have hb : |wsum (tom s) s.src.garner rests| < 2 ^ 252 := by
    have : (rests.sum : Int) < 2 ^ 124 := by exact_mod_cast hq
    refine lt_of_le_of_lt b1 ?_
    linarith
  have htv : t.val = 0 := by
    rw [h.tgZero hz, Nat.mul_zero] at t3
    omega
  -- the sum before rounding
  have key : ∀ {x : U256}, x.WF → x.val = u.val → roundW .release x = .ok (sg, w) → sg = decide (wsum (tom s) s.src.garner rests < 0) := by
    intro x hx he hc
    rw [show sg = _ from roundW_sign hc, U256.msb_spec hx, he]
    have hlt := U256.val_lt u2
    rw [abs_lt] at hb
    generalize wsum (tom s) s.src.garner rests = S at *
    by_cases hS : S < 0
    · have : (u.val : Int) ≡ S + 2 ^ 256 [ZMOD 2 ^ 256] := u3.trans (by rw [Int.modEq_iff_dvd]; exact ⟨1, by ring⟩)
      rw [Int.ModEq, Int.emod_eq_of_lt (by omega) (by omega), Int.emod_eq_of_lt (by omega) (by omega)] at this
      rw [decide_eq_true hS, decide_eq_true (by omega)]
    · rw [Int.ModEq, Int.emod_eq_of_lt (by omega) (by omega), Int.emod_eq_of_lt (by omega) (by omega)] at u3
      rw [decide_eq_false hS, decide_eq_false (by omega)]
  unfold signOf
  rw [hv]
  have hsw : scaleW .release s rests v = .ok (sg, w) := by
    unfold scaleW
    rw [ho, if_neg (by simp), u1, res_ok_bind, t1, res_ok_bind]
    exact c1
  simp only [hsw]
  congr 1
  have hlt := U256.val_lt u2
  obtain ⟨p1, p2⟩ := U256.wrappingAdd_spec u2 t2
  obtain ⟨q1, q2⟩ := U256.wrappingSub_spec u2 t2
  rw [htv] at p2 q2
  cases hsg : s.thetaGammaSign
  · rw [hsg] at c1
    simp only [Bool.false_eq_true, if_false] at c1
    exact key q1 (by rw [q2]; omega) c1
  · rw [hsg] at c1
    simp only [if_true] at c1
    exact key p1 (by rw [p2]; omega) c1

theorem wsum_map (F : Nat → ℤ) (f : Nat → Nat) (W : Nat → ℤ) : ∀ (gs ms : List Nat), gs.length = ms.length →
    (∀ i, i < ms.length → F (gs.getD i 0) = W (ms.getD i 1)) → wsum F gs (ms.map f) = (ms.map fun q => (f q : ℤ) * W q).sum
  | [], [], _, _ => rfl
  | [], _ :: _, h, _ => by simp at h
  | _ :: _, [], h, _ => by simp at h
  | g :: gs, m :: ms, h, hF => by
      simp only [List.map_cons, wsum, List.sum_cons]
      rw [wsum_map F f W gs ms (by simpa using h) fun i hi => by simpa using hF (i + 1) (by simpa using hi)]
      have : F g = W m := by simpa using hF 0 (by simp)
      rw [this]

/-- The Garner coefficients modulo the product. -/
theorem garner_cong {c : RnsContext} (h : c.WF) (hp : ∀ q ∈ c.moduliU64, q.Prime) (h3 : ∀ q ∈ c.moduliU64, 3 ≤ q) {i : Nat} (hi : i < c.moduliU64.length) :
    ((c.moduliU64.prod : Nat) : ℤ) ∣ ((c.moduliU64.prod / c.moduliU64.getD i 1) ^ (c.moduliU64.getD i 1 - 1) : Nat) - (c.garner.getD i 0 : ℤ) := by
  have hm : c.moduliU64.getD i 1 ∈ c.moduliU64 := by rw [getD_eq_getElem' _ _ _ hi]; exact List.getElem_mem hi
  have hpi := hp _ hm
  rw [← RqContext.prod_dvd_int h.cop]
  intro q hq
  obtain ⟨j, hj, rfl⟩ := List.mem_iff_getElem.mp hq
  rw [← getD_eq_getElem' _ _ 1 hj]
  by_cases hij : i = j
  · subst hij
    have hc : Nat.Coprime (c.moduliU64.prod / c.moduliU64.getD i 1) (c.moduliU64.getD i 1) :=
      coprime_div_prod (fun q hq => by have := (h.bound q hq).1; omega) h.cop hi
    have hf := Nat.ModEq.pow_totient hc
    rw [Nat.totient_prime hpi] at hf
    have hg : c.garner.getD i 0 ≡ 1 [MOD c.moduliU64.getD i 1] := by
      rw [Nat.ModEq, h.g_one i hi, Nat.mod_eq_of_lt hpi.one_lt]
    have := (Nat.modEq_iff_dvd.mp (hg.trans hf.symm))
    exact this
  · refine dvd_sub ?_ ?_
    · rw [Int.natCast_dvd_natCast]
      have : c.moduliU64.getD j 1 ∣ c.moduliU64.prod / c.moduliU64.getD i 1 := by
        rw [Nat.dvd_div_iff_mul_dvd (getD_dvd_prod _ hi)]
        exact getD_mul_dvd_prod _ hi hj hij
      exact this.trans (dvd_pow_self _ (by have := h3 _ hm; omega))
    · rw [Int.natCast_dvd_natCast]
      exact h.g_zero i j hi hj hij

/-- The sign for the residues of an integer. -/
theorem signOf_leakBit {s : RnsScaler} (h : s.WF) (hp : ∀ q ∈ s.src.moduliU64, q.Prime) (h3 : ∀ q ∈ s.src.moduliU64, 3 ≤ q) {t : Nat}
    (hsf : s.scalingFactor = ⟨t, s.src.moduliU64.prod, false⟩) (x : ℤ) :
    s.signOf (s.src.moduliU64.map fun (q : Nat) => (x % (q : ℤ)).toNat) = some (leakBit t s.src.moduliU64 x) := by
  have hcan : Canon s.src.moduliU64 (s.src.moduliU64.map fun (q : Nat) => (x % (q : ℤ)).toNat) := by
    refine ⟨by simp, fun i hi => ?_⟩
    rw [NttOperator.getD_map_of_lt _ _ _ 1 _ hi, getD_eq_getElem' _ _ _ hi]
    have := (h.src.bound _ (List.getElem_mem hi)).1
    have := Int.emod_lt_of_pos x (show (0 : ℤ) < (s.src.moduliU64[i] : ℤ) by omega)
    omega
  rw [signOf_eq h hcan (by rw [hsf]) (by rw [hsf, h.src.prod]; exact Dvd.intro_left _ rfl)]
  rw [wsum_map (tom s) _ (leakWeight t s.src.moduliU64) _ _ h.src.g_len fun i hi => ?_]
  · unfold leakBit
    rw [List.map_congr_left]
    intro q hq
    have := h3 q hq
    rw [Int.toNat_of_nonneg (Int.emod_nonneg _ (by omega))]
  · rw [tom_eq h, hsf]
    unfold leakWeight
    simp only
    congr 4
    rw [Int.bmod, Int.bmod]
    have e : ((t * s.src.garner.getD i 0 : Nat) : ℤ) % (s.src.moduliU64.prod : ℤ) =
        ((t * (s.src.moduliU64.prod / s.src.moduliU64.getD i 1) ^ (s.src.moduliU64.getD i 1 - 1) : Nat) : ℤ) % (s.src.moduliU64.prod : ℤ) := by
      rw [Int.emod_eq_emod_iff_emod_sub_eq_zero]
      refine Int.emod_eq_zero_of_dvd ?_
      have := (garner_cong h.src hp h3 hi).mul_left (-(t : ℤ))
      refine this.trans (dvd_of_eq ?_)
      push_cast; ring
    rw [e]

end RnsScaler
end OnionPIR
