import Verif.Proofs.Rns
import Verif.Proofs.Ntt
import Verif.Spec.Rns
/- Lemmas about the RNS scaler. -/
namespace OnionPIR
namespace RnsScaler

theorem toU64R_ok {x : Nat} (h : x < 2 ^ 64) : toU64R x = .ok x := by
  unfold toU64R; rw [if_pos h]; rfl

/-- Signed value of a magnitude and a sign. -/
def sgn (neg : Bool) (x : Nat) : Int := if neg then -(x : Int) else x

theorem flipTheta_spec {N den : Nat} (hd : 0 < den) :
    ((flipTheta (N % den) den).1 : Nat) * 2 ≤ den ∧
      sgn (flipTheta (N % den) den).2 (flipTheta (N % den) den).1 = (N : Int) - den * (((N + den >>> 1) / den : Nat) : Int) := by
  have hdm := Nat.div_add_mod N den
  have hr := Nat.mod_lt N hd
  rw [show den >>> 1 = den / 2 by rw [Nat.shiftRight_eq_div_pow, pow_one]]
  generalize hk : N / den = k at *
  generalize hrr : N % den = r at *
  have hlow : r + den / 2 < den → (N + den / 2) / den = k := by
    intro h
    rw [← hdm, Nat.add_assoc, Nat.mul_add_div hd, Nat.div_eq_of_lt h, Nat.add_zero]
  have hhigh : den ≤ r + den / 2 → (N + den / 2) / den = k + 1 := by
    intro h
    rw [← hdm, Nat.add_assoc, Nat.mul_add_div hd]
    congr 1
    apply Nat.div_eq_of_lt_le <;> omega
  have hN : (N : Int) = den * k + r := by exact_mod_cast hdm.symm
  have low : r + den / 2 < den → (r : Int) = (N : Int) - den * (((N + den / 2) / den : Nat) : Int) := by
    intro h; rw [hlow h, hN]; ring
  have high : den ≤ r + den / 2 → -((den - r : Nat) : Int) = (N : Int) - den * (((N + den / 2) / den : Nat) : Int) := by
    intro h; rw [hhigh h, hN, Nat.cast_sub (by omega)]; push_cast; ring
  unfold flipTheta
  rw [show den >>> 1 = den / 2 by rw [Nat.shiftRight_eq_div_pow, pow_one]]
  split_ifs with h1 h2 h3 h4
  · exact ⟨by simp only; omega, by simp only [sgn, if_true]; exact high (by omega)⟩
  · exact ⟨by simp only; omega, by simp only [sgn, Bool.false_eq_true, if_false]; exact low (by omega)⟩
  · exact ⟨by simp only; omega, by simp only [sgn, if_true]; exact high (by omega)⟩
  · exact ⟨by simp only; omega, by simp only [sgn, Bool.false_eq_true, if_false]; exact low (by omega)⟩
  · exact ⟨by simp only; omega, by simp only [sgn, Bool.false_eq_true, if_false]; exact low (by omega)⟩

theorem scaleTheta_spec {th den : Nat} (hd : 0 < den) (h2 : th * 2 ≤ den) (sign up : Bool) :
    scaleTheta th den sign up ≤ 2 ^ 126 ∧ (th = 0 → scaleTheta th den sign up = 0) ∧
      ((scaleTheta th den sign up : Int) * den - 2 ^ 127 * th ≤ den) ∧
      (-(den : Int) ≤ (scaleTheta th den sign up : Int) * den - 2 ^ 127 * th) := by
  have hfl : (th <<< 127) / den ≤ 2 ^ 126 ∧ (th = 0 → (th <<< 127) / den = 0) ∧
      (((th <<< 127) / den : Nat) : Int) * den - 2 ^ 127 * th ≤ den ∧
      (-(den : Int) ≤ (((th <<< 127) / den : Nat) : Int) * den - 2 ^ 127 * th) := by
    rw [Nat.shiftLeft_eq]
    have hdm := Nat.div_add_mod (th * 2 ^ 127) den
    have hr := Nat.mod_lt (th * 2 ^ 127) hd
    refine ⟨?_, ?_, ?_, ?_⟩
    · apply Nat.div_le_of_le_mul
      calc th * 2 ^ 127 = th * 2 * 2 ^ 126 := by ring
        _ ≤ den * 2 ^ 126 := Nat.mul_le_mul_right _ h2
    · rintro rfl; simp
    · have : ((th * 2 ^ 127 / den : Nat) : Int) * den = 2 ^ 127 * th - ((th * 2 ^ 127 % den : Nat) : Int) := by
        have : (den : Int) * ((th * 2 ^ 127 / den : Nat) : Int) + ((th * 2 ^ 127 % den : Nat) : Int) = th * 2 ^ 127 := by
          exact_mod_cast hdm
        linarith
      rw [this]; omega
    · have : ((th * 2 ^ 127 / den : Nat) : Int) * den = 2 ^ 127 * th - ((th * 2 ^ 127 % den : Nat) : Int) := by
        have : (den : Int) * ((th * 2 ^ 127 / den : Nat) : Int) + ((th * 2 ^ 127 % den : Nat) : Int) = th * 2 ^ 127 := by
          exact_mod_cast hdm
        linarith
      rw [this]; omega
  have hce : ((th <<< 127) + den - 1) / den ≤ 2 ^ 126 ∧ (th = 0 → ((th <<< 127) + den - 1) / den = 0) ∧
      ((((th <<< 127) + den - 1) / den : Nat) : Int) * den - 2 ^ 127 * th ≤ den ∧
      (-(den : Int) ≤ ((((th <<< 127) + den - 1) / den : Nat) : Int) * den - 2 ^ 127 * th) := by
    rw [Nat.shiftLeft_eq]
    have hdm := Nat.div_add_mod (th * 2 ^ 127 + den - 1) den
    have hr := Nat.mod_lt (th * 2 ^ 127 + den - 1) hd
    have e : (((th * 2 ^ 127 + den - 1) / den : Nat) : Int) * den = 2 ^ 127 * th + den - 1 - ((((th * 2 ^ 127 + den - 1) % den : Nat)) : Int) := by
      have h1 : (den : Int) * (((th * 2 ^ 127 + den - 1) / den : Nat) : Int) + (((th * 2 ^ 127 + den - 1) % den : Nat) : Int) =
        ((th * 2 ^ 127 + den - 1 : Nat) : Int) := by exact_mod_cast hdm
      rw [Nat.cast_sub (by omega)] at h1
      push_cast at h1 ⊢
      linarith
    refine ⟨?_, ?_, ?_, ?_⟩
    · have hle : th * 2 ^ 127 ≤ den * 2 ^ 126 := by
        calc th * 2 ^ 127 = th * 2 * 2 ^ 126 := by ring
          _ ≤ den * 2 ^ 126 := Nat.mul_le_mul_right _ h2
      have : th * 2 ^ 127 + den - 1 < den * (2 ^ 126 + 1) := by
        rw [Nat.mul_add, Nat.mul_one]
        have key : ∀ A B d : Nat, 0 < d → A ≤ B → A + d - 1 < B + d := by intros; omega
        exact key _ _ _ hd hle
      have := Nat.div_lt_of_lt_mul this
      omega
    · rintro rfl; rw [Nat.zero_mul, Nat.zero_add]; exact Nat.div_eq_of_lt (by omega)
    · rw [e]; omega
    · rw [e]; omega
  unfold scaleTheta
  cases up <;> cases sign <;> simp only [if_true, Bool.false_eq_true, if_false]
  · exact hfl
  · exact hce
  · exact hce
  · exact hfl

/-- `extract_projection_and_theta`: the projection of `Γ = round(num*input/den)` and an approximation of
`2^127 * (num*input/den - Γ)` within 1. -/
theorem extract_ok {ctx : RnsContext} (h : ctx.WF) (input num : Nat) {den : Nat} (hd : 0 < den) (up : Bool) :
    ∃ lo hi sg, extractProjectionAndTheta ctx input num den up =
        .ok (ctx.moduliU64.map (fun q => ((num * input + den >>> 1) / den) % q), lo, hi, sg) ∧
      lo < 2 ^ 64 ∧ hi < 2 ^ 64 ∧ lo + hi * 2 ^ 64 ≤ 2 ^ 126 ∧ (den ∣ num * input → lo + hi * 2 ^ 64 = 0) ∧
      |sgn sg (lo + hi * 2 ^ 64) * den - (2 : Int) ^ 127 * (((num * input : Nat) : Int) - den * (((num * input + den >>> 1) / den : Nat) : Int))| ≤ den := by
  obtain ⟨f1, f2⟩ := flipTheta_spec (N := num * input) hd
  have hz : den ∣ num * input → (flipTheta (num * input % den) den).1 = 0 := by
    intro hdv
    rw [Nat.mod_eq_zero_of_dvd hdv]
    unfold flipTheta
    rw [show den >>> 1 = den / 2 by rw [Nat.shiftRight_eq_div_pow, pow_one]]
    split_ifs <;> simp only <;> omega
  unfold extractProjectionAndTheta
  rw [divR_ok (by omega), res_ok_bind, RnsContext.project_ok h, res_ok_bind, modR_ok (by omega), res_ok_bind]
  rw [← f2]
  generalize flipTheta (num * input % den) den = fl at *
  obtain ⟨th, sg⟩ := fl
  simp only at *
  obtain ⟨s1, s2, s3, s4⟩ := scaleTheta_spec hd f1 sg up
  generalize scaleTheta th den sg up = T at *
  have hw : T - T >>> 64 <<< 64 = T % 2 ^ 64 := by
    rw [Nat.shiftRight_eq_div_pow, Nat.shiftLeft_eq]; omega
  have hlo : T % 2 ^ 64 < 2 ^ 64 := Nat.mod_lt _ (by norm_num)
  have hhi : T >>> 64 < 2 ^ 64 := by rw [Nat.shiftRight_eq_div_pow]; omega
  have hT : T % 2 ^ 64 + (T >>> 64) * 2 ^ 64 = T := by rw [Nat.shiftRight_eq_div_pow]; omega
  rw [hw, toU64R_ok hlo, res_ok_bind, toU64R_ok hhi, res_ok_bind]
  refine ⟨_, _, sg, rfl, hlo, hhi, by rw [hT]; exact s1, fun hdv => by rw [hT]; exact s2 (hz hdv), ?_⟩
  have hTc : ((T % 2 ^ 64 : Nat) : Int) + ((T >>> 64 : Nat) : Int) * 2 ^ 64 = T := by exact_mod_cast hT
  rw [hT, abs_le]
  cases sg <;> simp only [sgn, if_true, Bool.false_eq_true, if_false]
  · constructor <;> linarith
  · constructor <;> nlinarith

theorem mulWords_ok (pr : Profile) {r lo hi : Nat} (hr : r < 2 ^ 64) (hlo : lo < 2 ^ 64) (hhi : hi < 2 ^ 64) :
    ∃ w0 w1 w2, mulWords pr r lo hi = .ok (w0, w1, w2) ∧ w0 < 2 ^ 64 ∧ w1 < 2 ^ 64 ∧ w2 < 2 ^ 64 ∧
      w0 + w1 * 2 ^ 64 + w2 * 2 ^ 128 = r * (lo + hi * 2 ^ 64) := by
  have h1 : r * lo ≤ (2 ^ 64 - 1) * (2 ^ 64 - 1) := Nat.mul_le_mul (by omega) (by omega)
  have h2 : r * hi ≤ (2 ^ 64 - 1) * (2 ^ 64 - 1) := Nat.mul_le_mul (by omega) (by omega)
  unfold mulWords
  simp only [Nat.shiftRight_eq_div_pow]
  rw [mulW_ok (by omega), res_ok_bind, mulW_ok (by omega), res_ok_bind, addW_ok (by omega), res_ok_bind]
  refine ⟨_, _, _, rfl, Nat.mod_lt _ (by norm_num), Nat.mod_lt _ (by norm_num), Nat.mod_lt _ (by norm_num), ?_⟩
  rw [Nat.mul_add, ← Nat.mul_assoc]
  generalize r * lo = A at *
  generalize r * hi = B at *
  omega

/-- Sum of the products of corresponding entries, the second factor given by two words. -/
def dot : List Nat → List Nat → List Nat → Nat
  | tl :: tls, th :: ths, r :: rs => r * (tl + th * 2 ^ 64) + dot tls ths rs
  | _, _, _ => 0

theorem sumThetaGarner_ok (pr : Profile) : ∀ (tls ths rs : List Nat) (acc : Nat), (∀ x ∈ tls, x < 2 ^ 64) →
    (∀ x ∈ ths, x < 2 ^ 64) → (∀ x ∈ rs, x < 2 ^ 64) → acc + dot tls ths rs < 2 ^ 192 →
    sumThetaGarner pr tls ths rs acc = .ok (acc + dot tls ths rs)
  | [], _, _, acc, _, _, _, _ => by simp [sumThetaGarner, dot]
  | _ :: _, [], _, acc, _, _, _, _ => by simp [sumThetaGarner, dot]
  | _ :: _, _ :: _, [], acc, _, _, _, _ => by simp [sumThetaGarner, dot]
  | tl :: tls, th :: ths, r :: rs, acc, h1, h2, h3, h => by
    obtain ⟨w0, w1, w2, e, -, -, -, hw⟩ := mulWords_ok pr (h3 r (by simp)) (h1 tl (by simp)) (h2 th (by simp))
    rw [dot] at h ⊢
    rw [sumThetaGarner, e, res_ok_bind]
    simp only
    rw [hw, Nat.mod_eq_of_lt (by omega), sumThetaGarner_ok pr tls ths rs _ (fun x hx => h1 x (by simp [hx]))
      (fun x hx => h2 x (by simp [hx])) (fun x hx => h3 x (by simp [hx])) (by omega), Nat.add_assoc]

/-- Signed version of `dot`. -/
def sdot : List Nat → List Nat → List Bool → List Nat → Int
  | tl :: tls, th :: ths, sg :: sgs, r :: rs => r * sgn sg (tl + th * 2 ^ 64) + sdot tls ths sgs rs
  | _, _, _, _ => 0

theorem sumThetaOmega_ok (pr : Profile) : ∀ (tls ths : List Nat) (sgs : List Bool) (rs : List Nat) (acc : U256), acc.WF →
    (∀ x ∈ tls, x < 2 ^ 64) → (∀ x ∈ ths, x < 2 ^ 64) → (∀ x ∈ rs, x < 2 ^ 64) →
    ∃ u, sumThetaOmega pr tls ths sgs rs acc = .ok u ∧ u.WF ∧ (u.val : Int) ≡ acc.val + sdot tls ths sgs rs [ZMOD 2 ^ 256]
  | [], _, _, _, acc, hw, _, _, _ => ⟨acc, by simp [sumThetaOmega], hw, by simp [sdot]⟩
  | _ :: _, [], _, _, acc, hw, _, _, _ => ⟨acc, by simp [sumThetaOmega], hw, by simp [sdot]⟩
  | _ :: _, _ :: _, [], _, acc, hw, _, _, _ => ⟨acc, by simp [sumThetaOmega], hw, by simp [sdot]⟩
  | _ :: _, _ :: _, _ :: _, [], acc, hw, _, _, _ => ⟨acc, by simp [sumThetaOmega], hw, by simp [sdot]⟩
  | tl :: tls, th :: ths, sg :: sgs, r :: rs, acc, hw, h1, h2, h3 => by
    obtain ⟨w0, w1, w2, e, b0, b1, b2, hww⟩ := mulWords_ok pr (h3 r (by simp)) (h1 tl (by simp)) (h2 th (by simp))
    have hT : (U256.ofU64s w0 w1 w2 0).WF := ⟨b0, b1, b2, by simp [U256.ofU64s]⟩
    have hTv : (U256.ofU64s w0 w1 w2 0).val = r * (tl + th * 2 ^ 64) := by
      rw [← hww]; simp [U256.ofU64s, U256.val]
    have hTc := congrArg (Nat.cast (R := Int)) hTv
    push_cast at hTc
    obtain ⟨p1, p2⟩ := U256.wrappingAdd_spec hw hT
    obtain ⟨q1, q2⟩ := U256.wrappingSub_spec hw hT
    have hTlt := U256.val_lt hT
    rw [sumThetaOmega, e, res_ok_bind]
    simp only
    cases sg
    · simp only [Bool.false_eq_true, if_false]
      obtain ⟨u, e1, e2, e3⟩ := sumThetaOmega_ok pr tls ths sgs rs _ p1 (fun x hx => h1 x (by simp [hx]))
        (fun x hx => h2 x (by simp [hx])) (fun x hx => h3 x (by simp [hx]))
      refine ⟨u, e1, e2, e3.trans ?_⟩
      rw [sdot, sgn, if_neg (by simp), p2, Int.natCast_emod, ← add_assoc]
      refine Int.ModEq.add_right _ ?_
      rw [show ((2 ^ 256 : Nat) : Int) = 2 ^ 256 by norm_num]
      refine (Int.mod_modEq _ _).trans ?_
      push_cast
      rw [hTc]
    · simp only [if_true]
      obtain ⟨u, e1, e2, e3⟩ := sumThetaOmega_ok pr tls ths sgs rs _ q1 (fun x hx => h1 x (by simp [hx]))
        (fun x hx => h2 x (by simp [hx])) (fun x hx => h3 x (by simp [hx]))
      refine ⟨u, e1, e2, e3.trans ?_⟩
      rw [sdot, sgn, if_pos rfl, q2, Int.natCast_emod, ← add_assoc]
      refine Int.ModEq.add_right _ ?_
      rw [show ((2 ^ 256 : Nat) : Int) = 2 ^ 256 by norm_num]
      refine (Int.mod_modEq _ _).trans ?_
      rw [Nat.cast_sub (by omega), Nat.cast_add, hTc, Int.modEq_iff_dvd]
      exact ⟨-1, by push_cast; ring⟩

/-- The carry dropped by `vThetaGamma`. -/
def dropped (v lo : Nat) : Nat := v / 2 ^ 64 * lo / 2 ^ 64

theorem dropped_eq_zero {v lo : Nat} (hlo : lo < 2 ^ 64) (h : lo = 0 ∨ v < 2 ^ 65) : dropped v lo = 0 := by
  unfold dropped
  rcases h with rfl | h
  · simp
  · refine Nat.div_eq_of_lt (lt_of_le_of_lt ?_ hlo)
    calc v / 2 ^ 64 * lo ≤ 1 * lo := Nat.mul_le_mul_right _ (by omega)
      _ = lo := Nat.one_mul _

theorem dropped_le {v lo : Nat} (hlo : lo < 2 ^ 64) : dropped v lo ≤ v / 2 ^ 64 - 1 := by
  unfold dropped
  rcases Nat.eq_zero_or_pos (v / 2 ^ 64) with h | h
  · rw [h]; simp
  · have : v / 2 ^ 64 * lo < 2 ^ 64 * (v / 2 ^ 64) := by
      rw [Nat.mul_comm]; exact Nat.mul_lt_mul_of_pos_right hlo h
    have := Nat.div_lt_of_lt_mul this
    omega

theorem vtg_arith {A B C D : Nat} (a1 : A ≤ (2 ^ 64 - 1) * (2 ^ 64 - 1)) (a2 : B ≤ (2 ^ 64 - 1) * (2 ^ 64 - 1))
    (a3 : C ≤ (2 ^ 64 - 1) * (2 ^ 64 - 1)) (a4 : D ≤ (2 ^ 64 - 1) * (2 ^ 64 - 1)) :
    ∃ e, A % 2 ^ 64 + (A / 2 ^ 64 + B % 2 ^ 64 + C % 2 ^ 64) % 2 ^ 64 * 2 ^ 64 +
        (B / 2 ^ 64 + (A / 2 ^ 64 + B % 2 ^ 64 + C % 2 ^ 64) / 2 ^ 64 + D % 2 ^ 64) % 2 ^ 64 * 2 ^ 128 + e * 2 ^ 128 =
      A + B * 2 ^ 64 + C * 2 ^ 64 + D * 2 ^ 128 ∧
      (A + B * 2 ^ 64 + C * 2 ^ 64 + D * 2 ^ 128 < 2 ^ 192 → e = C / 2 ^ 64) := by
  refine ⟨C / 2 ^ 64 + D / 2 ^ 64 * 2 ^ 64 + (B / 2 ^ 64 + (A / 2 ^ 64 + B % 2 ^ 64 + C % 2 ^ 64) / 2 ^ 64 + D % 2 ^ 64) / 2 ^ 64 * 2 ^ 64, ?_, ?_⟩
  · omega
  · intro h
    omega

theorem vThetaGamma_ok (pr : Profile) {v lo hi : Nat} (hlo : lo < 2 ^ 64) (hhi : hi < 2 ^ 64) (hv : v < 2 ^ 128) :
    ∃ u e, vThetaGamma pr v lo hi = .ok u ∧ u.WF ∧ u.val + e * 2 ^ 128 = v * (lo + hi * 2 ^ 64) ∧
      (v * (lo + hi * 2 ^ 64) < 2 ^ 192 → e = dropped v lo) := by
  have hvl : v % 2 ^ 64 < 2 ^ 64 := Nat.mod_lt _ (by norm_num)
  have hvh : v / 2 ^ 64 < 2 ^ 64 := by omega
  have a1 : (v % 2 ^ 64) * lo ≤ (2 ^ 64 - 1) * (2 ^ 64 - 1) := Nat.mul_le_mul (by omega) (by omega)
  have a2 : (v % 2 ^ 64) * hi ≤ (2 ^ 64 - 1) * (2 ^ 64 - 1) := Nat.mul_le_mul (by omega) (by omega)
  have a3 : (v / 2 ^ 64) * lo ≤ (2 ^ 64 - 1) * (2 ^ 64 - 1) := Nat.mul_le_mul (by omega) (by omega)
  have a4 : (v / 2 ^ 64) * hi ≤ (2 ^ 64 - 1) * (2 ^ 64 - 1) := Nat.mul_le_mul (by omega) (by omega)
  unfold vThetaGamma
  simp only [Nat.shiftRight_eq_div_pow]
  rw [mulW_ok (by omega), res_ok_bind, mulW_ok (by omega), res_ok_bind, mulW_ok (by omega), res_ok_bind, mulW_ok (by omega),
    res_ok_bind, addW_ok (by omega), res_ok_bind, addW_ok (by omega), res_ok_bind, addW_ok (by omega), res_ok_bind,
    addW_ok (by omega), res_ok_bind]
  obtain ⟨e, e1, e2⟩ := vtg_arith a1 a2 a3 a4
  have hval : v * (lo + hi * 2 ^ 64) = v % 2 ^ 64 * lo + v % 2 ^ 64 * hi * 2 ^ 64 + v / 2 ^ 64 * lo * 2 ^ 64 + v / 2 ^ 64 * hi * 2 ^ 128 := by
    conv_lhs => rw [← Nat.div_add_mod v (2 ^ 64)]
    ring
  rw [← hval] at e1 e2
  refine ⟨_, e, rfl, ⟨Nat.mod_lt _ (by norm_num), Nat.mod_lt _ (by norm_num), Nat.mod_lt _ (by norm_num), by simp [U256.ofU64s]⟩, ?_, e2⟩
  rw [← e1]
  simp [U256.val, U256.ofU64s]

theorem divCeil_two (pr : Profile) {a : Nat} (h : a + 2 < 2 ^ 128) : divCeil 128 pr a 2 = .ok ((a + 1) / 2) := by
  unfold divCeil
  rw [rassert_ok (by norm_num), res_ok_bind, addW_ok h, res_ok_bind, subW_ok (by omega), res_ok_bind, divR_ok (by norm_num)]
  rfl

/-- Rounding of the 256-bit two's complement sum. -/
theorem roundW_ok (pr : Profile) {u : U256} (hu : u.WF) {S : Int} (hS : (u.val : Int) ≡ S [ZMOD 2 ^ 256])
    (hb : |S| < 2 ^ 252) :
    ∃ sg w, roundW pr u = .ok (sg, w) ∧ w < 2 ^ 128 ∧ |2 ^ 127 * sgn sg w - S| ≤ 2 ^ 126 := by
  have hlt := U256.val_lt hu
  have hmsb := U256.msb_spec hu
  rw [abs_lt] at hb
  unfold roundW
  rw [hmsb]
  have hpos : 0 ≤ S → (u.val : Int) = S := by
    intro h
    rw [Int.ModEq, Int.emod_eq_of_lt (by omega) (by omega), Int.emod_eq_of_lt h (by omega)] at hS
    exact hS
  have hneg : S < 0 → (u.val : Int) = S + 2 ^ 256 := by
    intro h
    have : (u.val : Int) ≡ S + 2 ^ 256 [ZMOD 2 ^ 256] := hS.trans (by rw [Int.modEq_iff_dvd]; exact ⟨1, by ring⟩)
    rw [Int.ModEq, Int.emod_eq_of_lt (by omega) (by omega), Int.emod_eq_of_lt (by omega) (by omega)] at this
    exact this
  rcases lt_or_ge S 0 with h | h
  · have hv := hneg h
    rw [if_pos (by omega)]
    obtain ⟨n1, n2⟩ := U256.not_spec hu
    obtain ⟨y, y1, y2, y3⟩ := U256.shr_spec pr n1 (k := 126) (by norm_num)
    have hyb : y.val < 2 ^ 127 := by rw [y3, n2]; omega
    rw [y1, res_ok_bind, U256.toU128_ok pr y2 (by omega), res_ok_bind, addW_ok (by omega), res_ok_bind]
    refine ⟨true, _, rfl, by omega, ?_⟩
    simp only [sgn, if_true]
    rw [n2] at y3
    rw [abs_le]
    constructor <;> omega
  · have hv := hpos h
    rw [if_neg (by omega)]
    obtain ⟨y, y1, y2, y3⟩ := U256.shr_spec pr hu (k := 126) (by norm_num)
    have hyb : y.val < 2 ^ 127 := by rw [y3]; omega
    rw [y1, res_ok_bind, U256.toU128_ok pr y2 (by omega), res_ok_bind, divCeil_two pr (by omega), res_ok_bind]
    refine ⟨false, _, rfl, by omega, ?_⟩
    simp only [sgn, Bool.false_eq_true, if_false]
    rw [abs_le]
    constructor <;> omega

/-- Exponent of the power of two above `x ≥ 2`. -/
def npLog (x : Nat) : Nat := (x - 1).log2 + 1

theorem npLog_spec {x : Nat} (h : 2 ≤ x) : x ≤ 2 ^ npLog x ∧ 2 ^ npLog x < 2 * x := by
  unfold npLog
  have h1 := Nat.log2_self_le (n := x - 1) (by omega)
  have h2 := Nat.lt_log2_self (n := x - 1)
  rw [pow_succ] at *
  omega

theorem ilog2_two_pow (pr : Profile) {w k : Nat} (h : k < w) : ilog2 w pr (2 ^ k) = .ok k := by
  unfold ilog2 leadingZeros
  rw [if_neg (by positivity), Nat.log2_two_pow, subW_ok (by omega)]
  congr 1; omega

theorem garnerShift_ok (pr : Profile) {c : RnsContext} (h : c.WF) (hne : c.moduliU64 ≠ []) (hn : c.moduliU64.length < 2 ^ 62) :
    ∃ s, garnerShift pr c = .ok s ∧ 64 ≤ s ∧ s ≤ 127 ∧ (∀ q ∈ c.moduliU64, q * c.moduliU64.length * 2 ^ s ≤ 2 ^ 191) ∧
      (s = 127 ∨ ∃ q ∈ c.moduliU64, 2 ^ 190 ≤ q * c.moduliU64.length * 2 ^ s) := by
  have hb := h.bound
  unfold garnerShift
  generalize c.moduliU64 = l at *
  have hl1 : 1 ≤ l.length := List.length_pos_of_ne_nil hne
  generalize hN : l.length = N at *
  have hx : ∀ q ∈ l, 2 ≤ q * N ∧ q * N < 2 ^ 124 := by
    intro q hq
    have := hb q hq
    constructor
    · nlinarith
    · calc q * N < 2 ^ 62 * 2 ^ 62 := Nat.mul_lt_mul'' this.2 hn
        _ = 2 ^ 124 := by norm_num
  have hk : ∀ q ∈ l, npLog (q * N) ≤ 124 := by
    intro q hq
    have h2 := (npLog_spec (hx q hq).1).2
    have h3 : 2 ^ npLog (q * N) < 2 ^ 125 := by have := (hx q hq).2; omega
    have := (Nat.pow_lt_pow_iff_right (by norm_num)).mp h3
    omega
  rw [mapR_ok (g := fun q => 191 - npLog (q * N))]
  · rw [res_ok_bind]
    obtain ⟨m, hm⟩ : ∃ m, (l.map (fun q => 191 - npLog (q * N))).min? = some m := by
      cases l with
      | nil => exact absurd rfl hne
      | cons a l => simp [List.min?_cons]
    rw [hm]
    obtain ⟨m1, m2⟩ := List.min?_eq_some_iff.mp hm
    obtain ⟨q0, hq0, e0⟩ := List.mem_map.mp m1
    refine ⟨min m 127, rfl, ?_, by omega, ?_, ?_⟩
    · have := hk q0 hq0; omega
    · intro q hq
      have := m2 _ (List.mem_map.mpr ⟨q, hq, rfl⟩)
      have h1 := (npLog_spec (hx q hq).1).1
      have h2 := hk q hq
      calc q * N * 2 ^ min m 127 ≤ 2 ^ npLog (q * N) * 2 ^ min m 127 := Nat.mul_le_mul_right _ h1
        _ = 2 ^ (npLog (q * N) + min m 127) := by rw [pow_add]
        _ ≤ 2 ^ 191 := Nat.pow_le_pow_right (by norm_num) (by omega)
    · by_cases hc : 127 ≤ m
      · left; omega
      · right
        refine ⟨q0, hq0, ?_⟩
        have h1 := (npLog_spec (hx q0 hq0).1).2
        have h2 := hk q0 hq0
        have : 2 ^ 191 ≤ 2 ^ npLog (q0 * N) * 2 ^ min m 127 := by
          rw [← pow_add]; exact Nat.pow_le_pow_right (by norm_num) (by omega)
        have h3 : 2 ^ npLog (q0 * N) * 2 ^ min m 127 ≤ 2 * (q0 * N) * 2 ^ min m 127 := Nat.mul_le_mul_right _ h1.le
        have h4 : 2 * 2 ^ 190 ≤ 2 * (q0 * N * 2 ^ min m 127) := by
          calc 2 * 2 ^ 190 = 2 ^ 191 := by norm_num
            _ ≤ _ := this
            _ ≤ _ := h3
            _ = _ := by ring
        exact Nat.le_of_mul_le_mul_left h4 (by norm_num)
  · intro q hq
    obtain ⟨x1, x2⟩ := hx q hq
    have h2 := hk q hq
    have h3 := (npLog_spec x1).2
    rw [mulW_ok (by omega), res_ok_bind]
    unfold nextPowerOfTwo
    rw [if_neg (by omega), ← npLog, fit_ok (by omega), res_ok_bind, ilog2_two_pow pr (by omega), res_ok_bind, subW_ok (by omega)]

/-- The column of the scaler for the garner coefficient `g`. -/
def colOf (dst : RnsContext) (num den g : Nat) : List Nat × Nat × Nat × Bool :=
  match extractProjectionAndTheta dst g num den true with
  | .ok c => c
  | .error _ => ([], 0, 0, false)

/-- `round(num * x / den)`. -/
def rnd (num den x : Nat) : Nat := (num * x + den >>> 1) / den

/-- What `RnsScaler::new` establishes. -/
structure WF (s : RnsScaler) : Prop where
  src : s.src.WF
  dst : s.dst.WF
  ne : s.src.moduliU64 ≠ []
  len : s.src.moduliU64.length < 2 ^ 62
  den : 0 < s.scalingFactor.denominator
  gamma : s.gamma = s.dst.moduliU64.map
    (fun q => rnd s.scalingFactor.numerator s.scalingFactor.denominator s.src.product % q)
  gammaShoup : s.gammaShoup = s.dst.moduliU64.map
    (fun q => (rnd s.scalingFactor.numerator s.scalingFactor.denominator s.src.product % q) * 2 ^ 64 / q)
  tgLo : s.thetaGammaLo < 2 ^ 64
  tgHi : s.thetaGammaHi < 2 ^ 64
  tgLe : s.thetaGammaLo + s.thetaGammaHi * 2 ^ 64 ≤ 2 ^ 126
  tgZero : s.scalingFactor.denominator ∣ s.scalingFactor.numerator * s.src.product →
    s.thetaGammaLo + s.thetaGammaHi * 2 ^ 64 = 0
  tgApprox : |sgn s.thetaGammaSign (s.thetaGammaLo + s.thetaGammaHi * 2 ^ 64) * s.scalingFactor.denominator -
    (2 : Int) ^ 127 * (((s.scalingFactor.numerator * s.src.product : Nat) : Int) - s.scalingFactor.denominator *
      (rnd s.scalingFactor.numerator s.scalingFactor.denominator s.src.product : Int))| ≤ s.scalingFactor.denominator
  omega : s.omega = s.dst.moduliU64.map (fun q => s.src.garner.map
    (fun g => rnd s.scalingFactor.numerator s.scalingFactor.denominator g % q))
  omegaShoup : s.omegaShoup = s.dst.moduliU64.map (fun q => s.src.garner.map
    (fun g => (rnd s.scalingFactor.numerator s.scalingFactor.denominator g % q) * 2 ^ 64 / q))
  toLo : s.thetaOmegaLo = s.src.garner.map
    (fun g => (colOf s.dst s.scalingFactor.numerator s.scalingFactor.denominator g).2.1)
  toHi : s.thetaOmegaHi = s.src.garner.map
    (fun g => (colOf s.dst s.scalingFactor.numerator s.scalingFactor.denominator g).2.2.1)
  toSign : s.thetaOmegaSign = s.src.garner.map
    (fun g => (colOf s.dst s.scalingFactor.numerator s.scalingFactor.denominator g).2.2.2)
  shift_ge : 64 ≤ s.thetaGarnerShift
  shift_le : s.thetaGarnerShift ≤ 127
  shift_q : ∀ q ∈ s.src.moduliU64, q * s.src.moduliU64.length * 2 ^ s.thetaGarnerShift ≤ 2 ^ 191
  shift_lo : s.thetaGarnerShift = 127 ∨
    ∃ q ∈ s.src.moduliU64, 2 ^ 190 ≤ q * s.src.moduliU64.length * 2 ^ s.thetaGarnerShift
  tgarLo : s.thetaGarnerLo = s.src.garner.map
    (fun g => ((g * 2 ^ s.thetaGarnerShift + s.src.product / 2) / s.src.product) % 2 ^ 64)
  tgarHi : s.thetaGarnerHi = s.src.garner.map
    (fun g => ((g * 2 ^ s.thetaGarnerShift + s.src.product / 2) / s.src.product) / 2 ^ 64)

theorem zipWith_map_p {α : Type*} (f : Nat → α) (ms : List Modulus) (g : α → Modulus → α) :
    List.zipWith g ((ms.map Modulus.p).map f) ms = ms.map (fun m => g (f m.p) m) := by
  induction ms with
  | nil => rfl
  | cons m ms ih => simp only [List.map_cons, List.zipWith_cons_cons, ih]

theorem garner_theta_le {c : RnsContext} (h : c.WF) {g s : Nat} (hg : g ∈ c.garner) :
    (g * 2 ^ s + c.product / 2) / c.product ≤ 2 ^ s := by
  have hp := h.pos
  obtain ⟨i, hi, rfl⟩ := List.mem_iff_getElem.mp hg
  have hlt : c.garner[i] < c.product := by
    have := h.g_lt i (by rw [← h.g_len]; exact hi)
    rwa [getD_eq_getElem' _ _ _ hi] at this
  generalize c.garner[i] = g at *
  have h1 : g * 2 ^ s + c.product / 2 < c.product * (2 ^ s + 1) := by
    have : g * 2 ^ s ≤ c.product * 2 ^ s := Nat.mul_le_mul_right _ hlt.le
    rw [Nat.mul_add, Nat.mul_one]; omega
  have := Nat.div_lt_of_lt_mul h1
  omega

theorem new_ok (pr : Profile) {src dst : RnsContext} (hs : src.WF) (hd : dst.WF) (hne : src.moduliU64 ≠ [])
    (hn : src.moduliU64.length < 2 ^ 62) {sf : ScalingFactor} (hden : 0 < sf.denominator) :
    ∃ s, RnsScaler.new pr src dst sf = .ok s ∧ s.WF ∧ s.src = src ∧ s.dst = dst ∧ s.scalingFactor = sf := by
  obtain ⟨lo, hi, sg, e1, b1, b2, b3, b4, b5⟩ := extract_ok hd src.product sf.numerator hden false
  obtain ⟨sh, e2, s1, s2, s3, s4⟩ := garnerShift_ok pr hs hne hn
  have hmp := hd.ps
  unfold RnsScaler.new
  rw [e1, res_ok_bind]
  simp only
  have hqpos : ∀ m ∈ dst.moduli, 0 < m.p := fun m hm => (hd.mods m hm).pos
  rw [zipR_ok (g := fun wi (q : Modulus) => wi * 2 ^ 64 / q.p), res_ok_bind, ← hmp, zipWith_map_p]
  swap
  · rintro ⟨w, m⟩ hp
    rw [← hmp] at hp
    obtain ⟨i, hi, hp⟩ := List.mem_iff_getElem.mp hp
    simp only [List.getElem_zip, List.getElem_map, Prod.mk.injEq] at hp
    obtain ⟨rfl, rfl⟩ := hp
    have hm := hd.mods _ (List.getElem_mem (l := dst.moduli) (n := i) (by simpa using hi))
    exact Modulus.shoup_ok hm pr (Nat.mod_lt _ hm.pos)
  rw [mapR_ok (g := colOf dst sf.numerator sf.denominator), res_ok_bind]
  swap
  · intro g _
    obtain ⟨lo', hi', sg', e', -⟩ := extract_ok hd g sf.numerator hden true
    unfold colOf
    rw [e']
  have hcol : ∀ g, (colOf dst sf.numerator sf.denominator g).1 = dst.moduliU64.map
      (fun q => rnd sf.numerator sf.denominator g % q) := by
    intro g
    obtain ⟨lo', hi', sg', e', -⟩ := extract_ok hd g sf.numerator hden true
    unfold colOf
    rw [e']; rfl
  rw [mapR_ok (g := fun j => src.garner.map (fun g => rnd sf.numerator sf.denominator g % (dst.moduliU64.getD j 1))), res_ok_bind]
  swap
  · intro j hj
    have hj := List.mem_range.mp hj
    have hj' : j < dst.moduliU64.length := by rw [← hmp]; simpa using hj
    have hm := hd.mods _ (List.getElem_mem hj)
    have hpj : dst.moduli[j].p = dst.moduliU64.getD j 1 := by
      rw [getD_eq_getElem' _ _ _ hj']; simp [← hmp]
    rw [idx_ok hj, res_ok_bind, mapR_ok (g := fun c => (c.1.getD j 0) % dst.moduliU64.getD j 1), List.map_map]
    · congr 1
      apply List.map_congr_left
      intro g _
      simp only [Function.comp_apply]
      rw [hcol g, NttOperator.getD_map_of_lt _ _ _ 1 _ hj', Nat.mod_mod]
    · intro c hc
      obtain ⟨g, _, rfl⟩ := List.mem_map.mp hc
      have hlen : j < (colOf dst sf.numerator sf.denominator g).1.length := by rw [hcol]; simpa using hj'
      rw [idx_getD 0 hlen, res_ok_bind, ← hpj]
      apply Modulus.reduce_ok hm pr
      rw [hcol, NttOperator.getD_map_of_lt _ _ _ 1 _ hj', ← hpj]
      have := Nat.mod_lt (rnd sf.numerator sf.denominator g) hm.pos
      have := hm.lt
      omega
  have hrange : (List.range dst.moduli.length).map (fun j => src.garner.map
      (fun g => rnd sf.numerator sf.denominator g % (dst.moduliU64.getD j 1))) =
      dst.moduliU64.map (fun q => src.garner.map (fun g => rnd sf.numerator sf.denominator g % q)) := by
    have hlen : dst.moduli.length = dst.moduliU64.length := by rw [← hmp]; simp
    apply List.ext_getElem
    · simp [hlen]
    · intro i h1 h2
      simp only [List.getElem_map, List.getElem_range]
      rw [getD_eq_getElem' _ _ _ (by simpa using h2)]
  rw [hrange]
  have hzip : zipR (fun qj row => mapR (fun w => Modulus.shoup pr qj w) row) dst.moduli
      (dst.moduliU64.map (fun q => src.garner.map (fun g => rnd sf.numerator sf.denominator g % q))) =
      .ok (dst.moduliU64.map (fun q => src.garner.map (fun g => (rnd sf.numerator sf.denominator g % q) * 2 ^ 64 / q))) := by
    rw [← hmp]
    have hall := hd.mods
    generalize dst.moduli = ms at hall
    clear hrange hcol hqpos
    induction ms with
    | nil => rfl
    | cons m ms ih =>
      have hm := hall m (by simp)
      simp only [List.map_cons, zipR]
      rw [mapR_ok (g := fun w => w * 2 ^ 64 / m.p), res_ok_bind, ih (fun m hm => hall m (by simp [hm])), res_ok_bind, List.map_map]
      · rfl
      · intro w hw
        obtain ⟨g, _, rfl⟩ := List.mem_map.mp hw
        exact Modulus.shoup_ok hm pr (Nat.mod_lt _ hm.pos)
  rw [hzip, res_ok_bind, e2, res_ok_bind]
  rw [mapR_ok (g := fun g => (((g * 2 ^ sh + src.product / 2) / src.product) % 2 ^ 64,
      ((g * 2 ^ sh + src.product / 2) / src.product) / 2 ^ 64)), res_ok_bind]
  swap
  · intro g hg
    have hle := garner_theta_le hs (s := sh) hg
    have hpp := hs.pos
    have h127 : 2 ^ sh ≤ 2 ^ 127 := Nat.pow_le_pow_right (by norm_num) s2
    rw [Nat.shiftLeft_eq, Nat.shiftRight_eq_div_pow, pow_one, divR_ok (by omega), res_ok_bind]
    generalize (g * 2 ^ sh + src.product / 2) / src.product = T at *
    have hw : T - T >>> 64 <<< 64 = T % 2 ^ 64 := by
      rw [Nat.shiftRight_eq_div_pow, Nat.shiftLeft_eq]; omega
    rw [hw, toU64R_ok (Nat.mod_lt _ (by norm_num)), res_ok_bind, Nat.shiftRight_eq_div_pow, toU64R_ok (by omega), res_ok_bind]
  refine ⟨_, rfl, ?_, rfl, rfl, rfl⟩
  exact {
    src := hs, dst := hd, ne := hne, len := hn, den := hden
    gamma := by rw [← hmp]; rfl
    gammaShoup := by simp only [← hmp, List.map_map]; rfl
    tgLo := b1, tgHi := b2, tgLe := b3, tgZero := b4, tgApprox := b5
    omega := rfl, omegaShoup := rfl
    toLo := by simp only [List.map_map]; rfl
    toHi := by simp only [List.map_map]; rfl
    toSign := by simp only [List.map_map]; rfl
    shift_ge := s1, shift_le := s2, shift_q := s3, shift_lo := s4
    tgarLo := by simp only [List.map_map]; rfl
    tgarHi := by simp only [List.map_map]; rfl }

/-- Weighted sum `Σ r_i * F(g_i)`. -/
def wsum (F : Nat → Int) : List Nat → List Nat → Int
  | g :: gs, r :: rs => r * F g + wsum F gs rs
  | _, _ => 0

theorem wsum_abs {F : Nat → Int} {c : Int} (hc : 0 ≤ c) : ∀ {gs : List Nat} (rs : List Nat), (∀ g ∈ gs, |F g| ≤ c) →
    |wsum F gs rs| ≤ c * rs.sum
  | [], rs, _ => by simp only [wsum, abs_zero]; positivity
  | _ :: _, [], _ => by simp [wsum]
  | g :: gs, r :: rs, h => by
    have ih := wsum_abs hc rs (fun g hg => h g (List.mem_cons_of_mem _ hg))
    have h1 : |(r : Int) * F g| ≤ c * r := by
      rw [abs_mul, abs_of_nonneg (show (0 : Int) ≤ r by positivity), mul_comm]
      exact mul_le_mul_of_nonneg_right (h g (by simp)) (by positivity)
    rw [wsum, List.sum_cons, Nat.cast_add, mul_add]
    exact (abs_add_le _ _).trans (add_le_add h1 ih)

theorem wsum_sub (F F' : Nat → Int) : ∀ gs rs, wsum F gs rs - wsum F' gs rs = wsum (fun g => F g - F' g) gs rs
  | [], _ => by simp [wsum]
  | _ :: _, [] => by simp [wsum]
  | g :: gs, r :: rs => by rw [wsum, wsum, wsum, ← wsum_sub F F' gs rs]; ring

theorem wsum_smul (c : Int) (F : Nat → Int) : ∀ gs rs, c * wsum F gs rs = wsum (fun g => c * F g) gs rs
  | [], _ => by simp [wsum]
  | _ :: _, [] => by simp [wsum]
  | g :: gs, r :: rs => by rw [wsum, wsum, ← wsum_smul c F gs rs]; ring

theorem wsum_congr {F F' : Nat → Int} : ∀ {gs : List Nat} (rs : List Nat), (∀ g ∈ gs, F g = F' g) → wsum F gs rs = wsum F' gs rs
  | [], _, _ => by simp [wsum]
  | _ :: _, [], _ => by simp [wsum]
  | g :: gs, r :: rs, h => by
    rw [wsum, wsum, h g (by simp), wsum_congr rs (fun g hg => h g (by simp [hg]))]

theorem dot_eq (f h : Nat → Nat) : ∀ gs rs, (dot (gs.map f) (gs.map h) rs : Int) = wsum (fun g => (f g + h g * 2 ^ 64 : Nat)) gs rs
  | [], _ => by simp [wsum, dot]
  | _ :: _, [] => by simp [wsum, dot]
  | g :: gs, r :: rs => by
    have := dot_eq f h gs rs
    simp only [wsum, dot, List.map_cons]
    push_cast at *
    rw [this]

theorem sdot_eq (f h : Nat → Nat) (k : Nat → Bool) : ∀ gs rs, sdot (gs.map f) (gs.map h) (gs.map k) rs =
    wsum (fun g => sgn (k g) (f g + h g * 2 ^ 64)) gs rs
  | [], _ => by simp [wsum, sdot]
  | _ :: _, [] => by simp [wsum, sdot]
  | g :: gs, r :: rs => by
    have := sdot_eq f h k gs rs
    simp only [wsum, sdot, List.map_cons]
    rw [this]

theorem liftSum_wsum : ∀ rs gs (a : Nat), (RnsContext.liftSum rs gs a : Int) = a + wsum (fun g => (g : Int)) gs rs
  | [], gs, a => by cases gs <;> simp [RnsContext.liftSum, wsum]
  | _ :: _, [], a => by simp [RnsContext.liftSum, wsum]
  | r :: rs, g :: gs, a => by
    rw [RnsContext.liftSum, liftSum_wsum rs gs, wsum]
    push_cast; ring

/-- Canonical residues for a list of moduli. -/
def Canon (qs rs : List Nat) : Prop := rs.length = qs.length ∧ ∀ i, i < qs.length → rs.getD i 0 < qs.getD i 1

theorem Canon.mem {qs rs : List Nat} (h : Canon qs rs) {x : Nat} (hx : x ∈ rs) : ∃ q ∈ qs, x < q := by
  obtain ⟨i, hi, rfl⟩ := List.mem_iff_getElem.mp hx
  have hi' : i < qs.length := by rw [← h.1]; exact hi
  have := h.2 i hi'
  rw [getD_eq_getElem' _ _ _ hi, getD_eq_getElem' _ _ _ hi'] at this
  exact ⟨_, List.getElem_mem hi', this⟩

theorem sum_mul_le {rs : List Nat} {c M : Nat} (h : ∀ x ∈ rs, x * c ≤ M) : rs.sum * c ≤ rs.length * M := by
  induction rs with
  | nil => simp
  | cons a rs ih =>
    have h1 := h a (by simp)
    have h2 := ih (fun x hx => h x (by simp [hx]))
    rw [List.sum_cons, List.length_cons, Nat.add_mul, Nat.add_mul]; omega

theorem sum_lt {s : RnsScaler} (h : s.WF) {rests : List Nat} (hr : Canon s.src.moduliU64 rests) : rests.sum < 2 ^ 124 := by
  have h1 : rests.sum * 1 ≤ rests.length * 2 ^ 62 := by
    apply sum_mul_le
    intro x hx
    obtain ⟨q, hq, hlt⟩ := hr.mem hx
    have := (h.src.bound q hq).2
    omega
  have := h.len
  rw [hr.1] at h1
  omega

theorem sum_shift_le {s : RnsScaler} (h : s.WF) {rests : List Nat} (hr : Canon s.src.moduliU64 rests) :
    rests.sum * 2 ^ s.thetaGarnerShift ≤ 2 ^ 191 := by
  have h1 : rests.sum * (s.src.moduliU64.length * 2 ^ s.thetaGarnerShift) ≤ rests.length * 2 ^ 191 := by
    apply sum_mul_le
    intro x hx
    obtain ⟨q, hq, hlt⟩ := hr.mem hx
    refine le_trans ?_ (h.shift_q q hq)
    rw [Nat.mul_assoc]
    exact Nat.mul_le_mul_right _ hlt.le
  have hpos : 0 < s.src.moduliU64.length := List.length_pos_of_ne_nil h.ne
  rw [hr.1, Nat.mul_left_comm] at h1
  exact Nat.le_of_mul_le_mul_left h1 hpos

/-- `round(g * 2^shift / Q)`. -/
def tg (s : RnsScaler) (g : Nat) : Nat := (g * 2 ^ s.thetaGarnerShift + s.src.product / 2) / s.src.product

theorem tg_approx {s : RnsScaler} (h : s.WF) (g : Nat) :
    |2 * ((s.src.product : Int) * tg s g - 2 ^ s.thetaGarnerShift * g)| ≤ s.src.product := by
  have hp := h.src.pos
  unfold tg
  have hdm := Nat.div_add_mod (g * 2 ^ s.thetaGarnerShift + s.src.product / 2) s.src.product
  have hlt := Nat.mod_lt (g * 2 ^ s.thetaGarnerShift + s.src.product / 2) hp
  have hc : (s.src.product : Int) * ((g * 2 ^ s.thetaGarnerShift + s.src.product / 2) / s.src.product : Nat) +
      (((g * 2 ^ s.thetaGarnerShift + s.src.product / 2) % s.src.product : Nat) : Int) =
      g * 2 ^ s.thetaGarnerShift + ((s.src.product / 2 : Nat) : Int) := by
    have := congrArg (Nat.cast (R := Int)) hdm
    rw [Nat.cast_add, Nat.cast_mul, Nat.cast_add, Nat.cast_mul, Nat.cast_pow] at this
    exact this
  generalize (g * 2 ^ s.thetaGarnerShift + s.src.product / 2) % s.src.product = r at *
  generalize (g * 2 ^ s.thetaGarnerShift + s.src.product / 2) / s.src.product = d at *
  have e : (s.src.product : Int) * d - 2 ^ s.thetaGarnerShift * g = ((s.src.product / 2 : Nat) : Int) - r := by linarith
  rw [e, abs_le]
  constructor <;> omega

theorem final_arith {P Q G v T R : Int} (hP : 0 < P) (hQ : 0 < Q) (h1 : |2 * Q * T - 2 * (2 * P) * G| ≤ Q * R)
    (h2 : |2 * P * v - T| ≤ P) : 2 * (2 * P) * |G - v * Q| ≤ Q * (2 * P + R) := by
  rw [← abs_of_pos (show 0 < 2 * (2 * P) by linarith), ← abs_mul]
  have e : 2 * (2 * P) * (G - v * Q) = -(2 * Q * T - 2 * (2 * P) * G) - 2 * Q * (2 * P * v - T) := by ring
  rw [e]
  refine (abs_sub _ _).trans ?_
  rw [abs_neg, abs_mul, abs_of_pos (show 0 < 2 * Q by linarith)]
  have := mul_le_mul_of_nonneg_left h2 (show 0 ≤ 2 * Q by linarith)
  linarith

theorem final_arith2 {P den num X O Γ tγ TO W v R Q E : Int} (hP : 0 ≤ P) (hden : 0 < den) (hv0 : 0 ≤ v) (hv : v ≤ R)
    (hD : |den * TO - P * (num * X - den * O)| ≤ den * R) (hγ : |tγ * den - P * (num * Q - den * Γ)| ≤ den)
    (hw : |P * W - (TO - v * tγ)| ≤ E) :
    P * |den * (O - v * Γ + W) - num * (X - v * Q)| ≤ den * (E + 2 * R) := by
  rw [← abs_of_nonneg hP, ← abs_mul]
  have e : P * (den * (O - v * Γ + W) - num * (X - v * Q)) =
      den * (P * W - (TO - v * tγ)) + (den * TO - P * (num * X - den * O)) - v * (tγ * den - P * (num * Q - den * Γ)) := by ring
  rw [e]
  have h1 : |den * (P * W - (TO - v * tγ))| ≤ den * E := by
    rw [abs_mul, abs_of_pos hden]; exact mul_le_mul_of_nonneg_left hw hden.le
  have h2 : |v * (tγ * den - P * (num * Q - den * Γ))| ≤ den * R := by
    rw [abs_mul, abs_of_nonneg hv0]
    calc v * |tγ * den - P * (num * Q - den * Γ)| ≤ v * den := mul_le_mul_of_nonneg_left hγ hv0
      _ ≤ R * den := mul_le_mul_of_nonneg_right hv hden.le
      _ = den * R := mul_comm _ _
  refine (abs_sub _ _).trans ?_
  have := abs_add_le (den * (P * W - (TO - v * tγ))) (den * TO - P * (num * X - den * O))
  linarith

theorem scaleV_ok (pr : Profile) {s : RnsScaler} (h : s.WF) {rests : List Nat} (hr : Canon s.src.moduliU64 rests) :
    ∃ v, scaleV pr s rests = .ok v ∧ v ≤ rests.sum ∧
      2 ^ (s.thetaGarnerShift + 1) * |wsum (fun g => (g : Int)) s.src.garner rests - v * s.src.product| ≤
        s.src.product * (2 ^ s.thetaGarnerShift + rests.sum) := by
  have hq := sum_lt h hr
  have hS := sum_shift_le h hr
  have hp := h.src.pos
  have hdot := dot_eq (fun g => tg s g % 2 ^ 64) (fun g => tg s g / 2 ^ 64) s.src.garner rests
  rw [wsum_congr (F' := fun g => (tg s g : Int)) rests (fun g _ => by congr 1; omega)] at hdot
  have hlo : s.thetaGarnerLo = s.src.garner.map (fun g => tg s g % 2 ^ 64) := h.tgarLo
  have hhi : s.thetaGarnerHi = s.src.garner.map (fun g => tg s g / 2 ^ 64) := h.tgarHi
  have htle : ∀ g ∈ s.src.garner, tg s g ≤ 2 ^ s.thetaGarnerShift := fun g hg => garner_theta_le h.src hg
  have hT0 := wsum_abs (F := fun g => (tg s g : Int)) (c := 2 ^ s.thetaGarnerShift) (gs := s.src.garner) (by positivity) rests
    (fun g hg => by rw [abs_of_nonneg (by positivity)]; exact_mod_cast htle g hg)
  have h1 := wsum_abs (F := fun g => 2 * ((s.src.product : Int) * tg s g - 2 ^ s.thetaGarnerShift * g))
    (c := s.src.product) (gs := s.src.garner) (by positivity) rests (fun g _ => tg_approx h g)
  rw [show (fun g : Nat => 2 * ((s.src.product : Int) * tg s g - 2 ^ s.thetaGarnerShift * g)) =
    (fun g : Nat => (2 * s.src.product : Int) * tg s g - (2 * 2 ^ s.thetaGarnerShift) * g) from by funext g; ring,
    ← wsum_sub, ← wsum_smul, ← wsum_smul, ← hdot] at h1
  have hle127 : 2 ^ s.thetaGarnerShift ≤ 2 ^ 127 := Nat.pow_le_pow_right (by norm_num) h.shift_le
  have hTle : dot (s.src.garner.map (fun g => tg s g % 2 ^ 64)) (s.src.garner.map (fun g => tg s g / 2 ^ 64)) rests ≤
      2 ^ s.thetaGarnerShift * rests.sum := by
    rw [← hdot, abs_of_nonneg (by positivity)] at hT0
    exact_mod_cast hT0
  rw [← hlo, ← hhi] at hTle h1
  have hsum := sumThetaGarner_ok pr s.thetaGarnerLo s.thetaGarnerHi rests 0
    (by rw [hlo]; intro x hx; obtain ⟨g, _, rfl⟩ := List.mem_map.mp hx; exact Nat.mod_lt _ (by norm_num))
    (by
      rw [hhi]; intro x hx; obtain ⟨g, hg, rfl⟩ := List.mem_map.mp hx
      have := htle g hg; omega)
    (by
      intro x hx; obtain ⟨q, hq, hlt⟩ := hr.mem hx
      have := (h.src.bound q hq).2; omega)
    (by rw [Nat.zero_add]; rw [Nat.mul_comm] at hTle; omega)
  rw [Nat.zero_add] at hsum
  generalize dot s.thetaGarnerLo s.thetaGarnerHi rests = T at *
  clear hlo hhi hdot hT0 htle
  have hge := h.shift_ge
  obtain ⟨k, hk⟩ : ∃ k, s.thetaGarnerShift = k + 1 := ⟨s.thetaGarnerShift - 1, by omega⟩
  unfold scaleV
  rw [hsum, res_ok_bind, subW_ok (by omega), res_ok_bind, hk, Nat.add_sub_cancel, Nat.shiftRight_eq_div_pow]
  rw [hk] at h1 hTle
  generalize hR : rests.sum = R at *
  have hdk : T / 2 ^ k ≤ 2 * R := by
    apply Nat.div_le_of_le_mul
    rw [pow_succ] at hTle
    calc T ≤ _ := hTle
      _ = _ := by ring
  have hm : T / 2 ^ k % 2 ^ 128 = T / 2 ^ k := Nat.mod_eq_of_lt (by omega)
  simp only
  rw [hm, divCeil_two pr (by omega)]
  refine ⟨_, rfl, by omega, ?_⟩
  have hv1 : ((2 : Int) ^ (k + 1) * (((T / 2 ^ k + 1) / 2 : Nat) : Int) - T ≤ 2 ^ k ∧
      -(2 : Int) ^ k ≤ (2 : Int) ^ (k + 1) * (((T / 2 ^ k + 1) / 2 : Nat) : Int) - T) := by
    have hdm := Nat.div_add_mod T (2 ^ k)
    have hml := Nat.mod_lt T (show 0 < 2 ^ k by positivity)
    generalize hD : T / 2 ^ k = D at *
    generalize T % 2 ^ k = r at *
    have hT : (T : Int) = 2 ^ k * D + r := by rw [← hdm]; push_cast; ring
    have hr1 : (r : Int) < 2 ^ k := by exact_mod_cast hml
    have hr0 : (0 : Int) ≤ r := by positivity
    have hpk : (0 : Int) < 2 ^ k := by positivity
    rw [hT, pow_succ]
    rcases Nat.even_or_odd' D with ⟨e, rfl | rfl⟩
    · rw [show (2 * e + 1) / 2 = e by omega]; push_cast; constructor <;> nlinarith
    · rw [show (2 * e + 1 + 1) / 2 = e + 1 by omega]; push_cast; constructor <;> nlinarith
  generalize (T / 2 ^ k + 1) / 2 = v at *
  generalize wsum (fun g => (g : Int)) s.src.garner rests = G at *
  generalize s.src.product = Q at *
  have hQ : (0 : Int) < Q := by exact_mod_cast hp
  have := final_arith (P := 2 ^ k) (Q := Q) (G := G) (v := v) (T := T) (R := R) (by positivity) hQ
    (by rw [← pow_succ']; exact h1) (by rw [← pow_succ']; exact abs_le.mpr ⟨hv1.2, hv1.1⟩)
  rw [pow_succ', pow_succ']
  exact this

/-- Signed `theta_omega` of the garner coefficient `g`. -/
def tom (s : RnsScaler) (g : Nat) : Int :=
  let c := colOf s.dst s.scalingFactor.numerator s.scalingFactor.denominator g
  sgn c.2.2.2 (c.2.1 + c.2.2.1 * 2 ^ 64)

/-- Signed `theta_gamma`. -/
def tgam (s : RnsScaler) : Int := sgn s.thetaGammaSign (s.thetaGammaLo + s.thetaGammaHi * 2 ^ 64)

theorem sgn_abs (b : Bool) (x : Nat) : |sgn b x| = x := by
  cases b <;> simp [sgn]

theorem colOf_spec {s : RnsScaler} (h : s.WF) (g : Nat) :
    (colOf s.dst s.scalingFactor.numerator s.scalingFactor.denominator g).2.1 < 2 ^ 64 ∧
    (colOf s.dst s.scalingFactor.numerator s.scalingFactor.denominator g).2.2.1 < 2 ^ 64 ∧ |tom s g| ≤ 2 ^ 126 ∧
    |tom s g * s.scalingFactor.denominator - (2 : Int) ^ 127 * (((s.scalingFactor.numerator * g : Nat) : Int) -
      s.scalingFactor.denominator * (rnd s.scalingFactor.numerator s.scalingFactor.denominator g : Int))| ≤
      s.scalingFactor.denominator := by
  obtain ⟨lo', hi', sg', e', a1, a2, a3, -, a5⟩ := extract_ok h.dst g s.scalingFactor.numerator h.den true
  unfold tom colOf
  rw [e']
  refine ⟨a1, a2, ?_, a5⟩
  simp only
  rw [sgn_abs]
  exact_mod_cast a3

/-- The computation of `(w_sign, w)` with the given product `t` in place of `v * theta_gamma`, which may be off by `e * 2^128`. -/
theorem scaleW_core (pr : Profile) {s : RnsScaler} (h : s.WF) {rests : List Nat} (hr : Canon s.src.moduliU64 rests)
    {v : Nat} (hv : v ≤ rests.sum) {t : U256} {e : Nat} (t2 : t.WF)
    (t3 : t.val + e * 2 ^ 128 = v * (s.thetaGammaLo + s.thetaGammaHi * 2 ^ 64)) :
    ∃ u sg w, sumThetaOmega pr s.thetaOmegaLo s.thetaOmegaHi s.thetaOmegaSign rests U256.zero = .ok u ∧
      roundW pr (if s.thetaGammaSign then u.wrappingAdd t else u.wrappingSub t) = .ok (sg, w) ∧ w < 2 ^ 128 ∧
      |2 ^ 127 * (sgn sg w - 2 * sgn s.thetaGammaSign e) - (wsum (tom s) s.src.garner rests - v * tgam s)| ≤ 2 ^ 126 := by
  have hq := sum_lt h hr
  obtain ⟨u, u1, u2, u3⟩ := sumThetaOmega_ok pr s.thetaOmegaLo s.thetaOmegaHi s.thetaOmegaSign rests U256.zero
    (by unfold U256.zero U256.WF; simp)
    (by rw [h.toLo]; intro x hx; obtain ⟨g, _, rfl⟩ := List.mem_map.mp hx; exact (colOf_spec h g).1)
    (by rw [h.toHi]; intro x hx; obtain ⟨g, _, rfl⟩ := List.mem_map.mp hx; exact (colOf_spec h g).2.1)
    (by
      intro x hx; obtain ⟨q, hq, hlt⟩ := hr.mem hx
      have := (h.src.bound q hq).2; omega)
  have hw : sdot s.thetaOmegaLo s.thetaOmegaHi s.thetaOmegaSign rests = wsum (tom s) s.src.garner rests := by
    rw [h.toLo, h.toHi, h.toSign, sdot_eq]; rfl
  have hz : (U256.zero.val : Int) = 0 := by simp [U256.zero, U256.val]
  rw [hw, hz, zero_add] at u3
  have b1 := wsum_abs (F := tom s) (c := 2 ^ 126) (gs := s.src.garner) (by positivity) rests (fun g _ => (colOf_spec h g).2.2.1)
  have b2 : |(v : Int) * tgam s| ≤ rests.sum * 2 ^ 126 := by
    rw [abs_mul, abs_of_nonneg (by positivity), tgam, sgn_abs]
    exact_mod_cast Nat.mul_le_mul hv h.tgLe
  have hd0 : (e : Int) * 2 ^ 128 ≤ rests.sum * 2 ^ 126 := by
    have h1 : e * 2 ^ 128 ≤ v * (s.thetaGammaLo + s.thetaGammaHi * 2 ^ 64) := by omega
    exact_mod_cast h1.trans (Nat.mul_le_mul hv h.tgLe)
  have hb : |wsum (tom s) s.src.garner rests - v * tgam s + 2 ^ 128 * sgn s.thetaGammaSign e| < 2 ^ 252 := by
    refine lt_of_le_of_lt (abs_add_le _ _) ?_
    have := abs_sub (wsum (tom s) s.src.garner rests) (v * tgam s)
    rw [abs_mul, sgn_abs, abs_of_pos (show (0 : Int) < 2 ^ 128 by positivity)]
    have : (rests.sum : Int) < 2 ^ 124 := by exact_mod_cast hq
    have h3 : (rests.sum : Int) * 2 ^ 126 ≤ 2 ^ 124 * 2 ^ 126 := mul_le_mul_of_nonneg_right this.le (by positivity)
    rw [mul_comm] at b1
    have h4 : (2 : Int) ^ 124 * 2 ^ 126 + 2 ^ 124 * 2 ^ 126 + 2 ^ 124 * 2 ^ 126 < 2 ^ 252 := by norm_num
    linarith
  have ht : ((t.val : Nat) : Int) = v * ((s.thetaGammaLo + s.thetaGammaHi * 2 ^ 64 : Nat) : Int) - 2 ^ 128 * e := by
    have : ((t.val + e * 2 ^ 128 : Nat) : Int) = ((v * (s.thetaGammaLo + s.thetaGammaHi * 2 ^ 64) : Nat) : Int) := by rw [t3]
    push_cast at this ⊢
    linarith
  have htlt := U256.val_lt t2
  obtain ⟨p1, p2⟩ := U256.wrappingAdd_spec u2 t2
  obtain ⟨q1, q2⟩ := U256.wrappingSub_spec u2 t2
  refine ⟨u, ?_⟩
  have fin : ∀ {u' : U256} (_ : u'.WF) (_ : (u'.val : Int) ≡ wsum (tom s) s.src.garner rests - v * tgam s +
      2 ^ 128 * sgn s.thetaGammaSign e [ZMOD 2 ^ 256]), ∃ sg w, sumThetaOmega pr s.thetaOmegaLo s.thetaOmegaHi s.thetaOmegaSign rests
        U256.zero = .ok u ∧ roundW pr u' = .ok (sg, w) ∧ w < 2 ^ 128 ∧
      |2 ^ 127 * (sgn sg w - 2 * sgn s.thetaGammaSign e) - (wsum (tom s) s.src.garner rests - v * tgam s)| ≤ 2 ^ 126 := by
    intro u' hu hS
    obtain ⟨sg, w, c1, c2, c3⟩ := roundW_ok pr hu hS hb
    refine ⟨sg, w, u1, c1, c2, ?_⟩
    have he : (2 : Int) ^ 127 * (sgn sg w - 2 * sgn s.thetaGammaSign e) - (wsum (tom s) s.src.garner rests - v * tgam s) =
      2 ^ 127 * sgn sg w - (wsum (tom s) s.src.garner rests - v * tgam s + 2 ^ 128 * sgn s.thetaGammaSign e) := by ring
    rw [he]; exact c3
  cases hsg : s.thetaGammaSign
  · simp only [Bool.false_eq_true, if_false]
    rw [hsg] at fin
    refine fin q1 ?_
    rw [q2, Int.natCast_emod, show ((2 ^ 256 : Nat) : Int) = 2 ^ 256 by norm_num]
    refine (Int.mod_modEq _ _).trans ?_
    rw [Nat.cast_sub (by omega), Nat.cast_add, ht, tgam, hsg, sgn, if_neg (by simp), sgn, if_neg (by simp), sub_add]
    refine Int.ModEq.sub ?_ rfl
    have : ((u.val : Int) + ((2 ^ 256 : Nat) : Int)) ≡ u.val [ZMOD 2 ^ 256] := by
      rw [Int.modEq_iff_dvd]; exact ⟨-1, by push_cast; ring⟩
    exact this.trans u3
  · simp only [if_true]
    rw [hsg] at fin
    refine fin p1 ?_
    rw [p2, Int.natCast_emod, show ((2 ^ 256 : Nat) : Int) = 2 ^ 256 by norm_num]
    refine (Int.mod_modEq _ _).trans ?_
    rw [Nat.cast_add, ht, tgam, hsg, sgn, if_pos rfl, sgn, if_pos rfl, mul_neg, mul_neg, sub_neg_eq_add, add_assoc, ← sub_eq_add_neg]
    exact Int.ModEq.add u3 rfl

theorem scaleW_ok (pr : Profile) {s : RnsScaler} (h : s.WF) {rests : List Nat} (hr : Canon s.src.moduliU64 rests)
    {v : Nat} (hv : v ≤ rests.sum) (ho : s.scalingFactor.isOne = false) :
    ∃ sg w e, scaleW pr s rests v = .ok (sg, w) ∧ w < 2 ^ 128 ∧
      e * 2 ^ 128 ≤ v * (s.thetaGammaLo + s.thetaGammaHi * 2 ^ 64) ∧ (v < 2 ^ 66 → e = dropped v s.thetaGammaLo) ∧
      |2 ^ 127 * (sgn sg w - 2 * sgn s.thetaGammaSign e) - (wsum (tom s) s.src.garner rests - v * tgam s)| ≤ 2 ^ 126 := by
  have hq := sum_lt h hr
  obtain ⟨t, e, t1, t2, t3, t4⟩ := vThetaGamma_ok pr (v := v) h.tgLo h.tgHi (by omega)
  obtain ⟨u, sg, w, u1, c1, c2, c3⟩ := scaleW_core pr h hr hv t2 t3
  refine ⟨sg, w, e, ?_, c2, by omega, fun hv66 => t4 ?_, c3⟩
  · unfold scaleW
    rw [ho, if_neg (by simp), u1, res_ok_bind, t1, res_ok_bind]
    exact c1
  · have := Nat.mul_le_mul_left v h.tgLe
    have := Nat.mul_lt_mul_of_pos_right hv66 (show 0 < 2 ^ 126 by positivity)
    omega

theorem addOmega_ok (pr : Profile) {m : Modulus} (hm : m.WF) (F : Nat → Nat) : ∀ (rs gs : List Nat) (yi : Nat),
    rs.length ≤ gs.length → (∀ r ∈ rs, r < 2 ^ 64) → yi + 2 ^ 63 * rs.length < 2 ^ 128 →
    ∃ y, addOmega pr m rs (gs.map (fun g => F g % m.p)) (gs.map (fun g => F g % m.p * 2 ^ 64 / m.p)) yi = .ok y ∧
      y < 2 ^ 128 ∧ (y : ZMod m.p) = (yi : ZMod m.p) + ((wsum (fun g => (F g : Int)) gs rs : Int) : ZMod m.p)
  | [], gs, yi, _, _, h => ⟨yi, by cases gs <;> simp [addOmega], by simpa using h, by cases gs <;> simp [wsum]⟩
  | _ :: _, [], _, hl, _, _ => by simp at hl
  | r :: rs, g :: gs, yi, hl, hr, h => by
    obtain ⟨l, l1, l2, l3⟩ := Modulus.lazyMulShoup_ok hm pr (hr r (by simp)) (Nat.mod_lt (F g) hm.pos)
    have hlt := hm.lt
    rw [List.length_cons] at h
    obtain ⟨y, y1, y2, y3⟩ := addOmega_ok pr hm F rs gs (yi + l) (by simpa using hl) (fun x hx => hr x (by simp [hx])) (by omega)
    refine ⟨y, ?_, y2, ?_⟩
    · simp only [List.map_cons, addOmega]
      rw [l1, res_ok_bind, addW_ok (by omega), res_ok_bind, y1]
    · rw [y3, wsum]
      have := NttOperator.cast_of_mod l3
      push_cast
      rw [this]
      push_cast
      rw [show ((F g % m.p : Nat) : ZMod m.p) = F g from NttOperator.cast_of_mod (Nat.mod_mod _ _)]
      ring

theorem scaleOut_ok (pr : Profile) {s : RnsScaler} (h : s.WF) {rests : List Nat} (hr : Canon s.src.moduliU64 rests)
    {v w j : Nat} {sg : Bool} (hv : v < 2 ^ 128) (hw : w < 2 ^ 128) (hj : j < s.dst.moduliU64.length) :
    scaleOut pr s rests v sg w j = .ok
      (((wsum (fun g => (rnd s.scalingFactor.numerator s.scalingFactor.denominator g : Int)) s.src.garner rests
        - v * (rnd s.scalingFactor.numerator s.scalingFactor.denominator s.src.product : Int)
        + (if s.scalingFactor.isOne then 0 else sgn sg w)) % (s.dst.moduliU64.getD j 1 : Int)).toNat) := by
  have hlen : s.dst.moduli.length = s.dst.moduliU64.length := by rw [← h.dst.ps]; simp
  have hm := h.dst.mods _ (List.getElem_mem (l := s.dst.moduli) (n := j) (by omega))
  have hpj : s.dst.moduli[j].p = s.dst.moduliU64.getD j 1 := by
    rw [getD_eq_getElem' _ _ _ hj]; simp [← h.dst.ps]
  have hlt := hm.lt
  have hpos := hm.pos
  unfold scaleOut
  rw [idx_ok (show j < s.dst.moduli.length by omega), res_ok_bind]
  rw [idx_getD [] (by rw [h.omega]; simpa using hj), res_ok_bind, idx_getD [] (by rw [h.omegaShoup]; simpa using hj), res_ok_bind,
    idx_getD 0 (by rw [h.gamma]; simpa using hj), res_ok_bind, idx_getD 0 (by rw [h.gammaShoup]; simpa using hj), res_ok_bind,
    Modulus.reduceU128_ok hm pr hv, res_ok_bind, h.omega, h.omegaShoup, h.gamma, h.gammaShoup,
    NttOperator.getD_map_of_lt _ _ _ 1 _ hj, NttOperator.getD_map_of_lt _ _ _ 1 _ hj,
    NttOperator.getD_map_of_lt _ _ _ 1 _ hj, NttOperator.getD_map_of_lt _ _ _ 1 _ hj, ← hpj]
  generalize s.dst.moduli[j] = m at *
  generalize rnd s.scalingFactor.numerator s.scalingFactor.denominator s.src.product = Γ
  obtain ⟨l, l1, l2, l3⟩ := Modulus.lazyMulShoup_ok hm pr (a := v % m.p)
    (by have := Nat.mod_lt v hpos; omega) (Nat.mod_lt Γ hpos)
  rw [l1, res_ok_bind, mulW_ok (by omega), res_ok_bind, subW_ok (by omega), res_ok_bind]
  have hlc : (l : ZMod m.p) = (v : ZMod m.p) * Γ := by
    rw [NttOperator.cast_of_mod l3]
    push_cast
    rw [show ((v % m.p : Nat) : ZMod m.p) = v from NttOperator.cast_of_mod (Nat.mod_mod _ _),
      show ((Γ % m.p : Nat) : ZMod m.p) = Γ from NttOperator.cast_of_mod (Nat.mod_mod _ _)]
  have hstep : ∃ y : Nat, addWTerm pr s m sg w (m.p * 2 - l) = .ok y ∧ y < 2 ^ 65 ∧
      (y : ZMod m.p) = -((v : ZMod m.p) * Γ) + (((if s.scalingFactor.isOne then 0 else sgn sg w) : Int) : ZMod m.p) := by
    have hbase : ((m.p * 2 - l : Nat) : ZMod m.p) = -((v : ZMod m.p) * Γ) := by
      rw [Nat.cast_sub (by omega), hlc]; simp
    unfold addWTerm signedW
    cases s.scalingFactor.isOne
    · simp only [Bool.false_eq_true, if_false]
      obtain ⟨wi, w1, w2, w3⟩ := Modulus.lazyReduceU128_ok hm pr hw
      have hwc := NttOperator.cast_of_mod w3
      rw [w1, res_ok_bind]
      cases sg
      · simp only [Bool.false_eq_true, if_false, res_ok_bind]
        rw [addW_ok (by omega)]
        refine ⟨_, rfl, by omega, ?_⟩
        rw [Nat.cast_add, hbase, hwc]
        simp [sgn]
      · simp only [if_true]
        rw [mulW_ok (by omega), res_ok_bind, subW_ok (by omega), res_ok_bind, addW_ok (by omega)]
        refine ⟨_, rfl, by omega, ?_⟩
        rw [Nat.cast_add, hbase, Nat.cast_sub (by omega), hwc]
        simp [sgn]
    · simp only [if_true]
      exact ⟨_, rfl, by omega, by rw [hbase]; simp⟩
  obtain ⟨y, y1, y2, y3⟩ := hstep
  rw [y1, res_ok_bind]
  have hn := h.len
  obtain ⟨z, z1, z2, z3⟩ := addOmega_ok pr hm (rnd s.scalingFactor.numerator s.scalingFactor.denominator) rests s.src.garner y
    (by rw [hr.1, h.src.g_len])
    (by
      intro x hx; obtain ⟨q, hq, hlt⟩ := hr.mem hx
      have := (h.src.bound q hq).2; omega) (by rw [hr.1]; omega)
  rw [z1, res_ok_bind, Modulus.reduceU128_ok hm pr z2]
  congr 1
  have hfin : ((z : Int) : ZMod m.p) = ((wsum (fun g => (rnd s.scalingFactor.numerator s.scalingFactor.denominator g : Int)) s.src.garner rests
        - v * (Γ : Int) + (if s.scalingFactor.isOne then 0 else sgn sg w) : Int) : ZMod m.p) := by
    rw [Int.cast_natCast, z3, y3]
    push_cast
    ring
  have := (ZMod.intCast_eq_intCast_iff _ _ _).mp hfin
  rw [Int.ModEq] at this
  rw [← this]
  omega

/-- `scale` with a given way of computing `(w_sign, w)` from `v`. -/
def scaleBy (pr : Profile) (W : Nat → Res (Bool × Nat)) (s : RnsScaler) (rests : List Nat) (outLen startingIndex : Nat) : Res (List Nat) := do
  dassert pr (rests.length = s.src.moduliU64.length)
  dassert pr (outLen ≠ 0)
  dassert pr (startingIndex + outLen ≤ s.dst.moduliU64.length)
  let v ← scaleV pr s rests
  let (wSign, w) ← W v
  mapR (fun i => scaleOut pr s rests v wSign w (startingIndex + i)) (List.range outLen)

theorem scale_eq (pr : Profile) (s : RnsScaler) (rests : List Nat) (outLen start : Nat) :
    scale pr s rests outLen start = scaleBy pr (scaleW pr s rests) s rests outLen start := rfl

/-- What a computation of `(w_sign, w)` must satisfy; `E v e` says by how much it may be off. -/
def WSpec (s : RnsScaler) (rests : List Nat) (E : Nat → Nat → Prop) (W : Nat → Res (Bool × Nat)) : Prop :=
  ∀ v ≤ rests.sum, (s.scalingFactor.isOne = true → ∃ sg w, W v = .ok (sg, w) ∧ w < 2 ^ 128 ∧ E v 0) ∧
    (s.scalingFactor.isOne = false → ∃ sg w e, W v = .ok (sg, w) ∧ w < 2 ^ 128 ∧
      e * 2 ^ 128 ≤ v * (s.thetaGammaLo + s.thetaGammaHi * 2 ^ 64) ∧ E v e ∧
      |2 ^ 127 * (sgn sg w - 2 * sgn s.thetaGammaSign e) - (wsum (tom s) s.src.garner rests - v * tgam s)| ≤ 2 ^ 126)

theorem scaleW_spec (pr : Profile) {s : RnsScaler} (h : s.WF) (hone : s.scalingFactor.isOne =
      decide (s.scalingFactor.numerator = s.scalingFactor.denominator)) {rests : List Nat} (hr : Canon s.src.moduliU64 rests) :
    WSpec s rests (fun v e => v < 2 ^ 66 → e = dropped v s.thetaGammaLo) (scaleW pr s rests) := by
  intro v hv
  refine ⟨fun hi => ⟨false, 0, by unfold scaleW; rw [hi]; rfl, by norm_num, fun _ => ?_⟩, fun hi => scaleW_ok pr h hr hv hi⟩
  rw [hi] at hone
  have hnd : s.scalingFactor.numerator = s.scalingFactor.denominator := by simpa using hone.symm
  have := h.tgZero (by rw [hnd]; exact Nat.dvd_mul_right _ _)
  exact (dropped_eq_zero h.tgLo (Or.inl (by omega))).symm

/-- The exact behaviour of the scaler. `x` is an integer congruent to the lifted residues, close to the centered
representative, and `y` the scaled value. -/
theorem scaleBy_ok (pr : Profile) {s : RnsScaler} (h : s.WF) (hone : s.scalingFactor.isOne =
      decide (s.scalingFactor.numerator = s.scalingFactor.denominator))
    {rests : List Nat} (hr : Canon s.src.moduliU64 rests) {E : Nat → Nat → Prop} {W : Nat → Res (Bool × Nat)} (hWs : WSpec s rests E W)
    {outLen start : Nat} (ho : 0 < outLen) (hle : start + outLen ≤ s.dst.moduliU64.length) :
    ∃ (x y : Int) (v e : Nat), scaleBy pr W s rests outLen start = .ok ((List.range outLen).map
        (fun i => (y % (s.dst.moduliU64.getD (start + i) 1 : Int)).toNat)) ∧
      x = (RnsContext.liftSum rests s.src.garner 0 : Int) - v * s.src.product ∧ v ≤ rests.sum ∧
      e * 2 ^ 128 ≤ v * (s.thetaGammaLo + s.thetaGammaHi * 2 ^ 64) ∧ E v e ∧
      2 ^ (s.thetaGarnerShift + 1) * |x| ≤ s.src.product * (2 ^ s.thetaGarnerShift + rests.sum) ∧
      2 ^ 127 * |s.scalingFactor.denominator * (y - 2 * sgn s.thetaGammaSign e) - s.scalingFactor.numerator * x| ≤
        s.scalingFactor.denominator * (2 ^ 126 + 2 * rests.sum) ∧
      (s.scalingFactor.numerator = s.scalingFactor.denominator → y = x) := by
  obtain ⟨v, v1, v2, v3⟩ := scaleV_ok pr h hr
  have hq := sum_lt h hr
  have hden := h.den
  have hG : (RnsContext.liftSum rests s.src.garner 0 : Int) = wsum (fun g => (g : Int)) s.src.garner rests := by
    rw [liftSum_wsum]; simp
  have hzero : s.scalingFactor.numerator = s.scalingFactor.denominator → s.thetaGammaLo + s.thetaGammaHi * 2 ^ 64 = 0 :=
    fun hnd => h.tgZero (by rw [hnd]; exact Nat.dvd_mul_right _ _)
  have hW : ∃ sg w e, W v = .ok (sg, w) ∧ w < 2 ^ 128 ∧
      e * 2 ^ 128 ≤ v * (s.thetaGammaLo + s.thetaGammaHi * 2 ^ 64) ∧ E v e ∧
      (s.scalingFactor.isOne = false → |2 ^ 127 * (sgn sg w - 2 * sgn s.thetaGammaSign e) - (wsum (tom s) s.src.garner rests - v * tgam s)| ≤ 2 ^ 126) := by
    cases hi : s.scalingFactor.isOne
    · obtain ⟨sg, w, e, a, b, b1, b2, c⟩ := (hWs v v2).2 hi
      exact ⟨sg, w, e, a, b, b1, b2, fun _ => c⟩
    · obtain ⟨sg, w, a, b, c⟩ := (hWs v v2).1 hi
      exact ⟨sg, w, 0, a, b, by simp, c, fun h => by simp at h⟩
  obtain ⟨sg, w, e, w1, w2, w4, w5, w3⟩ := hW
  refine ⟨wsum (fun g => (g : Int)) s.src.garner rests - v * s.src.product,
    wsum (fun g => (rnd s.scalingFactor.numerator s.scalingFactor.denominator g : Int)) s.src.garner rests
        - v * (rnd s.scalingFactor.numerator s.scalingFactor.denominator s.src.product : Int)
        + (if s.scalingFactor.isOne then 0 else sgn sg w), v, e, ?_, by rw [hG], v2, w4, w5, v3, ?_, ?_⟩
  · unfold scaleBy
    rw [dassert_ok hr.1, res_ok_bind, dassert_ok (by omega), res_ok_bind, dassert_ok hle, res_ok_bind, v1, res_ok_bind, w1,
      res_ok_bind]
    simp only
    apply mapR_ok
    intro i hi
    have := List.mem_range.mp hi
    exact scaleOut_ok pr h hr (by omega) w2 (by omega)
  · have hD := wsum_abs (F := fun g => tom s g * s.scalingFactor.denominator - (2 : Int) ^ 127 * (((s.scalingFactor.numerator * g : Nat) : Int) -
      s.scalingFactor.denominator * (rnd s.scalingFactor.numerator s.scalingFactor.denominator g : Int)))
      (c := s.scalingFactor.denominator) (gs := s.src.garner) (by positivity) rests (fun g _ => (colOf_spec h g).2.2.2)
    have hγ := h.tgApprox
    rw [← tgam] at hγ
    have hsplit : wsum (fun g => tom s g * s.scalingFactor.denominator - (2 : Int) ^ 127 * (((s.scalingFactor.numerator * g : Nat) : Int) -
      s.scalingFactor.denominator * (rnd s.scalingFactor.numerator s.scalingFactor.denominator g : Int))) s.src.garner rests =
      s.scalingFactor.denominator * wsum (tom s) s.src.garner rests - 2 ^ 127 * (s.scalingFactor.numerator * wsum (fun g => (g : Int)) s.src.garner rests -
        s.scalingFactor.denominator * wsum (fun g => (rnd s.scalingFactor.numerator s.scalingFactor.denominator g : Int)) s.src.garner rests) := by
      rw [wsum_smul, wsum_smul, wsum_smul, wsum_sub, wsum_smul, wsum_sub]
      apply wsum_congr
      intro g _
      push_cast
      ring
    rw [hsplit] at hD
    generalize hX : wsum (fun g => (g : Int)) s.src.garner rests = X at *
    generalize hO : wsum (fun g => (rnd s.scalingFactor.numerator s.scalingFactor.denominator g : Int)) s.src.garner rests = O at *
    generalize wsum (tom s) s.src.garner rests = TO at *
    cases hi : s.scalingFactor.isOne
    · have w3 := w3 hi
      simp only [Bool.false_eq_true, if_false]
      generalize rnd s.scalingFactor.numerator s.scalingFactor.denominator s.src.product = Γ at *
      generalize tgam s = tγ at *
      generalize sgn s.thetaGammaSign e = D at *
      generalize sgn sg w = W at *
      generalize s.scalingFactor.denominator = den at *
      generalize s.scalingFactor.numerator = num at *
      generalize rests.sum = R at *
      push_cast at hγ
      have hden' : (0 : Int) < den := by exact_mod_cast hden
      have hv' : (v : Int) ≤ R := by exact_mod_cast v2
      have := final_arith2 (by positivity) hden' (by positivity) hv' hD hγ w3
      rw [show O - v * Γ + W - 2 * D = O - v * Γ + (W - 2 * D) by ring]
      exact this
    · rw [hi] at hone
      have hnd : s.scalingFactor.numerator = s.scalingFactor.denominator := by simpa using hone.symm
      have hrnd : ∀ x, rnd s.scalingFactor.numerator s.scalingFactor.denominator x = x := by
        intro x
        rw [hnd]; unfold rnd
        rw [Nat.mul_add_div hden, Nat.shiftRight_eq_div_pow, pow_one, Nat.div_eq_of_lt (by omega), Nat.add_zero]
      simp only [hrnd] at hO
      simp only [if_true]
      have hd0 : e = 0 := by
        rw [hzero hnd] at w4
        omega
      rw [hd0, show sgn s.thetaGammaSign 0 = 0 by cases s.thetaGammaSign <;> rfl, mul_zero, sub_zero]
      rw [hrnd, hnd, ← hO, ← hX, add_zero, sub_self, abs_zero, mul_zero]
      positivity
  · intro hnd
    have hrnd : ∀ x, rnd s.scalingFactor.numerator s.scalingFactor.denominator x = x := by
      intro x
      rw [hnd]; unfold rnd
      rw [Nat.mul_add_div hden, Nat.shiftRight_eq_div_pow, pow_one, Nat.div_eq_of_lt (by omega), Nat.add_zero]
    rw [hone]
    simp only [hrnd]
    simp [hnd]

/-- `scaleBy` in terms of residues. -/
theorem scaleBy_spec (pr : Profile) {s : RnsScaler} (h : s.WF) (hne : s.src.moduliU64 ≠ []) {num den : Nat}
    (e3 : s.scalingFactor = ⟨num, den, decide (num = den)⟩)
    {r : List Nat} (hr : Canon s.src.moduliU64 r) {E : Nat → Nat → Prop} {W : Nat → Res (Bool × Nat)} (hWs : WSpec s r E W)
    {B : Nat} (hB : ∀ q ∈ s.src.moduliU64, s.src.moduliU64.length * q ≤ B)
    {outLen start : Nat} (ho : 0 < outLen) (hle : start + outLen ≤ s.dst.moduliU64.length) :
    ∃ (x y : Int) (v e : Nat), scaleBy pr W s r outLen start = .ok (Spec.residuesOf ((s.dst.moduliU64.drop start).take outLen) y) ∧
      Spec.HasResidues s.src.moduliU64 r x ∧
      2 ^ 191 * |x| ≤ s.src.moduliU64.prod * (2 ^ 190 + B * max B (2 ^ 63)) ∧
      2 ^ 127 * |den * (y - 2 * sgn s.thetaGammaSign e) - num * x| ≤ den * (2 ^ 126 + 2 * B) ∧ v ≤ r.sum ∧
      e * 2 ^ 128 ≤ v * (s.thetaGammaLo + s.thetaGammaHi * 2 ^ 64) ∧ E v e ∧ (num = den → y = x) := by
  obtain ⟨x, y, v, e, r1, r2, r6, r7, r8, r3, r4, r5⟩ := scaleBy_ok pr h (by rw [e3]) hr hWs ho hle
  rw [e3] at r4 r5
  simp only at r4 r5
  have h1 := h.src
  have hn1 : 0 < s.src.moduliU64.length := List.length_pos_of_ne_nil hne
  have hRB : r.sum ≤ B := by
    have h3 : r.sum * s.src.moduliU64.length ≤ r.length * B := by
      apply sum_mul_le
      intro z hz
      obtain ⟨q, hq, hlt⟩ := Canon.mem hr hz
      refine le_trans ?_ (hB q hq)
      rw [Nat.mul_comm]; exact Nat.mul_le_mul_left _ hlt.le
    rw [hr.1, Nat.mul_comm] at h3
    exact Nat.le_of_mul_le_mul_left h3 hn1
  have hRB' : (r.sum : Int) ≤ B := by exact_mod_cast hRB
  refine ⟨x, y, v, e, ?_, ?_, ?_, ?_, r6, r7, r8, r5⟩
  · rw [r1]
    congr 1
    unfold Spec.residuesOf
    apply List.ext_getElem
    · simp; omega
    · intro i i1 i2
      have : start + i < s.dst.moduliU64.length := by simp at i1; omega
      simp [List.getElem?_eq_getElem this]
  · intro j hj
    rw [r2]
    have hl : RnsContext.liftSum r s.src.garner 0 = ∑ i ∈ Finset.range s.src.moduliU64.length, s.src.garner.getD i 0 * r.getD i 0 := by
      rw [RnsContext.liftSum_eq _ _ _ (by rw [hr.1, h1.g_len]), hr.1, Nat.zero_add]
    obtain ⟨k, hk⟩ := h1.q_dvd hj
    have := RnsContext.garner_sum_mod h1 (fun i => r.getD i 0) hj
    rw [hl, hk]
    have e : ((s.src.moduliU64.getD j 1 * k : Nat) : Int) = (s.src.moduliU64.getD j 1 : Int) * k := by push_cast; ring
    rw [e, show (v : Int) * ((s.src.moduliU64.getD j 1 : Int) * k) = (s.src.moduliU64.getD j 1 : Int) * (v * k) by ring,
      Int.sub_mul_emod_self_left]
    exact_mod_cast this
  · rw [← h1.prod]
    have hQ : (0 : Int) < s.src.product := by exact_mod_cast h1.pos
    have hP : (0 : Int) < 2 ^ s.thetaGarnerShift := by positivity
    have hB0 : (0 : Int) ≤ B := by positivity
    rcases h.shift_lo with h127 | ⟨q, hq, hlo⟩
    · rw [h127] at r3
      have hmx : (2 : Int) ^ 63 ≤ max (B : Int) (2 ^ 63) := le_max_right _ _
      have h4 : (r.sum : Int) * 2 ^ 63 ≤ B * max (B : Int) (2 ^ 63) := mul_le_mul hRB' hmx (by positivity) hB0
      have h5 := mul_le_mul_of_nonneg_left h4 hQ.le
      have h6 := mul_le_mul_of_nonneg_left r3 (show (0 : Int) ≤ 2 ^ 63 by positivity)
      rw [Nat.cast_max, Nat.cast_pow, Nat.cast_ofNat]
      generalize max (B : Int) (2 ^ 63) = mx at *
      have a1 : (2 : Int) ^ 191 * |x| = 2 ^ 63 * (2 ^ (127 + 1) * |x|) := by ring
      have a2 : (2 : Int) ^ 63 * ((s.src.product : Int) * (2 ^ 127 + (r.sum : Int))) =
        s.src.product * 2 ^ 190 + s.src.product * (r.sum * 2 ^ 63) := by ring
      have a3 : (s.src.product : Int) * (2 ^ 190 + B * mx) = s.src.product * 2 ^ 190 + s.src.product * (B * mx) := by ring
      rw [a1, a3]
      rw [a2] at h6
      linarith
    · have h3 : (2 : Int) ^ 190 ≤ B * 2 ^ s.thetaGarnerShift := by
        have := hB q hq
        have h4 : q * s.src.moduliU64.length * 2 ^ s.thetaGarnerShift ≤ B * 2 ^ s.thetaGarnerShift :=
          Nat.mul_le_mul_right _ (by rw [Nat.mul_comm]; exact this)
        exact_mod_cast hlo.trans h4
      have hmx : (B : Int) ≤ max (B : Int) (2 ^ 63) := le_max_left _ _
      rw [pow_succ] at r3
      generalize (2 : Int) ^ s.thetaGarnerShift = P at *
      have a1 : (2 : Int) ^ 190 * r.sum ≤ (B * max (B : Int) (2 ^ 63)) * P := by
        calc (2 : Int) ^ 190 * r.sum ≤ (B * P) * B := mul_le_mul h3 hRB' (by positivity) (by positivity)
          _ = (B * B) * P := by ring
          _ ≤ (B * max (B : Int) (2 ^ 63)) * P :=
            mul_le_mul_of_nonneg_right (mul_le_mul_of_nonneg_left hmx hB0) hP.le
      have a2 := mul_le_mul_of_nonneg_left a1 hQ.le
      have a3 := mul_le_mul_of_nonneg_left r3 (show (0 : Int) ≤ 2 ^ 190 by positivity)
      have a4 : (2 ^ 191 * |x|) * P ≤ (s.src.product * (2 ^ 190 + B * max (B : Int) (2 ^ 63))) * P := by nlinarith
      push_cast
      exact le_of_mul_le_mul_right a4 hP
  · have hden0 : (0 : Int) ≤ den := by positivity
    refine r4.trans (mul_le_mul_of_nonneg_left ?_ hden0)
    linarith

/-- `scale` in terms of residues: see `c19_scale_error`. -/
theorem scale_spec' (pr : Profile) {s : RnsScaler} (h : s.WF) (hne : s.src.moduliU64 ≠ []) {num den : Nat}
    (e3 : s.scalingFactor = ⟨num, den, decide (num = den)⟩)
    {r : List Nat} (hr : Canon s.src.moduliU64 r)
    {B : Nat} (hB : ∀ q ∈ s.src.moduliU64, s.src.moduliU64.length * q ≤ B)
    {outLen start : Nat} (ho : 0 < outLen) (hle : start + outLen ≤ s.dst.moduliU64.length) :
    ∃ x y k : Int, s.scale pr r outLen start = .ok (Spec.residuesOf ((s.dst.moduliU64.drop start).take outLen) y) ∧
      Spec.HasResidues s.src.moduliU64 r x ∧
      2 ^ 191 * |x| ≤ s.src.moduliU64.prod * (2 ^ 190 + B * max B (2 ^ 63)) ∧
      2 ^ 127 * |den * (y - 2 * k) - num * x| ≤ den * (2 ^ 126 + 2 * B) ∧ 4 * |k| ≤ r.sum ∧
      (r.sum < 2 ^ 66 → |k| ≤ ((r.sum / 2 ^ 64 - 1 : Nat) : Int)) ∧ (den ∣ num * s.src.moduliU64.prod → k = 0) ∧
      (num = den → y = x) := by
  obtain ⟨x, y, v, e, r1, r2, r3, r4, r6, r7, r8, r5⟩ := scaleBy_spec pr h hne e3 hr (scaleW_spec pr h (by rw [e3]) hr) hB ho hle
  have h1 := h.src
  refine ⟨x, y, sgn s.thetaGammaSign e, r1, r2, r3, r4, ?_, ?_, ?_, r5⟩
  · rw [sgn_abs]
    have h2 : e * 2 ^ 128 ≤ r.sum * 2 ^ 126 := r7.trans (Nat.mul_le_mul r6 h.tgLe)
    have h3 : 4 * e ≤ r.sum := by omega
    exact_mod_cast h3
  · intro h66
    rw [sgn_abs, r8 (by omega)]
    have := dropped_le (v := v) h.tgLo
    have h2 : v / 2 ^ 64 ≤ r.sum / 2 ^ 64 := Nat.div_le_div_right r6
    exact_mod_cast (by omega : dropped v s.thetaGammaLo ≤ r.sum / 2 ^ 64 - 1)
  · intro hd
    have h0 := h.tgZero (by rw [e3, h1.prod]; exact hd)
    rw [h0] at r7
    have he : e = 0 := by omega
    rw [he]
    unfold sgn
    split <;> simp

/-- `scale` when no carry is dropped: see `c19_scale_partial`. -/
theorem scale_spec (pr : Profile) {s : RnsScaler} (h : s.WF) (hne : s.src.moduliU64 ≠ []) {num den : Nat}
    (e3 : s.scalingFactor = ⟨num, den, decide (num = den)⟩)
    {r : List Nat} (hr : Canon s.src.moduliU64 r) (hc : den ∣ num * s.src.moduliU64.prod ∨ r.sum < 2 ^ 65)
    {B : Nat} (hB : ∀ q ∈ s.src.moduliU64, s.src.moduliU64.length * q ≤ B)
    {outLen start : Nat} (ho : 0 < outLen) (hle : start + outLen ≤ s.dst.moduliU64.length) :
    ∃ x y : Int, s.scale pr r outLen start = .ok (Spec.residuesOf ((s.dst.moduliU64.drop start).take outLen) y) ∧
      Spec.HasResidues s.src.moduliU64 r x ∧
      2 ^ 191 * |x| ≤ s.src.moduliU64.prod * (2 ^ 190 + B * max B (2 ^ 63)) ∧
      2 ^ 127 * |den * y - num * x| ≤ den * (2 ^ 126 + 2 * B) ∧ (num = den → y = x) := by
  obtain ⟨x, y, k, a1, a2, a3, a4, -, a5, a6, a7⟩ := scale_spec' pr h hne e3 hr hB ho hle
  have hk : k = 0 := by
    rcases hc with hc | hc
    · exact a6 hc
    · have h1 := a5 (by omega)
      rw [show r.sum / 2 ^ 64 - 1 = 0 by omega] at h1
      simpa using h1
  rw [hk, mul_zero, sub_zero] at a4
  exact ⟨x, y, a1, a2, a3, a4, a7⟩

end RnsScaler
end OnionPIR
