import Verif.Props.Bfv

/-! C65: decryption computes the nearest integer to `t φ / Q` modulo `t`, so the noise it tolerates is exactly `Q / 2` up to a relative
error of `2^-31`. C97: parameters accepted by `BfvParameters::new` for which this fails. -/

namespace OnionPIR
open Rg Spec

variable {N t : Nat} {l : List Nat} {variance : Nat} {P : BfvParameters}

/-- C65: for every ciphertext, whatever its noise, the `k`-th decrypted value is an integer within `1/2 + 2^-32` of `t φ_k / Q`, modulo `t`,
where `φ` is the phase. -/
theorem c65_decrypt_rounds (h : IsParams N t l variance P) {sk : SecretKey} (hk : IsKey P sk) (pr : Profile) {ct : BfvCipherText} {i : Nat}
    {fs : List (Rg N)} (hne : fs ≠ []) (hct : IsCt P i fs ct) (h2t : 2 * t ≤ l.getD 0 0) :
    ∃ pt, sk.decrypt pr ct = .ok pt ∧ pt.values.length = N ∧ ∀ k, k < N → ∃ y : ℤ, (pt.values.getD k 0 : ℤ) = y % t ∧
      2 ^ 32 * |levelQ l i * y - t * cf (phase (keyRing N sk) fs) k| ≤ levelQ l i * (2 ^ 31 + 1) := by
  obtain ⟨K, ext, rfl, hw, rfl, rfl, -⟩ := BfvP.params h
  obtain ⟨L, hL⟩ := BfvP.isCt_level hw hne hct
  obtain ⟨h1, h2, h3⟩ := (BfvP.isCt_iff hL fs ct).mp hct
  have hsk := BfvP.key hw hk
  subst h2
  have hp := hk.1
  subst hp
  obtain ⟨x, y, hxy, hd⟩ := SecretKey.decrypt_general hsk pr hL hne h3
  rw [← BfvP.levelQ_eq hL, BfvP.phase_eq]
  have hQp : (0 : ℤ) < L.qCtx.Q := by exact_mod_cast hL.wf.ctx.Q_pos
  have ht2 : 2 ≤ sk.params.plaintextModulus := hw.t_prime.two_le
  refine ⟨_, hd, by simp, fun k hk => ?_⟩
  obtain ⟨⟨z, hz⟩, b1, b2⟩ := hxy k hk
  set t := sk.params.plaintextModulus
  set q0 := sk.params.ciphertextModuli.getD 0 0
  set Q : ℤ := (L.qCtx.Q : ℤ)
  have hy : -(t : ℤ) < y k ∧ y k < t := by
    have ht' : (2 : ℤ) ≤ t := by exact_mod_cast ht2
    have b5 : 2 * Q ≤ Q * t := by nlinarith
    have b6 : t * (8 * |x k|) ≤ t * (5 * Q) := mul_le_mul_of_nonneg_left b1 (by linarith)
    have b7 : |t * x k| = t * |x k| := by rw [abs_mul, abs_of_nonneg (by linarith : (0 : ℤ) ≤ t)]
    have b8 := abs_le.mp (le_refl |t * x k|)
    rw [b7] at b8
    have b9 := abs_le.mp (le_refl |Q * y k - t * x k|)
    constructor
    · by_contra hle
      have b3 : Q * y k ≤ Q * -t := mul_le_mul_of_nonneg_left (by linarith) hQp.le
      linarith [b8.1, b9.1]
    · by_contra hle
      have b3 : Q * t ≤ Q * y k := mul_le_mul_of_nonneg_left (by linarith) hQp.le
      linarith [b8.2, b9.2]
  refine ⟨y k - t * z, ?_, ?_⟩
  · have e1 : ((y k % (q0 : ℤ)).toNat + t) % q0 = (y k + t).toNat := by
      zify
      rw [Int.toNat_of_nonneg (Int.emod_nonneg _ (by omega)), Int.toNat_of_nonneg (by omega), Int.emod_add_emod]
      exact Int.emod_eq_of_lt (by omega) (by omega)
    have e2 : (((List.range (2 ^ K)).map fun k => ((y k % (q0 : ℤ)).toNat + t) % q0 % t).getD k 0) = (y k + t).toNat % t := by
      simp [hk, e1]
    rw [e2]
    zify
    rw [Int.toNat_of_nonneg (by omega), Int.add_emod_right, Int.sub_mul_emod_self_left]
  · have : Q * (y k - t * z) - t * cf (SecretKey.phaseOf (sk.ring K) fs) k = Q * y k - t * x k := by
      have : x k = cf (SecretKey.phaseOf (sk.ring K) fs) k + Q * z := by linarith
      rw [this]; ring
    change 2 ^ 32 * |Q * (y k - t * z) - t * cf (SecretKey.phaseOf (sk.ring K) fs) k| ≤ _
    rw [this]
    exact b2

/-- The integer part of C65: `y` is a rounding of `t φ / Q`, and `t φ = Q m + v + t Q w`. -/
theorem round_num {Q t y phi m v w : ℤ} (hQ : 0 < Q) (hy : 2 ^ 32 * |Q * y - t * phi| ≤ Q * (2 ^ 31 + 1))
    (hphi : t * phi = Q * m + v + t * Q * w) :
    2 ^ 32 * |Q * (y - m - t * w) - v| ≤ Q * (2 ^ 31 + 1) ∧ (2 ^ 32 * |v| < Q * (2 ^ 31 - 1) → y - m - t * w = 0) ∧
      (Q * (2 ^ 31 + 1) < 2 ^ 32 * |v| → y - m - t * w ≠ 0) ∧ (|v| ≤ Q * (t - 1) → |y - m - t * w| < t) := by
  set u := y - m - t * w with hu
  have e2 : Q * y - t * phi = Q * u - v := by rw [hphi, hu]; ring
  rw [e2] at hy
  have a1 := abs_le.mp (le_refl |v|)
  have a2 := abs_le.mp (le_refl |Q * u - v|)
  refine ⟨hy, fun hv => ?_, fun hv h0 => ?_, fun hv => ?_⟩
  · by_contra hne
    rcases lt_or_gt_of_ne hne with hlt | hgt
    · have h1 : Q * u ≤ -Q := by nlinarith
      linarith
    · have h1 : Q ≤ Q * u := by nlinarith
      linarith
  · rw [h0, mul_zero, zero_sub, abs_neg] at hy
    linarith
  · rw [abs_lt]
    constructor
    · by_contra hle
      have b3 : Q * u ≤ Q * -t := mul_le_mul_of_nonneg_left (by linarith) hQ.le
      linarith
    · by_contra hle
      have b3 : Q * t ≤ Q * u := mul_le_mul_of_nonneg_left (by linarith) hQ.le
      linarith

/-- C65: the noise threshold. If `t φ = Q m + v` modulo `t Q`, the `k`-th value is right when `|v_k| < Q (1/2 - 2^-32)`, and wrong when
`Q (1/2 + 2^-32) < |v_k| ≤ Q (t - 1)`. -/
theorem c65_threshold (h : IsParams N t l variance P) {sk : SecretKey} (hk : IsKey P sk) (pr : Profile) {ct : BfvCipherText} {i : Nat}
    {fs : List (Rg N)} (hne : fs ≠ []) (hct : IsCt P i fs ct) (h2t : 2 * t ≤ l.getD 0 0) {m v w : Rg N}
    (hphi : ((t : ℤ) : Rg N) * phase (keyRing N sk) fs = ((levelQ l i : ℤ) : Rg N) * m + v + ((t : ℤ) : Rg N) * (((levelQ l i : ℤ) : Rg N) * w)) :
    ∃ pt, sk.decrypt pr ct = .ok pt ∧ pt.values.length = N ∧ ∀ k, k < N →
      (2 ^ 32 * |cf v k| < levelQ l i * (2 ^ 31 - 1) → (pt.values.getD k 0 : ℤ) = cf m k % t) ∧
      (levelQ l i * (2 ^ 31 + 1) < 2 ^ 32 * |cf v k| → |cf v k| ≤ levelQ l i * ((t : ℤ) - 1) → (pt.values.getD k 0 : ℤ) ≠ cf m k % t) := by
  have hN : 0 < N := by
    obtain ⟨K, ext, rfl, -⟩ := BfvP.params h
    positivity
  have hQ : (0 : ℤ) < levelQ l i := by
    obtain ⟨K, ext, rfl, hw, rfl, rfl, -⟩ := BfvP.params h
    obtain ⟨L, hL⟩ := BfvP.isCt_level hw hne hct
    rw [← BfvP.levelQ_eq hL]
    exact_mod_cast hL.wf.ctx.Q_pos
  obtain ⟨pt, h1, h2, h3⟩ := c65_decrypt_rounds h hk pr hne hct h2t
  refine ⟨pt, h1, h2, fun k hk => ?_⟩
  obtain ⟨y, y1, y2⟩ := h3 k hk
  have hphik : (t : ℤ) * cf (phase (keyRing N sk) fs) k = levelQ l i * cf m k + cf v k + t * levelQ l i * cf w k := by
    have := congrArg (fun f => cf f k) hphi
    beta_reduce at this
    rw [cf_add hN, cf_add hN, cf_int_mul hN, cf_int_mul hN, cf_int_mul hN, cf_int_mul hN] at this
    rw [this]; ring
  obtain ⟨-, b1, b2, b3⟩ := round_num hQ y2 hphik
  rw [y1]
  refine ⟨fun hv => ?_, fun hv hv2 he => b2 hv ?_⟩
  · exact Int.emod_eq_emod_iff_emod_sub_eq_zero.mpr (Int.emod_eq_zero_of_dvd ⟨cf w k, by linarith [b1 hv]⟩)
  · have hd : (t : ℤ) ∣ y - cf m k := Int.dvd_of_emod_eq_zero (Int.emod_eq_emod_iff_emod_sub_eq_zero.mp he)
    have hd2 : (t : ℤ) ∣ y - cf m k - t * cf w k := dvd_sub hd (dvd_mul_right _ _)
    exact Int.eq_zero_of_abs_lt_dvd hd2 (b3 hv2)

/-- C65: decryption is right for noise up to `Q (1/2 - 2^-32)`, twice the bound of `c30_decrypt`. -/
theorem c65_decrypt (h : IsParams N t l variance P) {sk : SecretKey} (hk : IsKey P sk) (pr : Profile) {ct : BfvCipherText} {i : Nat}
    {fs : List (Rg N)} (hne : fs ≠ []) (hct : IsCt P i fs ct) (h2t : 2 * t ≤ l.getD 0 0) {m : Rg N} {V : ℤ}
    (henc : Encodes t (levelQ l i) m (phase (keyRing N sk) fs) V) (hV : 2 ^ 32 * V < levelQ l i * (2 ^ 31 - 1)) :
    ∃ pt, sk.decrypt pr ct = .ok pt ∧ pt.values = residues t m := by
  have ht : (0 : ℤ) < t := by
    obtain ⟨K, ext, rfl, hw, rfl, rfl, -⟩ := BfvP.params h
    exact_mod_cast hw.t_prime.pos
  obtain ⟨v, w, hv, he⟩ := henc
  obtain ⟨pt, h1, h2, h3⟩ := c65_threshold h hk pr hne hct h2t he
  refine ⟨pt, h1, ?_⟩
  unfold residues
  apply List.ext_getElem (by simp [h2])
  intro k hk1 hk2
  have hk : k < N := by omega
  have := (h3 k hk).1 (lt_of_le_of_lt (by have := hv k hk; linarith) hV)
  rw [List.getD_eq_getElem _ _ hk1] at this
  simp only [List.getElem_map, List.getElem_range]
  zify
  rw [Int.toNat_of_nonneg (Int.emod_nonneg _ ht.ne')]
  exact this

/-- The first modulus exceeds the plaintext modulus. -/
theorem first_gt (h : IsParams N t l variance P) : t < l.getD 0 0 := by
  have hl := h.2.2.1
  have hl0 : l ≠ [] := by
    rintro rfl
    obtain ⟨K, ext, rfl, hw, rfl, he, -⟩ := BfvP.params h
    exact hw.ne he
  cases l with
  | nil => exact absurd rfl hl0
  | cons a as => exact hl a (by simp)

/-- C97: the first modulus `q0`. The code shifts the rounded value by `t` and reduces it modulo `q0`, for which `BfvParameters::new` only
asserts `t < q0`, in debug builds. Small noise decrypts correctly whenever `13 t + 4 < 8 q0`. Otherwise a message coefficient `r` with `8 r + 4 < 3 t` comes out as
`r` only if `t + r < q0`, and as `t + r - q0` if not. -/
theorem c97_first_modulus (h : IsParams N t l variance P) {sk : SecretKey} (hk : IsKey P sk) (pr : Profile) {ct : BfvCipherText} {i : Nat}
    {fs : List (Rg N)} (hne : fs ≠ []) (hct : IsCt P i fs ct) {m v w : Rg N}
    (hphi : ((t : ℤ) : Rg N) * phase (keyRing N sk) fs = ((levelQ l i : ℤ) : Rg N) * m + v + ((t : ℤ) : Rg N) * (((levelQ l i : ℤ) : Rg N) * w)) :
    ∃ pt, sk.decrypt pr ct = .ok pt ∧ pt.values.length = N ∧ ∀ k, k < N → 2 ^ 32 * |cf v k| < levelQ l i * (2 ^ 31 - 1) →
      (13 * t + 4 < 8 * l.getD 0 0 → (pt.values.getD k 0 : ℤ) = cf m k % t) ∧
      ∀ r : Nat, cf m k % t = r → 8 * r + 4 < 3 * t →
        pt.values.getD k 0 = if t + r < l.getD 0 0 then r else t + r - l.getD 0 0 := by
  have htq := first_gt h
  obtain ⟨K, ext, rfl, hw, rfl, rfl, -⟩ := BfvP.params h
  obtain ⟨L, hL⟩ := BfvP.isCt_level hw hne hct
  obtain ⟨h1, h2, h3⟩ := (BfvP.isCt_iff hL fs ct).mp hct
  have hsk := BfvP.key hw hk
  subst h2
  have hp := hk.1
  subst hp
  obtain ⟨x, y, hxy, hd⟩ := SecretKey.decrypt_general hsk pr hL hne h3
  rw [← BfvP.levelQ_eq hL] at hphi ⊢
  rw [BfvP.phase_eq] at hphi
  have hQp : (0 : ℤ) < L.qCtx.Q := by exact_mod_cast hL.wf.ctx.Q_pos
  have ht2 : 2 ≤ sk.params.plaintextModulus := hw.t_prime.two_le
  refine ⟨_, hd, by simp, fun k hk hv => ?_⟩
  obtain ⟨⟨z, hz⟩, b1, b2⟩ := hxy k hk
  have hN : 0 < 2 ^ K := by positivity
  set t := sk.params.plaintextModulus
  set q0 := sk.params.ciphertextModuli.getD 0 0
  set Q : ℤ := (L.qCtx.Q : ℤ)
  have hphik : (t : ℤ) * x k = Q * cf m k + cf v k + t * Q * (cf w k + z) := by
    have := congrArg (fun f => cf f k) hphi
    beta_reduce at this
    rw [cf_add hN, cf_add hN, cf_int_mul hN, cf_int_mul hN, cf_int_mul hN, cf_int_mul hN] at this
    change (t : ℤ) * cf (SecretKey.phaseOf (sk.ring K) fs) k = _ at this
    have hx : x k = cf (SecretKey.phaseOf (sk.ring K) fs) k + Q * z := by linarith
    rw [hx, mul_add, this]; ring
  have hym : y k = cf m k + t * (cf w k + z) := by linarith [(round_num hQp b2 hphik).2.1 hv]
  have hy : 8 * |y k| ≤ 5 * t + 4 := by
    have ht' : (2 : ℤ) ≤ t := by exact_mod_cast ht2
    have b6 : t * (8 * |x k|) ≤ t * (5 * Q) := mul_le_mul_of_nonneg_left b1 (by linarith)
    have b7 : |t * x k| = t * |x k| := by rw [abs_mul, abs_of_nonneg (by linarith : (0 : ℤ) ≤ t)]
    have b8 : |Q * y k| ≤ |Q * y k - t * x k| + |t * x k| := by
      have := abs_add_le (Q * y k - t * x k) (t * x k)
      rwa [sub_add_cancel] at this
    rw [b7, abs_mul, abs_of_pos hQp] at b8
    by_contra hle
    have b3 : Q * (5 * t + 5) ≤ Q * (8 * |y k|) := mul_le_mul_of_nonneg_left (by linarith) hQp.le
    nlinarith
  have hy1 := abs_le.mp (show |y k| ≤ (5 * t + 4) / 8 by omega)
  have hv : (((List.range (2 ^ K)).map fun k => ((y k % (q0 : ℤ)).toNat + t) % q0 % t).getD k 0) = (y k + t).toNat % q0 % t := by
    have e1 : ((y k % (q0 : ℤ)).toNat + t) % q0 = (y k + t).toNat % q0 := by
      zify
      rw [Int.toNat_of_nonneg (Int.emod_nonneg _ (by omega)), Int.toNat_of_nonneg (by omega), Int.emod_add_emod]
    simp [hk, e1]
  rw [hv]
  refine ⟨fun hq => ?_, fun r hr hr2 => ?_⟩
  · rw [Nat.mod_eq_of_lt (a := (y k + t).toNat) (by omega)]
    zify
    rw [Int.toNat_of_nonneg (by omega), Int.add_emod_right, hym, Int.add_mul_emod_self_left]
  · have hyr : y k = r := by
      have e : y k = r + t * (cf m k / t + (cf w k + z)) := by
        rw [hym, ← hr]; have := Int.emod_add_mul_ediv (cf m k) t; linarith
      set c := cf m k / t + (cf w k + z)
      rcases lt_trichotomy c 0 with hc | hc | hc
      · have : (t : ℤ) * c ≤ t * -1 := mul_le_mul_of_nonneg_left (by omega) (by omega)
        omega
      · rw [e, hc]; simp
      · have : (t : ℤ) * 1 ≤ t * c := mul_le_mul_of_nonneg_left (by omega) (by omega)
        omega
    rw [hyr, show ((r : ℤ) + t).toNat = t + r by omega]
    split_ifs with hlt
    · rw [Nat.mod_eq_of_lt hlt, Nat.add_mod_left, Nat.mod_eq_of_lt (by omega)]
    · rw [Nat.mod_eq_sub_mod (by omega : q0 ≤ t + r), Nat.mod_eq_of_lt (by omega : t + r - q0 < q0), Nat.mod_eq_of_lt (by omega)]

/-- C97, the part that holds: `decrypt` inverts `encrypt` for every key, message and randomness. The full statement has no hypothesis `hq`; it is
missing here because it is false without it (`c97_narrow_fails`). -/
theorem c97_encrypt_decrypt_partial (h : IsParams N t l variance P) {sk : SecretKey} (hk : IsKey P sk) (pr pr' : Profile) (hv1 : 1 ≤ variance)
    (hv2 : variance ≤ 16) {pt : Plaintext} (hp : pt.params = P) (hlev : pt.level = 0) (hlen : pt.values.length ≤ N)
    (hv : ∀ x ∈ pt.values, x < 2 ^ 64) {aTape : Nat → Nat → Nat} (ha : TapeAt l 0 aTape) {rng : Nat → Nat} (hr : ∀ i, rng i < 2 ^ 64)
    (hQ : 8 * t * (variance + 1) ≤ levelQ l 0) (hq : 13 * t + 4 < 8 * l.getD 0 0) :
    ∃ ct pt', sk.encrypt pr pt aTape rng = .ok ct ∧ sk.decrypt pr' ct = .ok pt' ∧
      pt'.values = (List.range N).map fun k => pt.values.getD k 0 % t := by
  obtain ⟨ct, f0, f1, h1, h2, v, w, h3, h4⟩ := c30_encrypt h hk pr hv1 hv2 hp hlev hlen hv ha hr
  obtain ⟨pt', h5, h7, h6⟩ := c97_first_modulus h hk pr' (by simp) h2 h4
  refine ⟨ct, pt', h1, h5, List.ext_getElem (by simp [h7]) fun k hk1 hk2 => ?_⟩
  have hk : k < N := by omega
  have hnoise : 2 ^ 32 * |cf v k| < (levelQ l 0 : ℤ) * (2 ^ 31 - 1) := by
    have hQ' : (8 * t * (variance + 1) : ℤ) ≤ levelQ l 0 := by exact_mod_cast hQ
    have ht : 2 ≤ t := by
      obtain ⟨K, ext, rfl, hw, rfl, rfl, -⟩ := BfvP.params h
      exact hw.t_prime.two_le
    have := h3 k hk
    have ht : (0 : ℤ) < levelQ l 0 := by
      have : (0 : ℤ) < t := by omega
      nlinarith
    nlinarith
  have e := (h6 k hk hnoise).1 hq
  have hcf : cf (msgRing N pt.values) k = (pt.values.getD k 0 : Nat) := by
    obtain ⟨K, ext, rfl, -⟩ := BfvP.params h
    rw [BfvP.cf_msgRing _ hk]
  rw [hcf, List.getD_eq_getElem _ _ hk1] at e
  simp only [List.getElem_map, List.getElem_range]
  exact_mod_cast e

namespace Ex

/-- Ciphertext moduli above the plaintext modulus 97 whose first one is below `2 * 97`. -/
def narrowMods : List Nat := [113, 1048609, 1048721]

theorem exists_narrow : ∃ P, IsParams 8 97 narrowMods 10 P := by
  obtain ⟨P, -, h⟩ := c51_new_succeeds .debug (K := 3) (by norm_num) (by norm_num) (t := 97) (by norm_num) (by norm_num) (by norm_num)
    (l := narrowMods) (by simp [narrowMods]) (by decide)
    (by
      unfold narrowMods
      simp only [List.mem_cons, List.not_mem_nil, or_false]
      rintro q (rfl | rfl | rfl) <;> norm_num)
    (by unfold narrowMods; simp) (by simp [narrowMods])
    ⟨bigPrimes, by decide, by simp [narrowMods, bigPrimes], fun p hp => ⟨bigPrimes_prime p hp, by
      revert p; unfold bigPrimes narrowMods; decide⟩⟩
    goodSample_lt (fun q hq hc => ⟨0, by norm_num, goodSample_good hq (by rintro rfl; norm_num at hc)⟩) 10 ⟨1, 1⟩
  exact ⟨P, h⟩

end Ex

/-- C97: parameters accepted by `BfvParameters::new` for which decryption is wrong for every key and all randomness: if the first modulus is at
most `t + r`, a coefficient `r` below `3 t / 8` of a freshly encrypted message comes back as `t + r - q0`. -/
theorem c97_narrow_fails (h : IsParams N t l variance P) {sk : SecretKey} (hk : IsKey P sk) (pr pr' : Profile) (hv1 : 1 ≤ variance)
    (hv2 : variance ≤ 16) {pt : Plaintext} (hp : pt.params = P) (hlev : pt.level = 0) (hlen : pt.values.length ≤ N)
    (hv : ∀ x ∈ pt.values, x < 2 ^ 64) {aTape : Nat → Nat → Nat} (ha : TapeAt l 0 aTape) {rng : Nat → Nat} (hr : ∀ i, rng i < 2 ^ 64)
    (hQ : 8 * t * (variance + 1) ≤ levelQ l 0) :
    ∃ ct pt', sk.encrypt pr pt aTape rng = .ok ct ∧ sk.decrypt pr' ct = .ok pt' ∧ ∀ k, k < N → 8 * pt.values.getD k 0 + 4 < 3 * t →
      l.getD 0 0 ≤ t + pt.values.getD k 0 →
      pt'.values.getD k 0 = t + pt.values.getD k 0 - l.getD 0 0 ∧ pt'.values.getD k 0 ≠ pt.values.getD k 0 % t := by
  obtain ⟨ct, f0, f1, h1, h2, v, w, h3, h4⟩ := c30_encrypt h hk pr hv1 hv2 hp hlev hlen hv ha hr
  obtain ⟨pt', h5, -, h6⟩ := c97_first_modulus h hk pr' (by simp) h2 h4
  refine ⟨ct, pt', h1, h5, fun k hk hr1 hr2 => ?_⟩
  have hlt : pt.values.getD k 0 < t := by omega
  have hcf : cf (msgRing N pt.values) k % t = (pt.values.getD k 0 : Nat) := by
    obtain ⟨K, ext, rfl, -⟩ := BfvP.params h
    rw [BfvP.cf_msgRing _ hk]
    exact Int.emod_eq_of_lt (by omega) (by omega)
  have htq : t < l.getD 0 0 := first_gt h
  have hnoise : 2 ^ 32 * |cf v k| < (levelQ l 0 : ℤ) * (2 ^ 31 - 1) := by
    have hQ' : (8 * t * (variance + 1) : ℤ) ≤ levelQ l 0 := by exact_mod_cast hQ
    have := h3 k hk
    have ht : (0 : ℤ) < levelQ l 0 := by
      have : (0 : ℤ) < t := by omega
      nlinarith
    nlinarith
  have e := (h6 k hk hnoise).2 _ hcf hr1
  rw [if_neg (by omega)] at e
  refine ⟨e, ?_⟩
  rw [e, Nat.mod_eq_of_lt hlt]
  omega

theorem prod_bound {n : Nat} (hn : 1 ≤ n) : ((n * 2 ^ 62 : Nat) : ℤ) * ((max (n * 2 ^ 62) (2 ^ 63) : Nat) : ℤ) ≤ 2 ^ 125 * (n : ℤ) ^ 2 := by
  have h5 : max (n * 2 ^ 62) (2 ^ 63) ≤ n * 2 ^ 63 :=
    max_le (Nat.mul_le_mul_left _ (by norm_num)) (Nat.le_mul_of_pos_left _ hn)
  have h6 := Nat.mul_le_mul_left (n * 2 ^ 62) h5
  have h7 : n * 2 ^ 62 * (n * 2 ^ 63) = 2 ^ 125 * n ^ 2 := by
    rw [show (2 : Nat) ^ 125 = 2 ^ 62 * 2 ^ 63 by norm_num]; ring
  rw [h7] at h6
  have h8 := (Nat.cast_le (α := ℤ)).mpr h6
  rw [Nat.cast_mul] at h8
  refine h8.trans_eq ?_
  rw [Nat.cast_mul, Nat.cast_pow, Nat.cast_pow]
  rfl

/-- C97: with `n` moduli, `t n² < 2^64` (any `t` with two moduli, `t < 2^56` with sixteen) and noise at most `Q/4` the result is known for every coefficient: a residue above `t/2` always comes out right,
another residue `r` if and only if `t + r < q0`. -/
theorem c97_exact (h : IsParams N t l variance P) {sk : SecretKey} (hk : IsKey P sk) (pr : Profile) (ht : t * l.length ^ 2 < 2 ^ 64)
    {ct : BfvCipherText} {i : Nat} {fs : List (Rg N)} (hne : fs ≠ []) (hct : IsCt P i fs ct) {m : Rg N} {V : ℤ}
    (henc : Encodes t (levelQ l i) m (phase (keyRing N sk) fs) V) (hV : 4 * V ≤ levelQ l i) :
    ∃ pt, sk.decrypt pr ct = .ok pt ∧ pt.values.length = N ∧ ∀ k, k < N → ∀ r : Nat, cf m k % t = r →
      pt.values.getD k 0 = if t + r < l.getD 0 0 ∨ t < 2 * r then r else t + r - l.getD 0 0 := by
  have htq := first_gt h
  obtain ⟨v, w, hvb, hphi⟩ := henc
  obtain ⟨K, ext, rfl, hw, rfl, rfl, -⟩ := BfvP.params h
  obtain ⟨L, hL⟩ := BfvP.isCt_level hw hne hct
  obtain ⟨h1, h2, h3⟩ := (BfvP.isCt_iff hL fs ct).mp hct
  have hsk := BfvP.key hw hk
  subst h2
  have hp := hk.1
  subst hp
  obtain ⟨n, hn⟩ : ∃ n, n = sk.params.ciphertextModuli.length := ⟨_, rfl⟩
  rw [← hn] at ht
  have hn1 : 1 ≤ n := by rw [hn]; exact List.length_pos_iff.mpr hw.ne
  have hB : ∀ q ∈ L.qCtx.moduli64, L.qCtx.moduli64.length * q ≤ n * 2 ^ 62 := by
    intro q hq
    have h4 := (hL.wf.ctx.bound hq).2
    have h5 : L.qCtx.moduli64.length ≤ n := by
      rw [hL.wf.mods, List.length_take, hn]
      omega
    exact Nat.mul_le_mul h5 h4.le
  obtain ⟨x, y, hxy, hd⟩ := SecretKey.decrypt_scaled hsk pr hL hne h3 hB
  rw [← BfvP.levelQ_eq hL] at hphi hV
  rw [BfvP.phase_eq] at hphi
  have hQp : (0 : ℤ) < L.qCtx.Q := by exact_mod_cast hL.wf.ctx.Q_pos
  have ht2 : 2 ≤ sk.params.plaintextModulus := hw.t_prime.two_le
  have hodd : sk.params.plaintextModulus % 2 = 1 := by
    have h4 := hw.t_cong
    have h5 := Nat.mod_mod_of_dvd sk.params.plaintextModulus (Dvd.intro (2 ^ K) rfl : 2 ∣ 2 * 2 ^ K)
    rw [h4] at h5
    omega
  refine ⟨_, hd, by simp, fun k hk r hr => ?_⟩
  obtain ⟨⟨z, hz⟩, b1, b2⟩ := hxy k hk
  have hvk := hvb k hk
  have hN : 0 < 2 ^ K := by positivity
  set t := sk.params.plaintextModulus
  set q0 := sk.params.ciphertextModuli.getD 0 0
  set Q : ℤ := (L.qCtx.Q : ℤ)
  have hphik : (t : ℤ) * x k = Q * cf m k + cf v k + t * Q * (cf w k + z) := by
    have := congrArg (fun f => cf f k) hphi
    beta_reduce at this
    rw [cf_add hN, cf_add hN, cf_int_mul hN, cf_int_mul hN, cf_int_mul hN, cf_int_mul hN] at this
    change (t : ℤ) * cf (SecretKey.phaseOf (sk.ring K) fs) k = _ at this
    have hx : x k = cf (SecretKey.phaseOf (sk.ring K) fs) k + Q * z := by linarith
    rw [hx, mul_add, this]; ring
  have hn2 : n < 2 ^ 32 := by
    by_contra hcon
    have h5 : (2 ^ 32) ^ 2 ≤ n ^ 2 := Nat.pow_le_pow_left (by omega) 2
    have h6 : 1 * n ^ 2 ≤ t * n ^ 2 := Nat.mul_le_mul_right _ (by omega)
    omega
  have c1 : 2 ^ 66 * |x k| ≤ Q * (2 ^ 65 + n ^ 2) := by
    have e2 := b1.trans (mul_le_mul_of_nonneg_left (add_le_add le_rfl (prod_bound hn1)) hQp.le)
    rw [show (2 : ℤ) ^ 191 * |x k| = 2 ^ 125 * (2 ^ 66 * |x k|) by ring,
      show Q * ((2 : ℤ) ^ 190 + 2 ^ 125 * (n : ℤ) ^ 2) = 2 ^ 125 * (Q * (2 ^ 65 + n ^ 2)) by ring] at e2
    exact le_of_mul_le_mul_left e2 (by positivity)
  have c2 : 2 ^ 32 * |Q * y k - t * x k| ≤ Q * (2 ^ 31 + 1) := by
    have h5 : ((n * 2 ^ 62 : Nat) : ℤ) ≤ 2 ^ 94 := by
      have h6 := (Nat.cast_le (α := ℤ)).mpr (Nat.mul_le_mul_right (2 ^ 62) hn2.le)
      exact h6.trans_eq (by rw [Nat.cast_mul, Nat.cast_pow, Nat.cast_pow]; rfl)
    have : Q * ((2 : ℤ) ^ 126 + 2 * ((n * 2 ^ 62 : Nat) : ℤ)) ≤ 2 ^ 95 * (Q * (2 ^ 31 + 1)) := by
      have := mul_le_mul_of_nonneg_left h5 hQp.le
      linarith
    have e2 := b2.trans this
    rw [show (2 : ℤ) ^ 127 * |Q * y k - t * x k| = 2 ^ 95 * (2 ^ 32 * |Q * y k - t * x k|) by ring] at e2
    exact le_of_mul_le_mul_left e2 (by positivity)
  have hym : y k = cf m k + t * (cf w k + z) := by linarith [(round_num hQp c2 hphik).2.1 (by linarith)]
  have hy : 2 * |y k| ≤ t := by
    have ht' : (2 : ℤ) ≤ t := by exact_mod_cast ht2
    have ht3 : (t : ℤ) * n ^ 2 < 2 ^ 64 := by exact_mod_cast ht
    have b6 : t * (2 ^ 66 * |x k|) ≤ t * (Q * (2 ^ 65 + n ^ 2)) := mul_le_mul_of_nonneg_left c1 (by linarith)
    have b7 : |t * x k| = t * |x k| := by rw [abs_mul, abs_of_nonneg (by linarith : (0 : ℤ) ≤ t)]
    have b8 : |Q * y k| ≤ |t * x k| + |cf v k| := by
      have := abs_sub (t * x k) (cf v k)
      have e : t * x k - cf v k = Q * y k := by rw [hphik, hym]; ring
      rwa [e] at this
    rw [b7, abs_mul, abs_of_pos hQp] at b8
    by_contra hle
    have b3 : Q * (t + 1) ≤ Q * (2 * |y k|) := mul_le_mul_of_nonneg_left (by linarith) hQp.le
    have b4 : Q * (t * n ^ 2) < Q * 2 ^ 64 := mul_lt_mul_of_pos_left ht3 hQp
    have b5 : t * (Q * (2 ^ 65 + (n : ℤ) ^ 2)) = 2 ^ 65 * (t * Q) + Q * (t * n ^ 2) := by ring
    rw [b5, show t * (2 ^ 66 * |x k|) = 2 ^ 66 * (t * |x k|) by ring] at b6
    rw [show Q * (2 * |y k|) = 2 * (Q * |y k|) by ring, show Q * ((t : ℤ) + 1) = t * Q + Q by ring] at b3
    linarith
  have hy1 := abs_le.mp (show |y k| ≤ t / 2 by omega)
  have hval : (((List.range (2 ^ K)).map fun k => ((y k % (q0 : ℤ)).toNat + t) % q0 % t).getD k 0) = (y k + t).toNat % q0 % t := by
    have e1 : ((y k % (q0 : ℤ)).toNat + t) % q0 = (y k + t).toNat % q0 := by
      zify
      rw [Int.toNat_of_nonneg (Int.emod_nonneg _ (by omega)), Int.toNat_of_nonneg (by omega), Int.emod_add_emod]
    simp [hk, e1]
  rw [hval]
  have hrt : r < t := by
    have := Int.emod_lt_of_pos (cf m k) (show (0 : ℤ) < t by omega)
    omega
  have e : y k = r + t * (cf m k / t + (cf w k + z)) := by
    rw [hym, ← hr]; have := Int.emod_add_mul_ediv (cf m k) t; linarith
  set c := cf m k / t + (cf w k + z)
  have hcase : (y k = r ∧ 2 * r < t) ∨ (y k = r - t ∧ t < 2 * r) := by
    rcases lt_trichotomy c 0 with hc | hc | hc
    · rcases lt_or_ge c (-1) with hc1 | hc1
      · have : (t : ℤ) * c ≤ t * -2 := mul_le_mul_of_nonneg_left (by omega) (by omega)
        omega
      · have hc2 : c = -1 := by omega
        rw [hc2] at e
        right
        omega
    · rw [hc, mul_zero] at e
      left
      omega
    · have : (t : ℤ) * 1 ≤ t * c := mul_le_mul_of_nonneg_left (by omega) (by omega)
      omega
  rcases hcase with ⟨hyr, hrr⟩ | ⟨hyr, hrr⟩
  · rw [hyr, show ((r : ℤ) + t).toNat = t + r by omega]
    split_ifs with hlt
    · rw [Nat.mod_eq_of_lt (show t + r < q0 by omega), Nat.add_mod_left, Nat.mod_eq_of_lt hrt]
    · rw [Nat.mod_eq_sub_mod (by omega : q0 ≤ t + r), Nat.mod_eq_of_lt (by omega : t + r - q0 < q0), Nat.mod_eq_of_lt (by omega)]
  · rw [hyr, show ((r : ℤ) - t + t).toNat = r by omega, if_pos (Or.inr hrr), Nat.mod_eq_of_lt (show r < q0 by omega), Nat.mod_eq_of_lt hrt]

/-- C97: whatever the key and the randomness, `decrypt` inverts `encrypt` on all messages if and only if `3 t < 2 q0`. -/
theorem c97_encrypt_decrypt_iff (h : IsParams N t l variance P) {sk : SecretKey} (hk : IsKey P sk) (pr pr' : Profile) (hv1 : 1 ≤ variance)
    (hv2 : variance ≤ 16) (ht : t * l.length ^ 2 < 2 ^ 64) {aTape : Nat → Nat → Nat} (ha : TapeAt l 0 aTape) {rng : Nat → Nat}
    (hr : ∀ i, rng i < 2 ^ 64) (hQ : 8 * t * (variance + 1) ≤ levelQ l 0) :
    (∀ pt : Plaintext, pt.params = P → pt.level = 0 → pt.values.length ≤ N → (∀ x ∈ pt.values, x < 2 ^ 64) →
      ∃ ct pt', sk.encrypt pr pt aTape rng = .ok ct ∧ sk.decrypt pr' ct = .ok pt' ∧
        pt'.values = (List.range N).map fun k => pt.values.getD k 0 % t) ↔ 3 * t < 2 * l.getD 0 0 := by
  have htq := first_gt h
  have hN : 0 < N := by
    obtain ⟨K, ext, rfl, -⟩ := BfvP.params h
    positivity
  have hodd : t % 2 = 1 := by
    obtain ⟨K, ext, rfl, hw, rfl, rfl, -⟩ := BfvP.params h
    have h4 := hw.t_cong
    have h5 := Nat.mod_mod_of_dvd P.plaintextModulus (Dvd.intro (2 ^ K) rfl : 2 ∣ 2 * 2 ^ K)
    rw [h4] at h5
    omega
  have hQ' : (8 * t * (variance + 1) : ℤ) ≤ levelQ l 0 := by exact_mod_cast hQ
  have key : ∀ pt : Plaintext, pt.params = P → pt.level = 0 → pt.values.length ≤ N → (∀ x ∈ pt.values, x < 2 ^ 64) →
      ∃ ct pt', sk.encrypt pr pt aTape rng = .ok ct ∧ sk.decrypt pr' ct = .ok pt' ∧ pt'.values.length = N ∧ ∀ k, k < N →
        pt'.values.getD k 0 = if t + pt.values.getD k 0 % t < l.getD 0 0 ∨ t < 2 * (pt.values.getD k 0 % t) then pt.values.getD k 0 % t
          else t + pt.values.getD k 0 % t - l.getD 0 0 := by
    intro pt hp hlev hlen hv
    obtain ⟨ct, f0, f1, h1, h2, h3⟩ := c30_encrypt h hk pr hv1 hv2 hp hlev hlen hv ha hr
    obtain ⟨pt', h4, h5, h6⟩ := c97_exact h hk pr' ht (by simp) h2 h3 (by linarith)
    refine ⟨ct, pt', h1, h4, h5, fun k hk => h6 k hk _ ?_⟩
    obtain ⟨K, ext, rfl, -⟩ := BfvP.params h
    rw [BfvP.cf_msgRing _ hk]
    rfl
  constructor
  · intro hall
    by_contra hge
    have hlt : (t - 1) / 2 < 2 ^ 64 := by
      have : t < 2 ^ 62 := by
        obtain ⟨_, _, _, hw, rfl, -⟩ := BfvP.params h
        exact hw.t_lt
      omega
    obtain ⟨ct, pt', h1, h2, -, h4⟩ := key ⟨P, 0, .poly, [(t - 1) / 2]⟩ rfl rfl hN (by simpa using hlt)
    obtain ⟨ct2, pt2, h5, h6, h7⟩ := hall ⟨P, 0, .poly, [(t - 1) / 2]⟩ rfl rfl hN (by simpa using hlt)
    obtain rfl := Except.ok.inj (h1.symm.trans h5)
    obtain rfl := Except.ok.inj (h2.symm.trans h6)
    have h8 := h4 0 hN
    rw [h7] at h8
    simp only [List.getD_cons_zero] at h8
    have e : ((List.range N).map fun k => [(t - 1) / 2].getD k 0 % t).getD 0 0 = (t - 1) / 2 % t := by
      rw [List.getD_eq_getElem _ _ (by simpa using hN), List.getElem_map, List.getElem_range]; rfl
    rw [e, Nat.mod_eq_of_lt (by omega : (t - 1) / 2 < t), if_neg (by omega)] at h8
    omega
  · intro h3 pt hp hlev hlen hv
    obtain ⟨ct, pt', h1, h2, h4, h5⟩ := key pt hp hlev hlen hv
    refine ⟨ct, pt', h1, h2, List.ext_getElem (by simp [h4]) fun k k1 k2 => ?_⟩
    have hk : k < N := by omega
    have h6 := h5 k hk
    rw [List.getD_eq_getElem _ _ k1] at h6
    rw [List.getElem_map, List.getElem_range, h6]
    have := Nat.mod_lt (pt.values.getD k 0) (show t > 0 by omega)
    rw [if_pos (by omega)]

/-- With `t = 97` and first modulus 113, a fresh encryption of 20 decrypts to 4 in both builds. -/
example : ∃ P sk ct, IsParams 8 97 Ex.narrowMods 10 P ∧ IsKey P sk ∧
    sk.encrypt .release ⟨P, 0, .poly, [3, 20]⟩ (fun _ _ => 0) (fun i => i % 1000) = .ok ct ∧
    ∀ pr, ∃ pt, sk.decrypt pr ct = .ok pt ∧ pt.values.getD 1 0 = 4 := by
  obtain ⟨P, h⟩ := Ex.exists_narrow
  obtain ⟨sk, -, hk, -⟩ := c30_generate h .release (by norm_num) (by norm_num) Ex.wordTape
  have hg : ∀ q ∈ Ex.narrowMods, 1 < q := by decide
  have key : ∀ pr', ∃ ct pt', _ := fun pr' => c97_narrow_fails h hk .release pr' (by norm_num) (by norm_num)
    (pt := ⟨P, 0, .poly, [3, 20]⟩) rfl rfl (by norm_num) (by simp) (Ex.tape0 hg) Ex.wordTape (by decide +kernel)
  obtain ⟨ct, -, h1, -⟩ := key .release
  refine ⟨P, sk, ct, h, hk, h1, fun pr => ?_⟩
  obtain ⟨ct', pt', h2, h3, h4⟩ := key pr
  obtain rfl : ct' = ct := Except.ok.inj (h2.symm.trans h1)
  exact ⟨pt', h3, (h4 1 (by norm_num) (by norm_num) (by simp [Ex.narrowMods])).1⟩

/-- An encryption of the example parameters meets the sharper bound. -/
example : ∃ P sk ct pt, IsParams 8 17 Ex.mods 10 P ∧ IsKey P sk ∧ sk.decrypt .release ct = .ok pt ∧ pt.values = [3, 1, 16, 0, 2, 0, 0, 9] := by
  obtain ⟨P, sk, ct, f0, f1, h, hk, -, hct, he⟩ := Ex.setup
  obtain ⟨pt, h1, h2⟩ := c65_decrypt h hk .release (by simp) hct (by decide) he (by rw [Ex.levelQ_mods0]; norm_num)
  refine ⟨P, sk, ct, pt, h, hk, h1, ?_⟩
  rw [h2]
  exact (residues_msgRing (K := 3) 17 _).trans (by decide)

/-- A ciphertext beyond the threshold: the phase is the constant `⌊3 Q / (5 t)⌋`, the noise with respect to the message 0 is about `3 Q / 5`, and
the first value is not 0. -/
example : ∃ P sk ct pt, IsParams 8 17 Ex.mods 10 P ∧ IsKey P sk ∧ sk.decrypt .release ct = .ok pt ∧ pt.values.getD 0 0 ≠ 0 := by
  obtain ⟨P, sk, -, -, -, h, hk, -⟩ := Ex.setup
  set f : Rg 8 := ((levelQ Ex.mods 0 * 3 / 85 : ℤ) : Rg 8) with hf
  obtain ⟨p, hp⟩ := c33_exists_poly h (i := 0) (by decide) f
  have hct : IsCt P 0 [f] ⟨P, [p], 0⟩ := ⟨rfl, rfl, List.Forall₂.cons hp List.Forall₂.nil⟩
  have hcf : ∀ n : ℤ, cf ((n : ℤ) : Rg 8) 0 = n := fun n => by
    rw [cf_int (by norm_num)]; rfl
  obtain ⟨pt, h1, -, h2⟩ := c65_threshold h hk .release (by simp) hct (by decide) (m := 0) (v := ((17 : ℤ) : Rg 8) * f) (w := 0) (by
    simp only [phase, mul_zero, add_zero, zero_add]; rfl)
  refine ⟨P, sk, _, pt, h, hk, h1, fun h0 => ?_⟩
  have := (h2 0 (by norm_num)).2
  rw [cf_int_mul (by norm_num), hf, hcf, h0, Ex.levelQ_mods0] at this
  refine this (by norm_num) (by norm_num) ?_
  rw [cf_zero (by norm_num)]; rfl

/-- The rounding statement for the coefficients of an actual encryption. -/
example : ∃ P sk ct pt, ∃ f0 f1 : Rg 8, ∃ y : ℤ, IsParams 8 17 Ex.mods 10 P ∧ IsKey P sk ∧ IsCt P 0 [f0, f1] ct ∧ sk.decrypt .release ct = .ok pt ∧
    (pt.values.getD 2 0 : ℤ) = y % 17 ∧
    2 ^ 32 * |levelQ Ex.mods 0 * y - 17 * cf (phase (keyRing 8 sk) [f0, f1]) 2| ≤ levelQ Ex.mods 0 * (2 ^ 31 + 1) := by
  obtain ⟨P, sk, ct, f0, f1, h, hk, -, hct, he⟩ := Ex.setup
  obtain ⟨pt, h1, -, h2⟩ := c65_decrypt_rounds h hk .release (by simp) hct (by decide)
  obtain ⟨y, h3, h4⟩ := h2 2 (by norm_num)
  exact ⟨P, sk, ct, pt, f0, f1, y, h, hk, hct, h1, h3, h4⟩

/-- First modulus 1048609 and plaintext modulus 17. -/
example : ∃ P sk ct pt, IsParams 8 17 Ex.mods 10 P ∧ IsKey P sk ∧
    sk.encrypt .release ⟨P, 0, .poly, [3, 20]⟩ (fun _ _ => 0) (fun i => i % 1000) = .ok ct ∧
    sk.decrypt .debug ct = .ok pt ∧ pt.values = [3, 3, 0, 0, 0, 0, 0, 0] := by
  obtain ⟨P, h⟩ := Ex.exists_params
  obtain ⟨sk, -, hk, -⟩ := c30_generate h .release (by norm_num) (by norm_num) Ex.wordTape
  obtain ⟨ct, pt', h1, h2, h3⟩ := c97_encrypt_decrypt_partial h hk .release .debug (by norm_num) (by norm_num)
    (pt := ⟨P, 0, .poly, [3, 20]⟩) rfl rfl (by norm_num) (by simp) (Ex.tape0 Ex.mods_gt) Ex.wordTape (by decide +kernel) (by decide)
  exact ⟨P, sk, ct, pt', h, hk, h1, h2, h3.trans (show ((List.range 8).map fun k => [3, 20].getD k 0 % 17) = _ by decide)⟩

/-- With `t = 97` and first modulus 113 some message is decrypted wrongly whatever the key; 60 is above `97/2` and comes back. -/
example : ∃ P sk, IsParams 8 97 Ex.narrowMods 10 P ∧ IsKey P sk ∧ (¬ ∀ pt : Plaintext, pt.params = P → pt.level = 0 → pt.values.length ≤ 8 →
      (∀ x ∈ pt.values, x < 2 ^ 64) → ∃ ct pt', sk.encrypt .debug pt (fun _ _ => 0) (fun i => i % 1000) = .ok ct ∧ sk.decrypt .release ct = .ok pt' ∧
        pt'.values = (List.range 8).map fun k => pt.values.getD k 0 % 97) ∧
    ∃ ct pt', sk.decrypt .debug ct = .ok pt' ∧ pt'.values.getD 0 0 = 60 := by
  obtain ⟨P, h⟩ := Ex.exists_narrow
  obtain ⟨sk, -, hk, -⟩ := c30_generate h .release (by norm_num) (by norm_num) Ex.wordTape
  have hg : ∀ q ∈ Ex.narrowMods, 1 < q := by decide
  refine ⟨P, sk, h, hk, fun hall => ?_, ?_⟩
  · exact absurd ((c97_encrypt_decrypt_iff h hk .debug .release (by norm_num) (by norm_num) (by decide) (Ex.tape0 hg) Ex.wordTape
      (by decide +kernel)).mp hall) (by decide)
  · obtain ⟨ct, f0, f1, h1, h2, h3⟩ := c30_encrypt h hk .debug (by norm_num) (by norm_num) (pt := ⟨P, 0, .poly, [60]⟩) rfl rfl (by norm_num) (by simp)
      (Ex.tape0 hg) Ex.wordTape
    have hQ : 8 * 97 * (10 + 1) ≤ levelQ Ex.narrowMods 0 := by decide +kernel
    have hQ' : (8 * 97 * (10 + 1) : ℤ) ≤ levelQ Ex.narrowMods 0 := by exact_mod_cast hQ
    obtain ⟨pt', h4, -, h6⟩ := c97_exact h hk .debug (by decide) (by simp) h2 h3 (by push_cast; linarith)
    refine ⟨ct, pt', h4, (h6 0 (by norm_num) 60 ?_).trans (if_pos (Or.inr (by norm_num)))⟩
    have e := BfvP.cf_msgRing (K := 3) [60] (k := 0) (by norm_num)
    exact (congrArg (· % ((97 : Nat) : ℤ)) e).trans rfl

end OnionPIR
