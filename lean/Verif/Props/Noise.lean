import Verif.Props.Decrypt
import Verif.Props.Ksk
import Mathlib.Data.Nat.Size
/-
Property C75: what `measure_noise` says about a ciphertext.
-/
namespace OnionPIR
open Rg Poly Spec

variable {N t : Nat} {l : List Nat} {variance : Nat} {P : BfvParameters}

/-- The measured difference: `t D = t φ - Q m' + r` modulo `t Q`, with `m'` the decrypted value and `r` the rounding of `to_poly`. -/
theorem Noise.measured (h : IsParams N t l variance P) {sk : SecretKey} (hk : IsKey P sk) (pr : Profile) {ct : BfvCipherText} {i : Nat}
    {f0 f1 : Rg N} (hct : IsCt P i [f0, f1] ct) :
    ∃ (pt : Plaintext) (D : Rg N) (noise : Nat), sk.decrypt pr ct = .ok pt ∧ sk.measureNoise pr ct = .ok noise ∧
      (∀ k, k < N → 2 * |cf D k| ≤ levelQ l i ∧ |cf D k| < 2 ^ noise) ∧ (noise = 0 ∨ ∃ k, k < N ∧ 2 ^ (noise - 1) ≤ |cf D k|) ∧
      ∀ k, k < N → ∃ r z : ℤ, 0 ≤ r ∧ r < 2 * t ∧
        t * cf D k = t * cf (phase (keyRing N sk) [f0, f1]) k - levelQ l i * (pt.values.getD k 0 : ℤ) + r + t * levelQ l i * z := by
  obtain ⟨K, ext, rfl, hw, rfl, rfl, -⟩ := BfvP.params h
  have hN : 0 < 2 ^ K := by positivity
  obtain ⟨L, hL⟩ := BfvP.isCt_level hw (by simp) hct
  obtain ⟨pt0, hd0, hv0, hv1⟩ := c30_decrypt_total h hk pr (by simp) hct
  obtain ⟨x1, x2, x3⟩ := (BfvP.isCt_iff hL _ _).mp hct
  have hsk := BfvP.key hw hk
  subst x2
  have hp := hk.1
  subst hp
  obtain ⟨pt, M, D, noise, h1, h2, h3, h4, h5, h6⟩ := SecretKey.measureNoise_enc hsk pr hL x3
  obtain rfl := Except.ok.inj (hd0.symm.trans h1)
  have hpl : pt0.params = sk.params ∧ pt0.level = ct.level := by
    obtain ⟨x, y, -, hd⟩ := SecretKey.decrypt_general hsk pr hL (by simp) x3
    obtain rfl := Except.ok.inj (hd0.symm.trans hd)
    exact ⟨rfl, rfl⟩
  obtain ⟨M', m1, m2⟩ := Plaintext.toPoly_enc (p := pt0) (by rw [hpl.1]; exact hw) (by rw [hpl.1, hpl.2]; exact hL) pr hv0.le (fun v hv => by
    have := hv1 v hv; have := hw.t_lt; omega)
  have hMM := (enc_eq_iff hL.wf.ctx _ _).mp (Except.ok.inj (m1.symm.trans h2))
  rw [← BfvP.levelQ_eq hL, BfvP.phase_two]
  refine ⟨pt0, D, noise, h1, h3, h5, h6, fun k hk => ?_⟩
  obtain ⟨r, r1, r2, r3⟩ := m2 k hk
  rw [hpl.1] at r2 r3
  obtain ⟨a, ha⟩ := (dvd_iff hN _ _).mp hMM k hk
  obtain ⟨b, hb⟩ := (dvd_iff hN _ _).mp h4 k hk
  rw [cf_sub hN] at ha
  rw [cf_sub hN, cf_sub hN, ← BfvP.keyRing_eq] at hb
  refine ⟨r, a + b, r1, r2, ?_⟩
  set t := sk.params.plaintextModulus
  have e1 : cf D k = cf (f0 + f1 * keyRing (2 ^ K) sk) k - cf M k + L.qCtx.Q * b := by linarith
  have e2 : cf M k = cf M' k - L.qCtx.Q * a := by linarith
  rw [e1, e2]
  linear_combination (-1 : ℤ) * r3

theorem Noise.sizes (h : IsParams N t l variance P) {i : Nat} {ct : BfvCipherText} {fs : List (Rg N)} (hne : fs ≠ []) (hct : IsCt P i fs ct) :
    0 < N ∧ (17 : ℤ) ≤ t ∧ (17 : ℤ) ≤ levelQ l i := by
  obtain ⟨K, ext, rfl, hw, rfl, rfl, -⟩ := BfvP.params h
  obtain ⟨L, hL⟩ := BfvP.isCt_level hw hne hct
  have h8 : 2 ^ 3 ≤ 2 ^ K := Nat.pow_le_pow_right (by norm_num) hw.three
  have ht : 17 ≤ P.plaintextModulus := by
    have h1 := hw.t_cong
    have h2 := hw.t_prime.two_le
    have h3 := Nat.div_add_mod P.plaintextModulus (2 * 2 ^ K)
    rw [h1] at h3
    have h4 : 1 ≤ P.plaintextModulus / (2 * 2 ^ K) := by
      by_contra h5
      rw [Nat.lt_one_iff.mp (not_le.mp h5)] at h3
      omega
    have h5 : 2 * 2 ^ K * 1 ≤ 2 * 2 ^ K * (P.plaintextModulus / (2 * 2 ^ K)) := Nat.mul_le_mul_left _ h4
    omega
  refine ⟨by positivity, by exact_mod_cast ht, ?_⟩
  have hmem : P.ciphertextModuli[0]'(by have := hL.lt; omega) ∈ levelModuli P.ciphertextModuli i := by
    unfold levelModuli
    rw [List.mem_take_iff_getElem]
    exact ⟨0, by have := hL.lt; omega, rfl⟩
  have h1 := hw.lt_q _ (List.getElem_mem (l := P.ciphertextModuli) (n := 0) (by have := hL.lt; omega))
  have h2 : P.ciphertextModuli[0]'(by have := hL.lt; omega) ≤ levelQ P.ciphertextModuli i :=
    Nat.le_of_dvd (by rw [← BfvP.levelQ_eq hL]; exact hL.wf.ctx.Q_pos) (List.dvd_prod hmem)
  exact_mod_cast (by omega : 17 ≤ levelQ P.ciphertextModuli i)

/-- The measured coefficient is the small one among those congruent to it. -/
theorem Noise.small {t Q a r z D : ℤ} (ht : 17 ≤ t) (hQ : 17 ≤ Q) (ha : 2 ^ 32 * |a| ≤ Q * (2 ^ 31 + 1)) (hr0 : 0 ≤ r) (hr : r < 2 * t)
    (hD : 2 * |D| ≤ Q) (e : t * D = a + r + t * Q * z) : z = 0 := by
  by_contra hz
  have h1 : 1 ≤ |z| := Int.one_le_abs hz
  have h2 : t * Q ≤ |t * Q * z| := by
    rw [abs_mul, abs_of_nonneg (by positivity : 0 ≤ t * Q)]
    exact le_mul_of_one_le_right (by positivity) h1
  have h3 : |t * Q * z| ≤ t * |D| + |a| + r := by
    have : t * Q * z = t * D - a - r := by linarith
    rw [this]
    calc |t * D - a - r| ≤ |t * D - a| + |r| := abs_sub _ _
      _ ≤ |t * D| + |a| + |r| := by linarith [abs_sub (t * D) a]
      _ = t * |D| + |a| + r := by rw [abs_mul, abs_of_nonneg (by linarith : 0 ≤ t), abs_of_nonneg hr0]
  have h4 : t * (2 * |D|) ≤ t * Q := mul_le_mul_of_nonneg_left hD (by linarith)
  have h5 : 17 * Q ≤ t * Q := mul_le_mul_of_nonneg_right ht (by linarith)
  have h6 : t * 17 ≤ t * Q := mul_le_mul_of_nonneg_left hQ (by linarith)
  linarith

/-! ### C75 -/

/-- C75: for every ciphertext, whatever its noise and whether or not it decrypts to the intended message, the measured noise is at most
`log2(Q / 2t)` up to rounding: the reference of the measurement is the decrypted message. -/
theorem c75_always_small (h : IsParams N t l variance P) {sk : SecretKey} (hk : IsKey P sk) (pr : Profile) {ct : BfvCipherText} {i : Nat}
    {f0 f1 : Rg N} (hct : IsCt P i [f0, f1] ct) (h2t : 2 * t ≤ l.getD 0 0) :
    ∃ noise, sk.measureNoise pr ct = .ok noise ∧ (noise = 0 ∨ 2 ^ 32 * (t * 2 ^ (noise - 1)) ≤ levelQ l i * (2 ^ 31 + 1) + 2 ^ 33 * t) := by
  obtain ⟨hN, ht, hQ⟩ := Noise.sizes h (by simp) hct
  obtain ⟨pt, D, noise, h1, h2, h3, h4, h5⟩ := Noise.measured h hk pr hct
  obtain ⟨pt', h6, -, h7⟩ := c65_decrypt_rounds h hk pr (by simp) hct h2t
  obtain rfl := Except.ok.inj (h1.symm.trans h6)
  refine ⟨noise, h2, h4.imp_right fun ⟨k, hk, h8⟩ => ?_⟩
  obtain ⟨y, y1, y2⟩ := h7 k hk
  obtain ⟨r, z, r1, r2, r3⟩ := h5 k hk
  have e : (t : ℤ) * cf D k = -(levelQ l i * y - t * cf (phase (keyRing N sk) [f0, f1]) k) + r + t * levelQ l i * (z + y / t) := by
    rw [r3, y1]
    linear_combination (-(levelQ l i : ℤ)) * (Int.emod_add_mul_ediv y t)
  have hz := Noise.small ht hQ (by rw [abs_neg]; exact y2) r1 r2 (h3 k hk).1 e
  rw [hz, mul_zero, add_zero] at e
  have h9 : (t : ℤ) * |cf D k| ≤ |levelQ l i * y - t * cf (phase (keyRing N sk) [f0, f1]) k| + r := by
    rw [show (t : ℤ) * |cf D k| = |t * cf D k| by rw [abs_mul, abs_of_nonneg (by linarith : (0 : ℤ) ≤ t)], e]
    calc _ ≤ |-(levelQ l i * y - t * cf (phase (keyRing N sk) [f0, f1]) k)| + |r| := abs_add_le _ _
      _ = _ := by rw [abs_neg, abs_of_nonneg r1]
  have h10 : (t : ℤ) * 2 ^ (noise - 1) ≤ t * |cf D k| := mul_le_mul_of_nonneg_left h8 (by linarith)
  have h11 : (2 : ℤ) ^ 32 * (t * 2 ^ (noise - 1)) ≤ levelQ l i * (2 ^ 31 + 1) + 2 ^ 33 * t := by linarith
  exact_mod_cast h11

/-- C75: a ciphertext that encodes a message with noise `V` within the decryption threshold measures at most `log2(V / t + 2) + 1`. -/
theorem c75_encoded (h : IsParams N t l variance P) {sk : SecretKey} (hk : IsKey P sk) (pr : Profile) {ct : BfvCipherText} {i : Nat}
    {f0 f1 : Rg N} (hct : IsCt P i [f0, f1] ct) (h2t : 2 * t ≤ l.getD 0 0) {m : Rg N} {V : ℤ}
    (henc : Encodes t (levelQ l i) m (phase (keyRing N sk) [f0, f1]) V) (hV : 2 ^ 32 * V < levelQ l i * (2 ^ 31 - 1)) :
    ∃ noise, sk.measureNoise pr ct = .ok noise ∧ (noise = 0 ∨ t * 2 ^ (noise - 1) < V + 2 * t) := by
  obtain ⟨hN, ht, hQ⟩ := Noise.sizes h (by simp) hct
  obtain ⟨pt, D, noise, h1, h2, h3, h4, h5⟩ := Noise.measured h hk pr hct
  obtain ⟨v, w, hv, he⟩ := henc
  obtain ⟨pt', h6, -, h7⟩ := c65_threshold h hk pr (by simp) hct h2t he
  obtain rfl := Except.ok.inj (h1.symm.trans h6)
  refine ⟨noise, h2, h4.imp_right fun ⟨k, hk, h8⟩ => ?_⟩
  have hvk := hv k hk
  have y1 := (h7 k hk).1 (by linarith)
  obtain ⟨r, z, r1, r2, r3⟩ := h5 k hk
  have hphik : (t : ℤ) * cf (phase (keyRing N sk) [f0, f1]) k = levelQ l i * cf m k + cf v k + t * levelQ l i * cf w k := by
    have := congrArg (fun f => cf f k) he
    beta_reduce at this
    rw [cf_add hN, cf_add hN, cf_int_mul hN, cf_int_mul hN, cf_int_mul hN, cf_int_mul hN] at this
    rw [this]; ring
  have e : (t : ℤ) * cf D k = cf v k + r + t * levelQ l i * (z + cf w k + cf m k / t) := by
    rw [r3, y1, hphik]
    linear_combination (-(levelQ l i : ℤ)) * (Int.emod_add_mul_ediv (cf m k) t)
  have hz := Noise.small ht hQ (by linarith) r1 r2 (h3 k hk).1 e
  rw [hz, mul_zero, add_zero] at e
  have h9 : (t : ℤ) * |cf D k| ≤ V + r := by
    rw [show (t : ℤ) * |cf D k| = |t * cf D k| by rw [abs_mul, abs_of_nonneg (by linarith : (0 : ℤ) ≤ t)], e]
    calc _ ≤ |cf v k| + |r| := abs_add_le _ _
      _ ≤ _ := by rw [abs_of_nonneg r1]; linarith
  have h10 : (t : ℤ) * 2 ^ (noise - 1) ≤ t * |cf D k| := mul_le_mul_of_nonneg_left h8 (by linarith)
  linarith

/-- The components of an encryption at level 0, with the sampled error. -/
theorem Noise.encrypt {K : Nat} {sk : SecretKey} {ext : List Nat} (h : sk.WF K ext) (pr : Profile) {c : RqContext} (hc : c.WF K)
    (hv1 : 1 ≤ sk.params.variance) (hv2 : sk.params.variance ≤ 16) (M : Rg (2 ^ K)) {aTape : Nat → Nat → Nat} (ha : TapeOk c aTape)
    {rng : Nat → Nat} (hr : ∀ i, rng i < 2 ^ 64) :
    ∃ a : Rg (2 ^ K), sk.encryptPoly pr (enc c .ntt M) aTape rng = .ok { params := sk.params, level := 0, cts :=
      [enc c .ntt (ofList K ((List.range (2 ^ K)).map (cbdValue rng sk.params.variance)) - a * sk.ring K + M), enc c .ntt a] } := by
  obtain ⟨a, ha⟩ := random_enc hc ha
  have he : Poly.randomSmall pr c .ntt sk.params.variance rng =
      .ok (enc c .ntt (ofList K ((List.range (2 ^ K)).map (cbdValue rng sk.params.variance)))) := by
    unfold Poly.randomSmall
    rw [sampleVecCbd_ok pr hr hv1 hv2, res_ok_bind]
    have hb : ∀ x ∈ (List.range c.degree).map (cbdValue rng sk.params.variance), |x| ≤ 2 * sk.params.variance := by
      intro x hx
      rw [List.mem_map] at hx
      obtain ⟨i, -, rfl⟩ := hx
      exact abs_le.mpr (cbdValue_bound rng _ i)
    rw [tryFromVecI64_ok hc pr (by simp [hc.core.deg]) (fun x hx => by have := abs_le.mp (hb x hx); omega), res_ok_bind, toNtt_enc hc, hc.core.deg]
  refine ⟨a, ?_⟩
  unfold SecretKey.encryptPoly
  simp only [show (enc c .ntt M).context = c from rfl, SecretKey.polyNtt_enc h pr hc, res_ok_bind, ha, mul_enc hc, he, sub_enc hc, add_enc hc]

/-- C75: for a fresh encryption the measured noise is the bit length of the largest coefficient of the sampled error. -/
theorem c75_fresh (h : IsParams N t l variance P) {sk : SecretKey} (hk : IsKey P sk) (pr : Profile) (hv1 : 1 ≤ variance)
    (hv2 : variance ≤ 16) {pt : Plaintext} (hp : pt.params = P) (hlev : pt.level = 0) (hpt : IsVec t N pt.values)
    {aTape : Nat → Nat → Nat} (ha : TapeAt l 0 aTape) {rng : Nat → Nat} (hr : ∀ i, rng i < 2 ^ 64)
    (h2t : 2 * t ≤ l.getD 0 0) (hQ : 8 * t * (variance + 1) ≤ levelQ l 0) :
    ∃ ct e noise, sk.encrypt pr pt aTape rng = .ok ct ∧ sampleVecCbd pr rng N variance = .ok e ∧ sk.measureNoise pr ct = .ok noise ∧
      (∀ k, k < N → |e.getD k 0| < 2 ^ noise) ∧ (noise = 0 ∨ ∃ k, k < N ∧ 2 ^ (noise - 1) ≤ |e.getD k 0|) ∧ noise ≤ Nat.size (2 * variance) := by
  obtain ⟨ct, pt', d1, d2, d3⟩ := c30_encrypt_decrypt h hk pr pr hv1 hv2 hp hlev hpt.1.le (fun x hx => by
    have := hpt.2 x hx
    obtain ⟨K, ext, rfl, hw, rfl, rfl, rfl⟩ := BfvP.params h
    have := hw.t_lt; omega) ha hr h2t hQ
  obtain ⟨K, ext, rfl, hw, rfl, rfl, rfl⟩ := BfvP.params h
  have hN : 0 < 2 ^ K := by positivity
  have hvals : pt'.values = pt.values := by
    rw [d3]
    apply List.ext_getElem (by simp [hpt.1])
    intro k h1 h2
    rw [List.getElem_map, List.getElem_range, List.getD_eq_getElem _ _ h2, Nat.mod_eq_of_lt (hpt.2 _ (List.getElem_mem h2))]
  have hl0 : 0 < P.ciphertextModuli.length := List.length_pos_iff.mpr hw.ne
  obtain ⟨L, hL⟩ := hw.levels 0 hl0
  have hsk := BfvP.key hw hk
  have hp' := hk.1
  subst hp'
  obtain ⟨M, hM, -⟩ := Plaintext.toPoly_enc (p := pt) (by rw [hp]; exact hw) (by rw [hp, hlev]; exact hL) pr hpt.1.le (fun x hx => by
    have := hpt.2 x hx; have := hw.t_lt; omega)
  obtain ⟨a, hct⟩ := Noise.encrypt hsk pr hL.wf.ctx hv1 hv2 M (BfvP.tape hL ha) hr
  set e := ofList K ((List.range (2 ^ K)).map (cbdValue rng sk.params.variance)) with he
  have hct' : sk.encrypt pr pt aTape rng = .ok { params := sk.params, level := 0, cts := [enc L.qCtx .ntt (e - a * sk.ring K + M), enc L.qCtx .ntt a] } := by
    unfold SecretKey.encrypt; rw [hM, res_ok_bind, hct]
  obtain rfl := Except.ok.inj (d1.symm.trans hct')
  obtain ⟨pt0, M', D, noise, h1, h2, h3, h4, h5, h6⟩ := SecretKey.measureNoise_enc hsk pr (L := L)
    (ct := ⟨sk.params, [enc L.qCtx .ntt (e - a * sk.ring K + M), enc L.qCtx .ntt a], 0⟩) hL rfl
  obtain rfl := Except.ok.inj (d2.symm.trans h1)
  have hpl : pt'.params = sk.params ∧ pt'.level = 0 := by
    obtain ⟨x, y, -, hd⟩ := SecretKey.decrypt_general hsk pr (L := L)
      (ct := ⟨sk.params, [enc L.qCtx .ntt (e - a * sk.ring K + M), enc L.qCtx .ntt a], 0⟩)
      (fs := [e - a * sk.ring K + M, a]) hL (by simp) rfl
    obtain rfl := Except.ok.inj (d2.symm.trans hd)
    exact ⟨rfl, rfl⟩
  have hsame : pt'.toPoly pr = pt.toPoly pr := by
    unfold Plaintext.toPoly
    rw [hpl.1, hpl.2, hp, hlev, hvals]
  rw [hsame, hM] at h2
  have hMM := (enc_eq_iff hL.wf.ctx _ _).mp (Except.ok.inj h2)
  rw [← BfvP.levelQ_eq hL] at hQ
  have hDe : ∀ k, k < 2 ^ K → cf D k = ((List.range (2 ^ K)).map (cbdValue rng sk.params.variance)).getD k 0 := by
    intro k hk
    obtain ⟨x, hx⟩ := (dvd_iff hN _ _).mp hMM k hk
    obtain ⟨b, hb⟩ := (dvd_iff hN _ _).mp h4 k hk
    rw [cf_sub hN] at hx
    rw [cf_sub hN, show e - a * sk.ring K + M + a * sk.ring K - M' = e + (M - M') by ring, cf_add hN, cf_sub hN, hx] at hb
    have hek : cf e k = ((List.range (2 ^ K)).map (cbdValue rng sk.params.variance)).getD k 0 := by
      rw [he]; unfold ofList; rw [cf_ofCoeffs hN _ hk]
    have hbd : |cf e k| ≤ 2 * sk.params.variance := by
      rw [hek, List.getD_eq_getElem _ _ (by simpa using hk), List.getElem_map]
      exact abs_le.mpr (cbdValue_bound rng _ _)
    rw [← hek]
    have hD := (h5 k hk).1
    have ht2 : 2 ≤ sk.params.plaintextModulus := hw.t_prime.two_le
    have hQv : 8 * (sk.params.variance + 1) * 2 ≤ L.qCtx.Q := by nlinarith
    have hz : cf D k - cf e k = L.qCtx.Q * (b + x) := by linarith
    have hsm : |cf D k - cf e k| < L.qCtx.Q := by
      have := abs_sub (cf D k) (cf e k)
      have hQz : (8 * (sk.params.variance + 1) * 2 : ℤ) ≤ L.qCtx.Q := by exact_mod_cast hQv
      linarith
    have := Int.eq_zero_of_abs_lt_dvd (Dvd.intro _ hz.symm) hsm
    linarith
  refine ⟨_, _, noise, hct', sampleVecCbd_ok pr hr hv1 hv2 _, h3, fun k hk => ?_, ?_, ?_⟩
  · rw [← hDe k hk]; exact (h5 k hk).2
  · rcases h6 with h6 | ⟨k, hk, h6⟩
    · exact Or.inl h6
    · exact Or.inr ⟨k, hk, by rw [← hDe k hk]; exact h6⟩
  · rcases h6 with h6 | ⟨k, hk, h6⟩
    · omega
    · rw [hDe k hk, List.getD_eq_getElem _ _ (by simpa using hk), List.getElem_map] at h6
      have hbd := abs_le.mpr (cbdValue_bound rng sk.params.variance ((List.range (2 ^ K))[k]'(by simpa using hk)))
      have h7 : 2 ^ (noise - 1) ≤ 2 * sk.params.variance := by exact_mod_cast h6.trans hbd
      have := Nat.lt_size.mpr h7
      omega

example : ∃ P sk ct noise, IsParams 8 17 Ex.mods 10 P ∧ IsKey P sk ∧ SecretKey.measureNoise .debug sk ct = .ok noise ∧ noise ≤ 5 := by
  obtain ⟨P, sk, h, hk, -⟩ := Ex.setup_key
  obtain ⟨ct, e, noise, -, -, h1, -, -, h2⟩ := c75_fresh h hk .debug (by norm_num) (by norm_num) (pt := ⟨P, 0, .poly, [3, 1, 16, 0, 2, 0, 0, 9]⟩) rfl rfl
    ⟨rfl, show ∀ x ∈ [3, 1, 16, 0, 2, 0, 0, 9], x < 17 by decide⟩ (Ex.tape0 Ex.mods_gt) Ex.wordTape (by decide) (by decide +kernel)
  exact ⟨P, sk, ct, noise, h, hk, h1, h2⟩

/-- The largest possible reading for the example parameters: 55 bits, for every ciphertext of level 0. -/
example (P : BfvParameters) (sk : SecretKey) (h : IsParams 8 17 Ex.mods 10 P) (hk : IsKey P sk) (ct : BfvCipherText) (f0 f1 : Rg 8)
    (hct : IsCt P 0 [f0, f1] ct) : ∃ noise, SecretKey.measureNoise .debug sk ct = .ok noise ∧ noise ≤ 56 := by
  obtain ⟨noise, h1, h2⟩ := c75_always_small h hk .debug hct (by decide)
  refine ⟨noise, h1, ?_⟩
  rcases h2 with h2 | h2
  · omega
  · by_contra hlt
    have : 2 ^ 56 ≤ 2 ^ (noise - 1) := Nat.pow_le_pow_right (by norm_num) (by omega)
    rw [show levelQ Ex.mods 0 = 1048609 * 1048721 * 1048897 by decide +kernel] at h2
    omega

/-- The reading for an actual encryption, from its noise bound 374: at most 5 bits. -/
example : ∃ P sk ct noise, IsParams 8 17 Ex.mods 10 P ∧ IsKey P sk ∧ SecretKey.measureNoise .release sk ct = .ok noise ∧ noise ≤ 5 := by
  obtain ⟨P, sk, ct, f0, f1, h, hk, -, hct, he⟩ := Ex.setup
  obtain ⟨noise, h1, h2⟩ := c75_encoded h hk .release hct (by decide) he (by rw [Ex.levelQ_mods0]; norm_num)
  refine ⟨P, sk, ct, noise, h, hk, h1, ?_⟩
  rcases h2 with h2 | h2
  · omega
  · by_contra hlt
    have : (2 : ℤ) ^ 5 ≤ 2 ^ (noise - 1) := pow_le_pow_right₀ (by norm_num) (by omega)
    norm_num at h2 this
    omega

end OnionPIR
