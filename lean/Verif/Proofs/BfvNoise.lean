import Verif.Proofs.Bfv
/- `measure_noise`. -/
namespace OnionPIR
open Rg Poly
namespace SecretKey
variable {K : Nat}

theorem bitLength_mono {a b : Nat} (h : a ≤ b) : bitLength a ≤ bitLength b := by
  unfold bitLength
  split_ifs with h1 h2
  · exact le_refl _
  · omega
  · omega
  · have : a.log2 ≤ b.log2 := by rw [Nat.log2_eq_log_two, Nat.log2_eq_log_two]; exact Nat.log_mono_right h
    omega

theorem lt_bitLength (a : Nat) : a < 2 ^ bitLength a := by
  unfold bitLength
  split_ifs with h
  · subst h; norm_num
  · exact Nat.lt_log2_self

theorem bitLength_le {a : Nat} (h : a ≠ 0) : 2 ^ (bitLength a - 1) ≤ a := by
  unfold bitLength
  rw [if_neg h, Nat.add_sub_cancel]
  exact Nat.log2_self_le h

theorem noise_fold {q : Nat} (l : List Nat) (h : ∀ x ∈ l, x ≤ q) (s : Nat) :
    ∃ r, foldR (noiseStep q) s l = .ok r ∧ s ≤ r ∧ (∀ x ∈ l, bitLength (min x (q - x)) ≤ r) ∧
      (r = s ∨ ∃ x ∈ l, r = bitLength (min x (q - x))) := by
  induction l generalizing s with
  | nil => exact ⟨s, rfl, le_refl _, by simp, Or.inl rfl⟩
  | cons x l ih =>
    have hmin : min (bitLength x) (bitLength (q - x)) = bitLength (min x (q - x)) := by
      rcases le_total x (q - x) with h1 | h1
      · rw [min_eq_left h1, min_eq_left (bitLength_mono h1)]
      · rw [min_eq_right h1, min_eq_right (bitLength_mono h1)]
    obtain ⟨r, h1, h2, h3, h4⟩ := ih (fun y hy => h y (by simp [hy])) (max s (bitLength (min x (q - x))))
    refine ⟨r, ?_, ?_, ?_, ?_⟩
    · rw [foldR_cons]
      unfold noiseStep
      rw [if_pos (h x (by simp)), res_ok_bind, hmin]
      exact h1
    · exact (le_max_left _ _).trans h2
    · intro y hy
      rcases List.mem_cons.mp hy with rfl | hy
      · exact (le_max_right _ _).trans h2
      · exact h3 y hy
    · rcases h4 with h4 | ⟨y, hy, h4⟩
      · rcases max_choice s (bitLength (min x (q - x))) with hm | hm
        · left; rw [h4, hm]
        · right; exact ⟨x, by simp, by rw [h4, hm]⟩
      · right; exact ⟨y, by simp [hy], h4⟩

/-- The smaller of `x` and `Q - x`, for `x` the residue of `a`, is the distance of `a` to the nearest multiple of `Q`. -/
theorem centered (a : ℤ) {Q : Nat} (hQ : 0 < Q) :
    ∃ d : ℤ, (Q : ℤ) ∣ d - a ∧ 2 * |d| ≤ Q ∧ (min (a % (Q : ℤ)).toNat (Q - (a % (Q : ℤ)).toNat) : Nat) = d.natAbs := by
  have h1 := Int.emod_nonneg a (show (Q : ℤ) ≠ 0 by omega)
  have h2 := Int.emod_lt_of_pos a (show (0 : ℤ) < Q by omega)
  have h3 := Int.emod_add_mul_ediv a Q
  set x := a % (Q : ℤ)
  rcases le_total (2 * x) Q with h | h
  · refine ⟨x, ⟨-(a / Q), by linarith⟩, by rw [abs_of_nonneg h1]; exact h, by omega⟩
  · refine ⟨x - Q, ⟨-(a / Q) - 1, by linarith⟩, by rw [abs_of_nonpos (by omega)]; omega, by omega⟩

theorem measureNoise_enc {sk : SecretKey} {ext : List Nat} (h : sk.WF K ext) (pr : Profile) {ct : BfvCipherText} {L : BfvLevel}
    (hL : sk.params.At K ext ct.level L) {f0 f1 : Rg (2 ^ K)} (hct : ct.cts = [enc L.qCtx .ntt f0, enc L.qCtx .ntt f1]) :
    ∃ (pt : Plaintext) (M D : Rg (2 ^ K)) (noise : Nat), sk.decrypt pr ct = .ok pt ∧ pt.toPoly pr = .ok (enc L.qCtx .ntt M) ∧
      sk.measureNoise pr ct = .ok noise ∧ ((L.qCtx.Q : ℤ) : Rg (2 ^ K)) ∣ D - (f0 + f1 * sk.ring K - M) ∧
      (∀ k, k < 2 ^ K → 2 * |cf D k| ≤ L.qCtx.Q ∧ |cf D k| < 2 ^ noise) ∧
      (noise = 0 ∨ ∃ k, k < 2 ^ K ∧ 2 ^ (noise - 1) ≤ |cf D k|) := by
  have hN : 0 < 2 ^ K := by positivity
  have hc := hL.wf.ctx
  have hP := h.params
  obtain ⟨x, y, -, hd⟩ := decrypt_general h pr hL (fs := [f0, f1]) (by simp) (by rw [hct]; rfl)
  have ht := hP.t_prime.pos
  have htl := hP.t_lt
  obtain ⟨M, hM, -⟩ := Plaintext.toPoly_enc (p := ⟨sk.params, ct.level, .none, (List.range (2 ^ K)).map fun k =>
      ((y k % (sk.params.ciphertextModuli.getD 0 0 : ℤ)).toNat + sk.params.plaintextModulus) % sk.params.ciphertextModuli.getD 0 0 %
        sk.params.plaintextModulus⟩) hP hL pr (by simp) (by
      intro v hv
      simp only [List.mem_map] at hv
      obtain ⟨k, -, rfl⟩ := hv
      have := Nat.mod_lt (((y k % (sk.params.ciphertextModuli.getD 0 0 : ℤ)).toNat + sk.params.plaintextModulus) %
        sk.params.ciphertextModuli.getD 0 0) ht
      omega)
  set F := f1 * sk.ring K + f0 - M with hF
  choose d hd1 hd2 hd3 using fun k => centered (cf F k) hc.Q_pos
  obtain ⟨r, r1, -, r2, r3⟩ := noise_fold (q := L.qCtx.Q) ((List.range (2 ^ K)).map fun k => (cf F k % (L.qCtx.Q : ℤ)).toNat) (by
    intro v hv
    rw [List.mem_map] at hv
    obtain ⟨k, -, rfl⟩ := hv
    have := Int.emod_lt_of_pos (cf F k) (show (0 : ℤ) < L.qCtx.Q by exact_mod_cast hc.Q_pos)
    omega) 0
  refine ⟨_, M, ofCoeffs (2 ^ K) d, r, hd, hM, ?_, ?_, ?_, ?_⟩
  · unfold measureNoise
    rw [hd, res_ok_bind, hM, res_ok_bind, idx_of hL.q, res_ok_bind, polyNtt_enc h pr hc, res_ok_bind, hct]
    simp only [show ∀ a b : Poly, idx [a, b] 0 = .ok a from fun _ _ => rfl, show ∀ a b : Poly, idx [a, b] 1 = .ok b from fun _ _ => rfl,
      res_ok_bind, mul_enc hc, add_enc hc, sub_enc hc, toPower_enc hc, toBigUints_enc hc]
    rw [show L.qCtx.rns.product = L.qCtx.Q from hc.Q_eq]
    exact r1
  · rw [dvd_iff hN]
    intro k hk
    rw [cf_sub hN, cf_ofCoeffs hN _ hk, show f0 + f1 * sk.ring K - M = F by rw [hF]; ring]
    exact hd1 k
  · intro k hk
    rw [cf_ofCoeffs hN _ hk]
    refine ⟨hd2 k, ?_⟩
    have h1 := r2 _ (List.mem_map_of_mem (List.mem_range.mpr hk))
    rw [hd3 k] at h1
    have h2 := lt_bitLength (d k).natAbs
    have h3 : 2 ^ bitLength (d k).natAbs ≤ 2 ^ r := Nat.pow_le_pow_right (by norm_num) h1
    have h4 : (d k).natAbs < 2 ^ r := by omega
    rw [Int.abs_eq_natAbs]
    exact_mod_cast h4
  · rcases r3 with r3 | ⟨v, hv, r3⟩
    · exact Or.inl r3
    · rw [List.mem_map] at hv
      obtain ⟨k, hk, rfl⟩ := hv
      rw [hd3 k] at r3
      by_cases h0 : (d k).natAbs = 0
      · left; rw [r3, h0]; rfl
      · right
        have hk := List.mem_range.mp hk
        refine ⟨k, hk, ?_⟩
        rw [cf_ofCoeffs hN _ hk, Int.abs_eq_natAbs, r3]
        exact_mod_cast bitLength_le h0

/-- Decryption of a ciphertext whose `level` field differs from the level of its components panics. -/
theorem decrypt_wrong_level {sk : SecretKey} {ext : List Nat} (h : sk.WF K ext) (pr : Profile) {ct : BfvCipherText} {i j : Nat}
    {L L' : BfvLevel} (hL : sk.params.At K ext i L) (hL' : sk.params.At K ext j L') {fs : List (Rg (2 ^ K))} (hne : fs ≠ [])
    (hct : ct.cts = fs.map (enc L.qCtx .ntt)) (hj : ct.level = j) (hij : i ≠ j) : sk.decrypt pr ct = .error .assert := by
  have hc := hL.wf.ctx
  obtain ⟨pr', hsc⟩ := hL'.wf.scalar
  have hsrc : L'.scalar.src = L'.qCtx := by
    unfold RqScaler.new at hsc
    simp only [bind_eq_ok] at hsc
    obtain ⟨-, -, r, -, he⟩ := hsc
    rw [← Except.ok.inj he]
  have hctx : L.qCtx ≠ L'.qCtx := by
    intro he
    have h1 := hL.wf.mods
    rw [he, hL'.wf.mods] at h1
    have h2 := congrArg List.length h1
    rw [List.length_take, List.length_take] at h2
    have := hL.lt
    have := hL'.lt
    omega
  unfold decrypt
  rw [hct, phase_enc h pr hc hne, res_ok_bind, toPower_enc hc, res_ok_bind, hj, idx_of hL'.sc, res_ok_bind]
  unfold RqScaler.scale
  rw [rassert_fail (by rw [hsrc]; exact hctx)]
  rfl

end SecretKey
end OnionPIR
