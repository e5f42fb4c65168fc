import Verif.Proofs.Ksk
/- Ciphertext multiplication: the two scalers, `Mul<&BfvCipherText>` and `multiply_with_strategy`. -/
namespace OnionPIR
open Rg Poly
variable {K : Nat}

namespace BfvMul

theorem elen_le {P : BfvParameters} {ext : List Nat} (hP : P.WF K ext) {i : Nat} {L : BfvLevel} (hL : P.At K ext i L) :
    L.eCtx.moduli64.length ≤ 2 ^ 32 := by
  rw [hL.wf.emods, List.length_append, List.length_take, List.length_take]
  have h1 := hP.len
  have h2 := hP.ext_len
  omega

/-- `E = Q * (product of the auxiliary primes)`. -/
theorem eQ {P : BfvParameters} {ext : List Nat} {i : Nat} {L : BfvLevel} (hL : P.At K ext i L) :
    L.eCtx.Q = L.qCtx.Q * (ext.take (BfvParameters.extraCount L.qCtx.moduli64)).prod := by
  unfold RqContext.Q
  rw [hL.wf.emods, List.prod_append, hL.wf.mods]

theorem up {P : BfvParameters} {ext : List Nat} (hP : P.WF K ext) {i : Nat} {L : BfvLevel} (hL : P.At K ext i L) (pr : Profile)
    (f : Rg (2 ^ K)) :
    ∃ F : Rg (2 ^ K), L.mul.upScaler.scale pr (enc L.qCtx .ntt f) = .ok (enc L.eCtx .ntt F) ∧
      ((L.qCtx.Q : ℤ) : Rg (2 ^ K)) ∣ F - f ∧ ∀ k, k < 2 ^ K → 8 * |cf F k| ≤ 5 * L.qCtx.Q := by
  have hN : 0 < 2 ^ K := by positivity
  have hlen := SecretKey.len_le hP hL
  obtain ⟨pr', hn⟩ := hL.wf.up
  obtain ⟨x, y, hxy, -, hs⟩ := RqScaler.scale_enc hL.wf.ctx hL.wf.ectx pr (by omega) (num := 1) (den := 1) (by norm_num) hn
    (Or.inl (one_dvd _)) (by
      intro _ j hj
      rw [hL.wf.emods, hL.wf.mods, RqScaler.countCommon_prefix, Nat.zero_add] at hj
      rw [hL.wf.emods, hL.wf.mods, List.getD_append _ _ _ _ hj])
    (SecretKey.prod_le hL.wf.ctx (by omega)) f
  refine ⟨ofCoeffs (2 ^ K) y, hs, ?_, ?_⟩
  · rw [dvd_iff hN]
    intro k hk
    rw [cf_sub hN, cf_ofCoeffs hN _ hk, (hxy k hk).2.2.2 rfl]
    exact (hxy k hk).1
  · intro k hk
    rw [cf_ofCoeffs hN _ hk, (hxy k hk).2.2.2 rfl]
    exact SecretKey.scale_bound1 (hxy k hk).2.1

theorem down {P : BfvParameters} {ext : List Nat} (hP : P.WF K ext) {i : Nat} {L : BfvLevel} (hL : P.At K ext i L) (pr : Profile)
    (g : Rg (2 ^ K)) :
    ∃ D X : Rg (2 ^ K), L.mul.downScaler.scale pr (enc L.eCtx .ntt g) = .ok (enc L.qCtx .ntt D) ∧
      ((L.eCtx.Q : ℤ) : Rg (2 ^ K)) ∣ X - g ∧ (∀ k, k < 2 ^ K → 8 * |cf X k| ≤ 5 * L.eCtx.Q) ∧
      ∀ k, k < 2 ^ K → 2 ^ 32 * |L.qCtx.Q * cf D k - P.plaintextModulus * cf X k| ≤ L.qCtx.Q * (2 ^ 31 + 1) := by
  have hN : 0 < 2 ^ K := by positivity
  have hlen := elen_le hP hL
  obtain ⟨pr', hn⟩ := hL.wf.down
  have hQE : L.qCtx.Q ∣ L.eCtx.Q := by rw [eQ hL]; exact Dvd.intro _ rfl
  obtain ⟨x, y, hxy, -, hs⟩ := RqScaler.scale_enc hL.wf.ectx hL.wf.ctx pr (by omega) hL.wf.ctx.Q_pos hn
    (Or.inl (hQE.mul_left _)) (fun he => absurd he (hL.t_lt_Q hP).ne)
    (SecretKey.prod_le hL.wf.ectx hlen) g
  refine ⟨ofCoeffs (2 ^ K) y, ofCoeffs (2 ^ K) x, hs, ?_, ?_, ?_⟩
  · rw [dvd_iff hN]
    intro k hk
    rw [cf_sub hN, cf_ofCoeffs hN _ hk]
    exact (hxy k hk).1
  · intro k hk
    rw [cf_ofCoeffs hN _ hk]
    exact SecretKey.scale_bound1 (hxy k hk).2.1
  · intro k hk
    rw [cf_ofCoeffs hN _ hk, cf_ofCoeffs hN _ hk]
    exact SecretKey.scale_bound2 (hxy k hk).2.2.1

theorem int_unique {E x c : ℤ} (hE : 0 < E) (h : E ∣ x - c) (hx : 8 * |x| ≤ 5 * E) (hc : 8 * |c| < 3 * E) : x = c := by
  obtain ⟨w, hw⟩ := h
  have h1 : |x - c| < E := by
    have := abs_sub x c
    omega
  have h2 : w = 0 := by
    by_contra h0
    have h3 : 1 ≤ |w| := Int.one_le_abs h0
    rw [hw, abs_mul, abs_of_pos hE] at h1
    nlinarith
  rw [h2, mul_zero] at hw
  omega

/-- For a polynomial that is small against `E`, the down scaler divides by `Q/t` and rounds. -/
theorem down_small {P : BfvParameters} {ext : List Nat} (hP : P.WF K ext) {i : Nat} {L : BfvLevel} (hL : P.At K ext i L) (pr : Profile)
    (g : Rg (2 ^ K)) (hg : ∀ k, k < 2 ^ K → 8 * |cf g k| < 3 * (L.eCtx.Q : ℤ)) :
    ∃ D : Rg (2 ^ K), L.mul.downScaler.scale pr (enc L.eCtx .ntt g) = .ok (enc L.qCtx .ntt D) ∧
      Bdd L.qCtx.Q (((L.qCtx.Q : ℤ) : Rg (2 ^ K)) * D - ((P.plaintextModulus : ℤ) : Rg (2 ^ K)) * g) := by
  have hN : 0 < 2 ^ K := by positivity
  have hEp : (0 : ℤ) < L.eCtx.Q := by exact_mod_cast hL.wf.ectx.Q_pos
  obtain ⟨D, X, h1, h2, h3, h4⟩ := down hP hL pr g
  refine ⟨D, h1, ?_⟩
  intro k hk
  rw [dvd_iff hN] at h2
  have h5 := h2 k hk
  rw [cf_sub hN] at h5
  have h6 := int_unique hEp h5 (h3 k hk) (hg k hk)
  have h7 := h4 k hk
  rw [cf_sub hN, cf_int_mul hN, cf_int_mul hN, ← h6]
  have hQ : (0 : ℤ) ≤ L.qCtx.Q := by positivity
  have : (2 : ℤ) ^ 32 * |L.qCtx.Q * cf D k - P.plaintextModulus * cf X k| ≤ 2 ^ 32 * L.qCtx.Q := by linarith
  exact le_of_mul_le_mul_left this (by norm_num)

/-- Zero scales to zero, in both directions. -/
theorem up_zero {P : BfvParameters} {ext : List Nat} (hP : P.WF K ext) {i : Nat} {L : BfvLevel} (hL : P.At K ext i L) (pr : Profile) :
    L.mul.upScaler.scale pr (enc L.qCtx .ntt (0 : Rg (2 ^ K))) = .ok (enc L.eCtx .ntt (0 : Rg (2 ^ K))) := by
  have hN : 0 < 2 ^ K := by positivity
  have hQp : (0 : ℤ) < L.qCtx.Q := by exact_mod_cast hL.wf.ctx.Q_pos
  obtain ⟨F, h1, h2, h3⟩ := up hP hL pr 0
  have : F = 0 := by
    apply ext_cf hN
    intro k hk
    rw [dvd_iff hN] at h2
    have h4 := h2 k hk
    rw [cf_sub hN, cf_zero hN] at h4
    rw [cf_zero hN]
    exact int_unique hQp h4 (h3 k hk) (by simp; exact_mod_cast hQp)
  rw [h1, this]

theorem down_zero {P : BfvParameters} {ext : List Nat} (hP : P.WF K ext) {i : Nat} {L : BfvLevel} (hL : P.At K ext i L) (pr : Profile) :
    L.mul.downScaler.scale pr (enc L.eCtx .ntt (0 : Rg (2 ^ K))) = .ok (enc L.qCtx .ntt (0 : Rg (2 ^ K))) := by
  have hN : 0 < 2 ^ K := by positivity
  have hQp : (0 : ℤ) < L.qCtx.Q := by exact_mod_cast hL.wf.ctx.Q_pos
  have hEp : (0 : ℤ) < L.eCtx.Q := by exact_mod_cast hL.wf.ectx.Q_pos
  obtain ⟨D, X, h1, h2, h3, h4⟩ := down hP hL pr 0
  have : D = 0 := by
    apply ext_cf hN
    intro k hk
    rw [dvd_iff hN] at h2
    have h5 := h2 k hk
    rw [cf_sub hN, cf_zero hN] at h5
    have h6 := int_unique hEp h5 (h3 k hk) (by simp; exact_mod_cast hEp)
    have h7 := h4 k hk
    rw [h6, mul_zero, sub_zero, abs_mul, abs_of_pos hQp] at h7
    rw [cf_zero hN]
    by_contra h0
    have h8 : 1 ≤ |cf D k| := Int.one_le_abs h0
    nlinarith
  rw [h1, this]

/-! ### The operator `*` -/

theorem mulPairs_two : BfvCipherText.mulPairs 2 2 = [(0, 0), (0, 1), (1, 0), (1, 1)] := by decide

/-- What `*` computes on two-component ciphertexts: the middle component is one of the two cross terms. -/
theorem mul_enc2 {P : BfvParameters} {ext : List Nat} {i : Nat} {L : BfvLevel} (hL : P.At K ext i L) (pr : Profile) {x y : BfvCipherText}
    (hx : x.params = P) (hxl : x.level = i) (hyl : y.level = i) {f0 f1 g0 g1 F0 F1 G0 G1 D0 D1 D2 : Rg (2 ^ K)}
    (hxc : x.cts = [enc L.qCtx .ntt f0, enc L.qCtx .ntt f1]) (hyc : y.cts = [enc L.qCtx .ntt g0, enc L.qCtx .ntt g1])
    (u0 : L.mul.upScaler.scale pr (enc L.qCtx .ntt f0) = .ok (enc L.eCtx .ntt F0))
    (u1 : L.mul.upScaler.scale pr (enc L.qCtx .ntt f1) = .ok (enc L.eCtx .ntt F1))
    (v0 : L.mul.upScaler.scale pr (enc L.qCtx .ntt g0) = .ok (enc L.eCtx .ntt G0))
    (v1 : L.mul.upScaler.scale pr (enc L.qCtx .ntt g1) = .ok (enc L.eCtx .ntt G1))
    (d0 : L.mul.downScaler.scale pr (enc L.eCtx .ntt (F0 * G0)) = .ok (enc L.qCtx .ntt D0))
    (d1 : L.mul.downScaler.scale pr (enc L.eCtx .ntt (F1 * G0)) = .ok (enc L.qCtx .ntt D1))
    (d2 : L.mul.downScaler.scale pr (enc L.eCtx .ntt (F1 * G1)) = .ok (enc L.qCtx .ntt D2)) :
    x.mul pr y = .ok ⟨P, [enc L.qCtx .ntt D0, enc L.qCtx .ntt D1, enc L.qCtx .ntt D2], i⟩ := by
  have he := hL.wf.ectx
  unfold BfvCipherText.mul
  rw [rassert_ok (hyl.trans hxl.symm), res_ok_bind, hx, hxl, idx_of hL.mp, res_ok_bind, hxc, hyc]
  simp only [mapR, u0, u1, v0, v1, res_ok_bind, List.length_cons, List.length_nil, addW_ok (show 0 + 1 + 1 + (0 + 1 + 1) < 2 ^ 64 by norm_num),
    subW_ok (show 1 ≤ 0 + 1 + 1 + (0 + 1 + 1) by norm_num)]
  rw [hL.wf.dst]
  rw [show (0 + 1 + 1 : Nat) = 2 from rfl, mulPairs_two]
  simp only [foldR_cons, foldR_nil, BfvCipherText.mulStep, show ∀ a b : Poly, idx [a, b] 0 = .ok a from fun _ _ => rfl,
    show ∀ a b : Poly, idx [a, b] 1 = .ok b from fun _ _ => rfl, res_ok_bind, mul_enc he]
  rw [show 2 + 2 - 1 = 3 from rfl]
  simp only [List.replicate, setR, List.length_cons, List.length_nil, List.set, Nat.zero_add, Nat.add_zero, Nat.reduceAdd, Nat.reduceLT, if_true,
    res_ok_bind, mapR, d0, d1, d2]

/-! ### Sizes -/

theorem prod_lt_bits (ms : List Nat) (h : ∀ q ∈ ms, q ≠ 0) : ms.prod ≤ 2 ^ (ms.map (fun q => Nat.log 2 q + 1)).sum := by
  induction ms with
  | nil => simp
  | cons q ms ih =>
    rw [List.prod_cons, List.map_cons, List.sum_cons, pow_add]
    exact Nat.mul_le_mul (Nat.lt_pow_succ_log_self (by norm_num) q).le (ih fun x hx => h x (by simp [hx]))

theorem prod_ge (ms : List Nat) (h : ∀ q ∈ ms, 2 ^ 61 ≤ q) : 2 ^ (61 * ms.length) ≤ ms.prod := by
  induction ms with
  | nil => simp
  | cons q ms ih =>
    rw [List.prod_cons, List.length_cons, show 61 * (ms.length + 1) = 61 + 61 * ms.length by ring, pow_add]
    exact Nat.mul_le_mul (h q (by simp)) (ih fun x hx => h x (by simp [hx]))

theorem bits_le (ms : List Nat) (h : ∀ q ∈ ms, q < 2 ^ 62) : (ms.map (fun q => Nat.log 2 q + 1)).sum ≤ 62 * ms.length := by
  induction ms with
  | nil => simp
  | cons q ms ih =>
    rw [List.map_cons, List.sum_cons, List.length_cons]
    have h1 := ih fun x hx => h x (by simp [hx])
    have h2 : Nat.log 2 q < 62 := by
      by_cases hq : q = 0
      · subst hq; simp
      · exact Nat.log_lt_of_lt_pow hq (h q (by simp))
    omega

/-- The extended modulus leaves room for a product. -/
theorem room {P : BfvParameters} {ext : List Nat} (hP : P.WF K ext) {i : Nat} {L : BfvLevel} (hL : P.At K ext i L)
    (hn : K + P.ciphertextModuli.length ≤ 57) : 3 * 2 ^ K * L.qCtx.Q ^ 2 ≤ L.eCtx.Q := by
  set ms := L.qCtx.moduli64 with hms
  have hb : ∀ q ∈ ms, q ≠ 0 ∧ q < 2 ^ 62 := fun q hq => by
    have h := hL.wf.ctx.bound hq
    exact ⟨by omega, h.2⟩
  set bits := (ms.map (fun q => Nat.log 2 q + 1)).sum with hbits
  have h1 : L.qCtx.Q ≤ 2 ^ bits := prod_lt_bits ms fun q hq => (hb q hq).1
  have h2 : bits ≤ 62 * ms.length := bits_le ms fun q hq => (hb q hq).2
  have hlen : ms.length ≤ P.ciphertextModuli.length := by rw [hms, hL.wf.mods]; exact List.length_take_le' _ _
  set cnt := BfvParameters.extraCount ms with hcnt
  have hc : cnt = (bits + 60 + 61) / 62 := rfl
  have hcl : cnt ≤ ext.length := by rw [hcnt, hms, hL.wf.mods]; exact hL.wf.cnt
  have h3 : 2 ^ (61 * cnt) ≤ (ext.take cnt).prod := by
    have := prod_ge (ext.take cnt) fun q hq => (hP.ext_mem q (List.mem_of_mem_take hq)).2.1
    rwa [List.length_take, min_eq_left hcl] at this
  have h4 : bits + K + 2 ≤ 61 * cnt := by omega
  rw [eQ hL, pow_two]
  have h5 : 3 * 2 ^ K * L.qCtx.Q ≤ (ext.take cnt).prod := by
    calc 3 * 2 ^ K * L.qCtx.Q ≤ 2 ^ 2 * 2 ^ K * 2 ^ bits := Nat.mul_le_mul (Nat.mul_le_mul_right _ (by norm_num)) h1
      _ = 2 ^ (bits + K + 2) := by rw [pow_add, pow_add]; ring
      _ ≤ 2 ^ (61 * cnt) := Nat.pow_le_pow_right (by norm_num) h4
      _ ≤ _ := h3
  calc 3 * 2 ^ K * (L.qCtx.Q * L.qCtx.Q) = L.qCtx.Q * (3 * 2 ^ K * L.qCtx.Q) := by ring
    _ ≤ _ := Nat.mul_le_mul_left _ h5

/-! ### The noise of a product -/

theorem bdd8 {N : Nat} (hN : 0 < N) {F : Rg N} {B : ℤ} (h : ∀ k, k < N → 8 * |cf F k| ≤ B) : Bdd B ((8 : ℤ) * F : Rg N) := by
  intro k hk
  rw [cf_int_mul hN, abs_mul]
  simpa using h k hk

theorem small_of_bdd {N : Nat} (hN : 0 < N) {C : Rg N} {Q E : ℤ} (hQ : 0 < Q) (h : Bdd (2 * (N * (5 * Q) * (5 * Q))) ((64 : ℤ) * C : Rg N))
    (hr : 3 * N * Q ^ 2 ≤ E) : ∀ k, k < N → 8 * |cf C k| < 3 * E := by
  intro k hk
  have h1 := h k hk
  rw [cf_int_mul hN, abs_mul, show |(64 : ℤ)| = 64 from rfl] at h1
  have hp : (0 : ℤ) < N * Q ^ 2 := by positivity
  nlinarith

theorem k_num {t Q k p m v A : ℤ} (ht : 2 ≤ t) (hQ : 0 < Q) (hA : 0 ≤ A) (h : t * (Q * k) = t * p - Q * m - v)
    (hp : 8 * |p| ≤ 5 * Q + 5 * Q * A) (hm : |m| ≤ t) (hv : 4 * |v| ≤ Q) : |k| ≤ A + 2 := by
  have h1 : |t * (Q * k)| = t * Q * |k| := by rw [abs_mul, abs_mul, abs_of_pos hQ, abs_of_pos (by omega : 0 < t)]; ring
  have h2 : |t * p - Q * m - v| ≤ t * |p| + Q * |m| + |v| := by
    have e1 := abs_sub (t * p - Q * m) v
    have e2 := abs_sub (t * p) (Q * m)
    rw [abs_mul, abs_of_pos (by omega : 0 < t), abs_mul, abs_of_pos hQ] at e2
    linarith
  rw [← h, h1] at h2
  have h3 : 8 * (t * Q * |k|) ≤ t * (5 * Q + 5 * Q * A) + 8 * (Q * t) + 2 * Q := by
    have e1 : t * (8 * |p|) ≤ t * (5 * Q + 5 * Q * A) := mul_le_mul_of_nonneg_left hp (by omega)
    have e2 : Q * |m| ≤ Q * t := mul_le_mul_of_nonneg_left hm hQ.le
    linarith
  have h4 : t * Q * (8 * |k|) ≤ t * Q * (14 + 5 * A) := by
    have : 2 * Q ≤ t * Q := by nlinarith
    nlinarith
  have h5 : 8 * |k| ≤ 14 + 5 * A := le_of_mul_le_mul_left h4 (by positivity)
  omega

theorem u_num {Q u x y a b : ℤ} (hQ : 0 < Q) (h : Q * u = x + y) (hx : |x| ≤ Q * a) (hy : |y| ≤ Q * b) : |u| ≤ a + b := by
  have h1 : Q * |u| = |x + y| := by rw [← h, abs_mul, abs_of_pos hQ]
  have h2 := abs_add_le x y
  have h3 : Q * |u| ≤ Q * (a + b) := by linarith
  exact le_of_mul_le_mul_left h3 hQ

/-- The noise in a product. -/
def noiseBound (N : Nat) (t S V1 V2 : ℤ) : ℤ := N * t * (N * S + 3) * (V1 + V2) + N * V2 + t * (1 + N * S + N * S * (N * S))

theorem product_encodes {N : Nat} (hN : 0 < N) {t Q S V1 V2 : ℤ} (ht : 2 ≤ t) (hQ : 0 < Q)
    {s F0 F1 G0 G1 D0 D1 D2 m1 m2 v1 v2 k1 k2 : Rg N} (hs : Bdd S s)
    (h1 : (t : Rg N) * (F0 + F1 * s) = (Q : Rg N) * m1 + v1 + (t : Rg N) * ((Q : Rg N) * k1))
    (h2 : (t : Rg N) * (G0 + G1 * s) = (Q : Rg N) * m2 + v2 + (t : Rg N) * ((Q : Rg N) * k2))
    (hF0 : ∀ k, k < N → 8 * |cf F0 k| ≤ 5 * Q) (hF1 : ∀ k, k < N → 8 * |cf F1 k| ≤ 5 * Q)
    (hG0 : ∀ k, k < N → 8 * |cf G0 k| ≤ 5 * Q) (hG1 : ∀ k, k < N → 8 * |cf G1 k| ≤ 5 * Q)
    (hm1 : Bdd t m1) (hm2 : Bdd t m2) (hv1 : Bdd V1 v1) (hv2 : Bdd V2 v2) (hV1 : 4 * V1 ≤ Q) (hV2 : 4 * V2 ≤ Q)
    (d0 : Bdd Q ((Q : Rg N) * D0 - (t : Rg N) * (F0 * G0)))
    (d1 : Bdd Q ((Q : Rg N) * D1 - (t : Rg N) * (F0 * G1 + G0 * F1)))
    (d2 : Bdd Q ((Q : Rg N) * D2 - (t : Rg N) * (F1 * G1))) :
    ∃ v w : Rg N, Bdd (noiseBound N t S V1 V2) v ∧
      (t : Rg N) * (D0 + D1 * s + D2 * s ^ 2) = (Q : Rg N) * (m1 * m2) + v + (t : Rg N) * ((Q : Rg N) * w) := by
  have hS := hs.nonneg hN
  have hV1' := hv1.nonneg hN
  have hV2' := hv2.nonneg hN
  have hNS : 0 ≤ (N : ℤ) * S := by positivity
  -- the multiples of Q
  have hk : ∀ {F0 F1 m v k : Rg N} {V : ℤ}, (t : Rg N) * (F0 + F1 * s) = (Q : Rg N) * m + v + (t : Rg N) * ((Q : Rg N) * k) →
      (∀ k, k < N → 8 * |cf F0 k| ≤ 5 * Q) → (∀ k, k < N → 8 * |cf F1 k| ≤ 5 * Q) → Bdd t m → Bdd V v → 4 * V ≤ Q → Bdd (N * S + 2) k := by
    intro F0 F1 m v k V h hF0 hF1 hm hv hV j hj
    have b1 := (bdd8 hN hF0).add hN ((bdd8 hN hF1).mul hN hs)
    have b2 : Bdd (5 * Q + N * (5 * Q) * S) ((8 : ℤ) * (F0 + F1 * s) : Rg N) := by
      have : ((8 : ℤ) : Rg N) * (F0 + F1 * s) = ((8 : ℤ) : Rg N) * F0 + ((8 : ℤ) : Rg N) * F1 * s := by ring
      rw [this]; exact b1
    have b3 := b2 j hj
    rw [cf_int_mul hN, abs_mul, show |(8 : ℤ)| = 8 from rfl] at b3
    have e : (t : Rg N) * ((Q : Rg N) * k) = (t : Rg N) * (F0 + F1 * s) - (Q : Rg N) * m - v := by rw [h]; ring
    have e' := congrArg (fun f => cf f j) e
    simp only [cf_sub hN, cf_int_mul hN] at e'
    exact k_num ht hQ hNS e' (by linarith) (hm j hj) (by have := hv j hj; linarith)
  have hk1 := hk h1 hF0 hF1 hm1 hv1 hV1
  have hk2 := hk h2 hG0 hG1 hm2 hv2 hV2
  set ε0 := (Q : Rg N) * D0 - (t : Rg N) * (F0 * G0) with hε0
  set ε1 := (Q : Rg N) * D1 - (t : Rg N) * (F0 * G1 + G0 * F1) with hε1
  set ε2 := (Q : Rg N) * D2 - (t : Rg N) * (F1 * G1) with hε2
  set D := D0 + D1 * s + D2 * s ^ 2 with hD
  set ε := ε0 + ε1 * s + ε2 * (s * s) with hε
  set u := (t : Rg N) * D - (Q : Rg N) * (m1 * m2) - (t : Rg N) * ((Q : Rg N) * (m1 * k2 + k1 * m2 + (t : Rg N) * (k1 * k2))) -
    (m1 * v2 + v1 * m2 + (t : Rg N) * (k1 * v2 + v1 * k2)) with hu
  have hQu : (Q : Rg N) * u = v1 * v2 + (t : Rg N) * ε := by
    have e1 : (Q : Rg N) * D = (t : Rg N) * ((F0 + F1 * s) * (G0 + G1 * s)) + ε := by
      rw [hD, hε, hε0, hε1, hε2]; ring
    have e2 : (Q : Rg N) * ((t : Rg N) * D) = ((t : Rg N) * (F0 + F1 * s)) * ((t : Rg N) * (G0 + G1 * s)) + (t : Rg N) * ε := by
      rw [show (Q : Rg N) * ((t : Rg N) * D) = (t : Rg N) * ((Q : Rg N) * D) by ring, e1]; ring
    rw [h1, h2] at e2
    rw [hu]
    linear_combination e2
  have hub : Bdd (N * V2 + t * (1 + N * S + N * S * (N * S))) u := by
    intro j hj
    have e := congrArg (fun f => cf f j) hQu
    simp only [cf_add hN, cf_int_mul hN] at e
    refine u_num hQ e ?_ ?_
    · have := hv1.mul hN hv2 j hj
      have h5 : (N : ℤ) * V1 * V2 ≤ Q * (N * V2) := by
        have : (0 : ℤ) ≤ N * V2 := by positivity
        nlinarith
      linarith
    · have b := (d0.add hN (d1.mul hN hs)).add hN (d2.mul hN (hs.mul hN hs)) j hj
      rw [abs_mul, abs_of_pos (by omega : 0 < t)]
      have : t * |cf ε j| ≤ t * (Q + N * Q * S + N * Q * (N * S * S)) := mul_le_mul_of_nonneg_left b (by omega)
      refine this.trans (le_of_eq ?_)
      ring
  refine ⟨m1 * v2 + v1 * m2 + (t : Rg N) * (k1 * v2 + v1 * k2) + u, m1 * k2 + k1 * m2 + (t : Rg N) * (k1 * k2), ?_, ?_⟩
  · have b1 := (hm1.mul hN hv2).add hN (hv1.mul hN hm2)
    have b2 := ((hk1.mul hN hv2).add hN (hv1.mul hN hk2)).int_mul hN t
    rw [abs_of_pos (by omega : 0 < t)] at b2
    refine ((b1.add hN b2).add hN hub).mono (le_of_eq ?_)
    unfold noiseBound
    ring
  · rw [hu]; ring

/-! ### `multiply_with_strategy` -/

theorem multiply_enc {P : BfvParameters} {ext : List Nat} {i : Nat} {L : BfvLevel} (hL : P.At K ext i L) (pr : Profile) {x y : BfvCipherText}
    (hx : x.params = P) (hy : y.params = P) (hxl : x.level = i) (hyl : y.level = i) {f0 f1 g0 g1 F0 F1 G0 G1 D0 D1 D2 : Rg (2 ^ K)}
    (hxc : x.cts = [enc L.qCtx .ntt f0, enc L.qCtx .ntt f1]) (hyc : y.cts = [enc L.qCtx .ntt g0, enc L.qCtx .ntt g1])
    (u0 : L.mul.upScaler.scale pr (enc L.qCtx .ntt f0) = .ok (enc L.eCtx .ntt F0))
    (u1 : L.mul.upScaler.scale pr (enc L.qCtx .ntt f1) = .ok (enc L.eCtx .ntt F1))
    (v0 : L.mul.upScaler.scale pr (enc L.qCtx .ntt g0) = .ok (enc L.eCtx .ntt G0))
    (v1 : L.mul.upScaler.scale pr (enc L.qCtx .ntt g1) = .ok (enc L.eCtx .ntt G1))
    (d0 : L.mul.downScaler.scale pr (enc L.eCtx .ntt (F0 * G0)) = .ok (enc L.qCtx .ntt D0))
    (d1 : L.mul.downScaler.scale pr (enc L.eCtx .ntt (F0 * G1 + G0 * F1)) = .ok (enc L.qCtx .ntt D1))
    (d2 : L.mul.downScaler.scale pr (enc L.eCtx .ntt (F1 * G1)) = .ok (enc L.qCtx .ntt D2))
    {rlk : RelinearizationKey} (hrp : rlk.params = P) {s src : Rg (2 ^ K)} {B : ℤ} {a b : Nat → Rg (2 ^ K)}
    (hrk : Ksk.Holds rlk.ksk L.qCtx s src B a b) :
    ∃ r0 r1 E : Rg (2 ^ K), multiplyWithStrategy pr x y rlk = .ok ⟨P, [enc L.qCtx .ntt (D0 + r0), enc L.qCtx .ntt (D1 + r1)], i⟩ ∧
      Bdd (2 ^ K * L.qCtx.moduli64.sum * B) E ∧ ((L.qCtx.Q : ℤ) : Rg (2 ^ K)) ∣ r0 + r1 * s - (D2 * src + E) := by
  have he := hL.wf.ectx
  have hc := hL.wf.ctx
  obtain ⟨r0, r1, E, y1, y2, y3⟩ := RelinearizationKey.relinearizePoly_enc hc pr hrk (r := .ntt) (by simp) D2
  refine ⟨r0, r1, E, ?_, y2, y3⟩
  unfold multiplyWithStrategy
  rw [rassert_ok (hxl.trans hyl.symm), res_ok_bind, rassert_ok (hx.trans hy.symm), res_ok_bind, rassert_ok (hx.trans hrp.symm), res_ok_bind,
    rassert_ok (show x.cts.length = 2 by rw [hxc]; rfl), res_ok_bind, rassert_ok (show y.cts.length = 2 by rw [hyc]; rfl), res_ok_bind,
    hx, hxl, idx_of hL.mp, res_ok_bind, hxc, hyc]
  simp only [show ∀ a b : Poly, idx [a, b] 0 = .ok a from fun _ _ => rfl, show ∀ a b : Poly, idx [a, b] 1 = .ok b from fun _ _ => rfl,
    res_ok_bind, u0, u1, v0, v1, mul_enc he, add_enc he, d0, d1, d2, y1, add_enc hc]

/-! ### Tapes that produce given polynomials -/

theorem ofList_one : ofList K [1] = (1 : Rg (2 ^ K)) := by
  have hN : 0 < 2 ^ K := by positivity
  apply ext_cf hN
  intro k hk
  unfold ofList
  rw [cf_ofCoeffs hN _ hk, show (1 : Rg (2 ^ K)) = ((1 : ℤ) : Rg (2 ^ K)) by simp, cf_int hN]
  rcases k with _ | k <;> simp

theorem randomSmall_zero {c : RqContext} (h : c.WF K) (pr : Profile) {variance : Nat} (hv1 : 1 ≤ variance) (hv2 : variance ≤ 16) :
    Poly.randomSmall pr c .ntt variance (fun _ => 0) = .ok (enc c .ntt (0 : Rg (2 ^ K))) := by
  have hN : 0 < 2 ^ K := by positivity
  have hz : ∀ i, cbdValue (fun _ => 0) variance i = 0 := by intro i; simp [cbdValue, streamBit]
  unfold Poly.randomSmall
  rw [sampleVecCbd_ok pr (by simp) hv1 hv2, res_ok_bind]
  rw [tryFromVecI64_ok h pr (by simp [h.core.deg]) (fun x hx => by
    rw [List.mem_map] at hx
    obtain ⟨i, -, rfl⟩ := hx
    rw [hz]; norm_num), res_ok_bind, toNtt_enc h]
  congr 2
  apply ext_cf hN
  intro k hk
  unfold ofList
  rw [cf_ofCoeffs hN _ hk, cf_zero hN]
  rcases lt_or_ge k c.degree with h | h
  · rw [NttOperator.getD_map_of_lt _ _ _ 0 _ (by simpa using h)]; exact hz _
  · exact List.getD_eq_default _ _ (by simpa using h)

theorem exists_tape {c : RqContext} (h : c.WF K) (A : Rg (2 ^ K)) : ∃ tape, TapeOk c tape ∧ Poly.random c tape .ntt = enc c .ntt A := by
  have hl : c.moduli.length = c.moduli64.length := by rw [h.core.m64, ← h.core.rns.ps, h.core.mods, List.length_map]
  obtain ⟨v1, v2⟩ := enc_valid h .ntt A
  have v1' : (enc c .ntt A).coefficients.length = c.moduli64.length := v1
  have hpos : ∀ i, i < c.moduli64.length → 0 < c.moduli64.getD i 1 := by
    intro i hi
    obtain ⟨a, b⟩ := v2 i hi
    have hd : 0 < ((enc c .ntt A).coefficients.getD i []).length := by rw [a]; exact h.core.deg ▸ (by positivity)
    exact Nat.lt_of_le_of_lt (Nat.zero_le _) (b _ (List.getElem_mem hd))
  refine ⟨fun i j => ((enc c .ntt A).coefficients.getD i []).getD j 0, ?_, ?_⟩
  · intro i j hi
    obtain ⟨a, b⟩ := v2 i hi
    dsimp only
    rcases lt_or_ge j ((enc c .ntt A).coefficients.getD i []).length with hj | hj
    · rw [List.getD_eq_getElem _ _ hj]; exact b _ (List.getElem_mem hj)
    · rw [List.getD_eq_default _ _ hj]; exact hpos i hi
  · have : ∀ p : Poly, p.context = c → p.representation = .ntt → p.coefficients = (enc c .ntt A).coefficients → p = enc c .ntt A := by
      rintro ⟨x, y, z⟩ hx hy hz
      dsimp only at hx hy hz
      rw [hx, hy, hz]; rfl
    apply this _ rfl rfl
    unfold Poly.random
    apply List.ext_getElem (by simp [v1', hl])
    intro i h1 h2
    have hi : i < c.moduli64.length := by rw [← v1']; exact h2
    obtain ⟨a, b⟩ := v2 i hi
    have e : (enc c .ntt A).coefficients.getD i [] = (enc c .ntt A).coefficients[i] := List.getD_eq_getElem _ _ h2
    have a' : (enc c .ntt A).coefficients[i].length = c.degree := by rw [← e]; exact a
    apply List.ext_getElem (by simp [a'])
    intro j h3 h4
    simp only [List.getElem_map, List.getElem_range]
    rw [List.getD_eq_getElem _ _ h2, List.getD_eq_getElem _ _ h4]

end BfvMul
end OnionPIR
