import Verif.Proofs.BfvMul
import Verif.Props.Ksk
/-
Properties C35 and C50: multiplication of ciphertexts.
-/
namespace OnionPIR
open Rg Spec

variable {N t : Nat} {l : List Nat} {variance : Nat} {P : BfvParameters}

/-! ### C50: relinearized multiplication -/

/-- C50: on well-formed operands `multiply_with_strategy` never panics and returns a two-component ciphertext of the same level. -/
theorem c50_multiply_total (h : IsParams N t l variance P) (pr : Profile) {i : Nat} {x y : BfvCipherText} {f0 f1 g0 g1 : Rg N}
    (hx : IsCt P i [f0, f1] x) (hy : IsCt P i [g0, g1] y) {rlk : RelinearizationKey} (hrp : rlk.params = P) {s src : Rg N} {B : ℤ}
    (hrk : IsKsk P l i s src B rlk.ksk) :
    ∃ z, ∃ r0 r1 : Rg N, multiplyWithStrategy pr x y rlk = .ok z ∧ IsCt P i [r0, r1] z := by
  obtain ⟨K, ext, rfl, hw, rfl, rfl, rfl⟩ := BfvP.params h
  obtain ⟨L, hL⟩ := BfvP.isCt_level hw (by simp) hx
  obtain ⟨x1, x2, x3⟩ := (BfvP.isCt_iff hL _ _).mp hx
  obtain ⟨y1, y2, y3⟩ := (BfvP.isCt_iff hL _ _).mp hy
  obtain ⟨a, b, hh⟩ := BfvP.holds_of_isKsk hL hrk
  obtain ⟨F0, u0, -⟩ := BfvMul.up hw hL pr f0
  obtain ⟨F1, u1, -⟩ := BfvMul.up hw hL pr f1
  obtain ⟨G0, v0, -⟩ := BfvMul.up hw hL pr g0
  obtain ⟨G1, v1, -⟩ := BfvMul.up hw hL pr g1
  obtain ⟨D0, -, d0, -⟩ := BfvMul.down hw hL pr (F0 * G0)
  obtain ⟨D1, -, d1, -⟩ := BfvMul.down hw hL pr (F0 * G1 + G0 * F1)
  obtain ⟨D2, -, d2, -⟩ := BfvMul.down hw hL pr (F1 * G1)
  obtain ⟨r0, r1, E, z1, -⟩ := BfvMul.multiply_enc hL pr x1 y1 x2 y2 x3 y3 u0 u1 v0 v1 d0 d1 d2 hrp hh
  exact ⟨_, _, _, z1, (BfvP.isCt_iff hL _ _).mpr ⟨rfl, rfl, rfl⟩⟩

/-- The scaled operands and the rescaled tensor product of two ciphertexts: its phase in `1, s, s^2` encodes the product of the messages. -/
theorem BfvMul.tensor {K : Nat} {ext : List Nat} (hw : P.WF K ext) {i : Nat} {L : BfvLevel} (hL : P.At K ext i L)
    (hKn : K + P.ciphertextModuli.length ≤ 57) (pr : Profile) {f0 f1 g0 g1 s m1 m2 : Rg (2 ^ K)} {S V1 V2 : ℤ} (hS : Bdd S s)
    (e1 : Encodes P.plaintextModulus L.qCtx.Q m1 (phase s [f0, f1]) V1) (e2 : Encodes P.plaintextModulus L.qCtx.Q m2 (phase s [g0, g1]) V2)
    (hm1 : Bdd P.plaintextModulus m1) (hm2 : Bdd P.plaintextModulus m2) (hV1 : 4 * V1 ≤ L.qCtx.Q) (hV2 : 4 * V2 ≤ L.qCtx.Q) :
    ∃ F0 F1 G0 G1 D0 D1 D2 : Rg (2 ^ K), L.mul.upScaler.scale pr (enc L.qCtx .ntt f0) = .ok (enc L.eCtx .ntt F0) ∧
      L.mul.upScaler.scale pr (enc L.qCtx .ntt f1) = .ok (enc L.eCtx .ntt F1) ∧
      L.mul.upScaler.scale pr (enc L.qCtx .ntt g0) = .ok (enc L.eCtx .ntt G0) ∧
      L.mul.upScaler.scale pr (enc L.qCtx .ntt g1) = .ok (enc L.eCtx .ntt G1) ∧
      L.mul.downScaler.scale pr (enc L.eCtx .ntt (F0 * G0)) = .ok (enc L.qCtx .ntt D0) ∧
      L.mul.downScaler.scale pr (enc L.eCtx .ntt (F0 * G1 + G0 * F1)) = .ok (enc L.qCtx .ntt D1) ∧
      L.mul.downScaler.scale pr (enc L.eCtx .ntt (F1 * G1)) = .ok (enc L.qCtx .ntt D2) ∧
      Encodes P.plaintextModulus L.qCtx.Q (m1 * m2) (D0 + D1 * s + D2 * s ^ 2) (BfvMul.noiseBound (2 ^ K) P.plaintextModulus S V1 V2) := by
  have hN : 0 < 2 ^ K := by positivity
  have hroom : (3 * (2 ^ K : Nat) * (L.qCtx.Q : ℤ) ^ 2 : ℤ) ≤ L.eCtx.Q := by exact_mod_cast BfvMul.room hw hL hKn
  have hQp : (0 : ℤ) < L.qCtx.Q := by exact_mod_cast hL.wf.ctx.Q_pos
  have ht2 : (2 : ℤ) ≤ P.plaintextModulus := by exact_mod_cast hw.t_prime.two_le
  obtain ⟨F0, u0, cF0, bF0⟩ := BfvMul.up hw hL pr f0
  obtain ⟨F1, u1, cF1, bF1⟩ := BfvMul.up hw hL pr f1
  obtain ⟨G0, v0, cG0, bG0⟩ := BfvMul.up hw hL pr g0
  obtain ⟨G1, v1, cG1, bG1⟩ := BfvMul.up hw hL pr g1
  have small : ∀ {F G : Rg (2 ^ K)}, (∀ k, k < 2 ^ K → 8 * |cf F k| ≤ 5 * L.qCtx.Q) → (∀ k, k < 2 ^ K → 8 * |cf G k| ≤ 5 * L.qCtx.Q) →
      Bdd ((2 ^ K : Nat) * (5 * L.qCtx.Q) * (5 * L.qCtx.Q)) (((64 : ℤ) : Rg (2 ^ K)) * (F * G)) := by
    intro F G hF hG
    have := (BfvMul.bdd8 hN hF).mul hN (BfvMul.bdd8 hN hG)
    rw [show ((64 : ℤ) : Rg (2 ^ K)) * (F * G) = ((8 : ℤ) : Rg (2 ^ K)) * F * (((8 : ℤ) : Rg (2 ^ K)) * G) by push_cast; ring]
    exact this
  have hnn : (0 : ℤ) ≤ (2 ^ K : Nat) * (5 * L.qCtx.Q) * (5 * L.qCtx.Q) := by positivity
  obtain ⟨D0, d0, b0⟩ := BfvMul.down_small hw hL pr (F0 * G0) (BfvMul.small_of_bdd hN hQp ((small bF0 bG0).mono (by linarith)) hroom)
  obtain ⟨D1, d1, b1⟩ := BfvMul.down_small hw hL pr (F0 * G1 + G0 * F1) (BfvMul.small_of_bdd hN hQp (by
    rw [show ((64 : ℤ) : Rg (2 ^ K)) * (F0 * G1 + G0 * F1) = ((64 : ℤ) : Rg (2 ^ K)) * (F0 * G1) + ((64 : ℤ) : Rg (2 ^ K)) * (G0 * F1) by ring]
    exact ((small bF0 bG1).add hN (small bG0 bF1)).mono (by linarith)) hroom)
  obtain ⟨D2, d2, b2⟩ := BfvMul.down_small hw hL pr (F1 * G1) (BfvMul.small_of_bdd hN hQp ((small bF1 bG1).mono (by linarith)) hroom)
  -- the phases of the scaled operands
  have lifted : ∀ {f0 f1 F0 F1 m : Rg (2 ^ K)} {V : ℤ}, Encodes P.plaintextModulus L.qCtx.Q m (phase s [f0, f1]) V →
      ((L.qCtx.Q : ℤ) : Rg (2 ^ K)) ∣ F0 - f0 → ((L.qCtx.Q : ℤ) : Rg (2 ^ K)) ∣ F1 - f1 →
      ∃ v k : Rg (2 ^ K), Bdd V v ∧ ((P.plaintextModulus : ℤ) : Rg (2 ^ K)) * (F0 + F1 * s) =
        ((L.qCtx.Q : ℤ) : Rg (2 ^ K)) * m + v + ((P.plaintextModulus : ℤ) : Rg (2 ^ K)) * (((L.qCtx.Q : ℤ) : Rg (2 ^ K)) * k) := by
    rintro f0 f1 F0 F1 m V ⟨v, w, hv, he⟩ ⟨a, ha⟩ ⟨b, hb⟩
    refine ⟨v, w + a + b * s, hv, ?_⟩
    rw [BfvP.phase_two] at he
    linear_combination he + ((P.plaintextModulus : ℤ) : Rg (2 ^ K)) * (ha + s * hb)
  obtain ⟨w1, k1, hw1, hk1⟩ := lifted e1 cF0 cF1
  obtain ⟨w2, k2, hw2, hk2⟩ := lifted e2 cG0 cG1
  obtain ⟨v, w, hv, he⟩ := BfvMul.product_encodes hN ht2 hQp hS hk1 hk2 bF0 bF1 bG0 bG1 hm1 hm2 hw1 hw2 hV1 hV2 b0 b1 b2
  exact ⟨F0, F1, G0, G1, D0, D1, D2, u0, u1, v0, v1, d0, d1, d2, v, w, hv, he⟩

/-- C50: if the operands encode `m1` and `m2` with noise at most `Q/4`, the product encodes `m1 m2` with the stated noise.
The assumption on the degree and the number of moduli guarantees that the product does not wrap around the extended modulus. -/
theorem c50_multiply (h : IsParams N t l variance P) (hNn : N * 2 ^ l.length ≤ 2 ^ 57) (pr : Profile) {i : Nat} {x y : BfvCipherText}
    {f0 f1 g0 g1 : Rg N} (hx : IsCt P i [f0, f1] x) (hy : IsCt P i [g0, g1] y) {rlk : RelinearizationKey} (hrp : rlk.params = P)
    {s m1 m2 : Rg N} {S B V1 V2 : ℤ} (hS : Bdd S s) (hrk : IsKsk P l i s (s ^ 2) B rlk.ksk)
    (e1 : Encodes t (levelQ l i) m1 (phase s [f0, f1]) V1) (e2 : Encodes t (levelQ l i) m2 (phase s [g0, g1]) V2)
    (hm1 : Bdd t m1) (hm2 : Bdd t m2) (hV1 : 4 * V1 ≤ levelQ l i) (hV2 : 4 * V2 ≤ levelQ l i) :
    ∃ z, ∃ r0 r1 : Rg N, multiplyWithStrategy pr x y rlk = .ok z ∧ IsCt P i [r0, r1] z ∧
      Encodes t (levelQ l i) (m1 * m2) (phase s [r0, r1]) (productNoise N t l i S V1 V2 B) := by
  obtain ⟨K, ext, rfl, hw, rfl, rfl, rfl⟩ := BfvP.params h
  have hN : 0 < 2 ^ K := by positivity
  obtain ⟨L, hL⟩ := BfvP.isCt_level hw (by simp) hx
  obtain ⟨x1, x2, x3⟩ := (BfvP.isCt_iff hL _ _).mp hx
  obtain ⟨y1, y2, y3⟩ := (BfvP.isCt_iff hL _ _).mp hy
  obtain ⟨a, b, hh⟩ := BfvP.holds_of_isKsk hL hrk
  have hKn : K + P.ciphertextModuli.length ≤ 57 := by
    rw [← pow_add] at hNn
    exact (Nat.pow_le_pow_iff_right (by norm_num)).mp hNn
  rw [← BfvP.levelQ_eq hL] at e1 e2 hV1 hV2 ⊢
  obtain ⟨F0, F1, G0, G1, D0, D1, D2, u0, u1, v0, v1, d0, d1, d2, henc⟩ := BfvMul.tensor hw hL hKn pr hS e1 e2 hm1 hm2 hV1 hV2
  obtain ⟨r0, r1, E, z1, z2, z3⟩ := BfvMul.multiply_enc hL pr x1 y1 x2 y2 x3 y3 u0 u1 v0 v1 d0 d1 d2 hrp hh
  refine ⟨_, _, _, z1, (BfvP.isCt_iff hL _ _).mpr ⟨rfl, rfl, rfl⟩, ?_⟩
  have hE : Bdd (switchNoise (2 ^ K) P.ciphertextModuli i * B) E := by rw [BfvP.switchNoise_eq hL]; exact z2
  refine BfvP.Encodes.congr (BfvP.Encodes.addError hN henc hE) ?_
  rw [BfvP.phase_two]
  obtain ⟨z, hz⟩ := z3
  exact ⟨z, by linear_combination hz⟩

/-- C50: the product decrypts to the product of the messages in `Z_t[X]/(X^N+1)` if the noise inequality holds. -/
theorem c50_decrypts (h : IsParams N t l variance P) (hNn : N * 2 ^ l.length ≤ 2 ^ 57) {sk : SecretKey} (hk : IsKey P sk) (pr : Profile)
    {i : Nat} {x y : BfvCipherText} {f0 f1 g0 g1 : Rg N} (hx : IsCt P i [f0, f1] x) (hy : IsCt P i [g0, g1] y) {rlk : RelinearizationKey}
    (hrp : rlk.params = P) {m1 m2 : Rg N} {S B V1 V2 : ℤ} (hS : Bdd S (keyRing N sk))
    (hrk : IsKsk P l i (keyRing N sk) (keyRing N sk ^ 2) B rlk.ksk)
    (e1 : Encodes t (levelQ l i) m1 (phase (keyRing N sk) [f0, f1]) V1) (e2 : Encodes t (levelQ l i) m2 (phase (keyRing N sk) [g0, g1]) V2)
    (hm1 : Bdd t m1) (hm2 : Bdd t m2) (hV1 : 4 * V1 ≤ levelQ l i) (hV2 : 4 * V2 ≤ levelQ l i) (h2t : 2 * t ≤ l.getD 0 0)
    (hV : 4 * productNoise N t l i S V1 V2 B ≤ levelQ l i) :
    ∃ z pt, multiplyWithStrategy pr x y rlk = .ok z ∧ sk.decrypt pr z = .ok pt ∧ pt.values = residues t (m1 * m2) := by
  obtain ⟨z, r0, r1, h1, h2, h3⟩ := c50_multiply h hNn pr hx hy hrp hS hrk e1 e2 hm1 hm2 hV1 hV2
  obtain ⟨pt, h4, -, -, h5⟩ := c30_decrypt h hk pr (by simp) h2 h2t h3 hV
  exact ⟨z, pt, h1, h4, h5⟩

/-- C50: mismatched operands panic. -/
theorem c50_mismatch (pr : Profile) (x y : BfvCipherText) (rlk : RelinearizationKey)
    (h : x.level ≠ y.level ∨ x.params ≠ y.params ∨ x.params ≠ rlk.params ∨ x.cts.length ≠ 2 ∨ y.cts.length ≠ 2) :
    multiplyWithStrategy pr x y rlk = .error .assert := by
  unfold multiplyWithStrategy
  by_cases h1 : x.level = y.level
  swap
  · rw [rassert_fail h1]; rfl
  rw [rassert_ok h1, res_ok_bind]
  by_cases h2 : x.params = y.params
  swap
  · rw [rassert_fail h2]; rfl
  rw [rassert_ok h2, res_ok_bind]
  by_cases h3 : x.params = rlk.params
  swap
  · rw [rassert_fail h3]; rfl
  rw [rassert_ok h3, res_ok_bind]
  by_cases h4 : x.cts.length = 2
  swap
  · rw [rassert_fail h4]; rfl
  rw [rassert_ok h4, res_ok_bind]
  by_cases h5 : y.cts.length = 2
  swap
  · rw [rassert_fail h5]; rfl
  tauto

/-- Squaring an actual encryption with an actual relinearization key. -/
example : ∃ P sk ct rlk z pt, IsParams 8 17 Ex.mods 10 P ∧ IsKey P sk ∧
    RelinearizationKey.new .debug sk 0 (fun _ _ _ => 0) (fun _ i => i % 1000) = .ok rlk ∧
    multiplyWithStrategy .debug ct ct rlk = .ok z ∧ sk.decrypt .debug z = .ok pt ∧
    pt.values = residues 17 (msgRing 8 [3, 1, 16, 0, 2, 0, 0, 9] * msgRing 8 [3, 1, 16, 0, 2, 0, 0, 9]) := by
  obtain ⟨P, sk, ct, f0, f1, h, hk, hb, hct, he⟩ := Ex.setup
  obtain ⟨rlk, h1, h2, h3, -⟩ := c38_relinearize h hk .debug .debug (by norm_num) (by norm_num) (i := 0) (by decide) Ex.tapes (fun _ => Ex.wordTape)
  have hm : Bdd ((17 : Nat) : ℤ) (msgRing 8 [3, 1, 16, 0, 2, 0, 0, 9]) := BfvP.msgRing_bdd (K := 3) (by decide)
  obtain ⟨z, pt, h4, h5, h6⟩ := c50_decrypts h (by norm_num [Ex.mods]) hk .debug hct hct h2 hb h3 he he hm hm
    (by rw [Ex.levelQ_mods0]; norm_num) (by rw [Ex.levelQ_mods0]; norm_num) (by decide)
    (by
      unfold productNoise
      rw [Ex.levelQ_mods0, show switchNoise 8 Ex.mods 0 = 8 * (1048609 + 1048721 + 1048897) by decide +kernel]; norm_num)
  exact ⟨P, sk, ct, rlk, z, pt, h, hk, h1, h4, h5, h6⟩

/-! ### C35: the operator `*`

`Mul<&BfvCipherText>` (src/bfv.rs:497-501) overwrites `cs[i + j]` instead of accumulating, so C35 is false. -/

/-- What `ct1 * ct2` computes: with `F` and `G` the centered components of the operands (congruent to them modulo `Q`), the three
components are the scaled products `F0 G0`, `F1 G0` and `F1 G1`; the cross term `F0 G1` is lost. Missing from C35: the term `F0 G1`
in the middle component. -/
theorem c35_mul_partial (h : IsParams N t l variance P) (hNn : N * 2 ^ l.length ≤ 2 ^ 57) (pr : Profile) {i : Nat} {x y : BfvCipherText}
    {f0 f1 g0 g1 : Rg N} (hx : IsCt P i [f0, f1] x) (hy : IsCt P i [g0, g1] y) :
    ∃ z, ∃ F0 F1 G0 G1 D0 D1 D2 : Rg N, x.mul pr y = .ok z ∧ IsCt P i [D0, D1, D2] z ∧
      Cong (levelQ l i) F0 f0 ∧ Cong (levelQ l i) F1 f1 ∧ Cong (levelQ l i) G0 g0 ∧ Cong (levelQ l i) G1 g1 ∧
      (∀ k, k < N → 8 * |cf F0 k| ≤ 5 * (levelQ l i : ℤ) ∧ 8 * |cf F1 k| ≤ 5 * (levelQ l i : ℤ) ∧
        8 * |cf G0 k| ≤ 5 * (levelQ l i : ℤ) ∧ 8 * |cf G1 k| ≤ 5 * (levelQ l i : ℤ)) ∧
      Bdd (levelQ l i) (((levelQ l i : ℤ) : Rg N) * D0 - ((t : ℤ) : Rg N) * (F0 * G0)) ∧
      Bdd (levelQ l i) (((levelQ l i : ℤ) : Rg N) * D1 - ((t : ℤ) : Rg N) * (F1 * G0)) ∧
      Bdd (levelQ l i) (((levelQ l i : ℤ) : Rg N) * D2 - ((t : ℤ) : Rg N) * (F1 * G1)) := by
  obtain ⟨K, ext, rfl, hw, rfl, rfl, rfl⟩ := BfvP.params h
  have hN : 0 < 2 ^ K := by positivity
  obtain ⟨L, hL⟩ := BfvP.isCt_level hw (by simp) hx
  obtain ⟨x1, x2, x3⟩ := (BfvP.isCt_iff hL _ _).mp hx
  obtain ⟨y1, y2, y3⟩ := (BfvP.isCt_iff hL _ _).mp hy
  have hKn : K + P.ciphertextModuli.length ≤ 57 := by
    rw [← pow_add] at hNn
    exact (Nat.pow_le_pow_iff_right (by norm_num)).mp hNn
  have hroom : (3 * (2 ^ K : Nat) * (L.qCtx.Q : ℤ) ^ 2 : ℤ) ≤ L.eCtx.Q := by exact_mod_cast BfvMul.room hw hL hKn
  have hQp : (0 : ℤ) < L.qCtx.Q := by exact_mod_cast hL.wf.ctx.Q_pos
  obtain ⟨F0, u0, cF0, bF0⟩ := BfvMul.up hw hL pr f0
  obtain ⟨F1, u1, cF1, bF1⟩ := BfvMul.up hw hL pr f1
  obtain ⟨G0, v0, cG0, bG0⟩ := BfvMul.up hw hL pr g0
  obtain ⟨G1, v1, cG1, bG1⟩ := BfvMul.up hw hL pr g1
  have small : ∀ {F G : Rg (2 ^ K)}, (∀ k, k < 2 ^ K → 8 * |cf F k| ≤ 5 * L.qCtx.Q) → (∀ k, k < 2 ^ K → 8 * |cf G k| ≤ 5 * L.qCtx.Q) →
      ∀ k, k < 2 ^ K → 8 * |cf (F * G) k| < 3 * (L.eCtx.Q : ℤ) := by
    intro F G hF hG
    apply BfvMul.small_of_bdd hN hQp _ hroom
    have := (BfvMul.bdd8 hN hF).mul hN (BfvMul.bdd8 hN hG)
    rw [show ((64 : ℤ) : Rg (2 ^ K)) * (F * G) = ((8 : ℤ) : Rg (2 ^ K)) * F * (((8 : ℤ) : Rg (2 ^ K)) * G) by push_cast; ring]
    have hnn : (0 : ℤ) ≤ (2 ^ K : Nat) * (5 * L.qCtx.Q) * (5 * L.qCtx.Q) := by positivity
    exact this.mono (by linarith)
  obtain ⟨D0, d0, b0⟩ := BfvMul.down_small hw hL pr (F0 * G0) (small bF0 bG0)
  obtain ⟨D1, d1, b1⟩ := BfvMul.down_small hw hL pr (F1 * G0) (small bF1 bG0)
  obtain ⟨D2, d2, b2⟩ := BfvMul.down_small hw hL pr (F1 * G1) (small bF1 bG1)
  have z1 := BfvMul.mul_enc2 hL pr x1 x2 y2 x3 y3 u0 u1 v0 v1 d0 d1 d2
  rw [BfvP.levelQ_eq hL] at *
  exact ⟨_, F0, F1, G0, G1, D0, D1, D2, z1, (BfvP.isCt_iff hL _ _).mpr ⟨rfl, rfl, rfl⟩, cF0, cF1, cG0, cG1,
    fun k hk => ⟨bF0 k hk, bF1 k hk, bG0 k hk, bG1 k hk⟩, b0, b1, b2⟩

/-- C35 is violated: for every message there are a key and random tapes for which two actual encryptions of the message have a
product whose decryption is zero. -/
theorem c35_mul_wrong (h : IsParams N t l variance P) (hv1 : 1 ≤ variance) (hv2 : variance ≤ 16) (h2t : 2 * t ≤ l.getD 0 0)
    (pr : Profile) {pt : Plaintext} (hp : pt.params = P) (hlev : pt.level = 0) (hlen : pt.values.length ≤ N) (hv : ∀ x ∈ pt.values, x < 2 ^ 64) :
    ∃ sk tape1 tape2 x y z pt', IsKey P sk ∧ TapeAt l 0 tape1 ∧ TapeAt l 0 tape2 ∧
      sk.encrypt pr pt tape1 (fun _ => 0) = .ok x ∧ sk.encrypt pr pt tape2 (fun _ => 0) = .ok y ∧
      x.mul pr y = .ok z ∧ sk.decrypt pr z = .ok pt' ∧ pt'.values = List.replicate N 0 := by
  have h0 := h
  obtain ⟨K, ext, rfl, hw, rfl, rfl, rfl⟩ := BfvP.params h
  have hN : 0 < 2 ^ K := by positivity
  have hl0 : 0 < P.ciphertextModuli.length := List.length_pos_iff.mpr hw.ne
  obtain ⟨L, hL⟩ := hw.levels 0 hl0
  have hc := hL.wf.ctx
  have hk : IsKey P ⟨P, [1]⟩ := ⟨rfl, by rw [hw.deg]; exact hN, by simp⟩
  have hsk := BfvP.key hw hk
  obtain ⟨M, hM, -⟩ := Plaintext.toPoly_enc (p := pt) (by rw [hp]; exact hw) (by rw [hp, hlev]; exact hL) pr hlen hv
  have hr : SecretKey.ring K ⟨P, [1]⟩ = (1 : Rg (2 ^ K)) := BfvMul.ofList_one
  have hE : Poly.randomSmall pr L.qCtx .ntt P.variance (fun _ => 0) = .ok (enc L.qCtx .ntt (0 : Rg (2 ^ K))) := BfvMul.randomSmall_zero hc pr hv1 hv2
  have enc1 : ∀ A : Rg (2 ^ K), ∃ tape, TapeAt P.ciphertextModuli 0 tape ∧
      (⟨P, [1]⟩ : SecretKey).encrypt pr pt tape (fun _ => 0) = .ok ⟨P, [enc L.qCtx .ntt (M - A), enc L.qCtx .ntt A], 0⟩ := by
    intro A
    obtain ⟨tape, h1, h2⟩ := BfvMul.exists_tape hc A
    refine ⟨tape, ?_, ?_⟩
    · unfold TapeOk at h1; rw [hL.wf.mods] at h1; exact h1
    · unfold SecretKey.encrypt
      rw [hM, res_ok_bind]
      unfold SecretKey.encryptPoly
      simp only [show ∀ f : Rg (2 ^ K), (enc L.qCtx .ntt f).context = L.qCtx from fun _ => rfl, SecretKey.polyNtt_enc hsk pr hc, res_ok_bind, h2,
        Poly.mul_enc hc, hE, Poly.sub_enc hc, Poly.add_enc hc, hr]
      rw [show (0 : Rg (2 ^ K)) - A * 1 + M = M - A by ring]
  obtain ⟨tape1, t1, c1⟩ := enc1 0
  obtain ⟨tape2, t2, c2⟩ := enc1 M
  rw [sub_zero] at c1
  rw [sub_self] at c2
  obtain ⟨F0, u0, -⟩ := BfvMul.up hw hL pr M
  have z0 := BfvMul.up_zero hw hL pr
  have w0 := BfvMul.down_zero hw hL pr
  have hz := BfvMul.mul_enc2 hL pr (x := ⟨P, [enc L.qCtx .ntt M, enc L.qCtx .ntt 0], 0⟩) (y := ⟨P, [enc L.qCtx .ntt 0, enc L.qCtx .ntt M], 0⟩)
    rfl rfl rfl rfl rfl u0 z0 z0 u0 (by rw [mul_zero]; exact w0) (by rw [mul_zero]; exact w0) (by rw [zero_mul]; exact w0)
  obtain ⟨pt', d1, -, -, d2⟩ := c30_decrypt (ct := ⟨P, [enc L.qCtx .ntt 0, enc L.qCtx .ntt 0, enc L.qCtx .ntt 0], 0⟩) (m := 0) (V := 0) h0 hk pr
    (fs := [0, 0, 0]) (by simp) ((BfvP.isCt_iff hL _ _).mpr ⟨rfl, rfl, rfl⟩) h2t
    ⟨0, 0, Bdd.zero hN, by simp [phase]⟩ (by simp)
  refine ⟨_, tape1, tape2, _, _, _, pt', hk, t1, t2, c1, c2, hz, d1, ?_⟩
  rw [d2]
  unfold residues
  apply List.ext_getElem (by simp)
  intro k h1 h2
  simp [cf_zero hN]

/-- The product of two encryptions of 1 decrypts to 0 although the product of the messages is 1. -/
example : ∃ P sk tape1 tape2 x y z pt', ∃ pt : Plaintext, IsParams 8 17 Ex.mods 10 P ∧ IsKey P sk ∧ pt.params = P ∧ pt.values = [1] ∧
    sk.encrypt .debug pt tape1 (fun _ => 0) = .ok x ∧ sk.encrypt .debug pt tape2 (fun _ => 0) = .ok y ∧
    x.mul .debug y = .ok z ∧ sk.decrypt .debug z = .ok pt' ∧ pt'.values = List.replicate 8 0 ∧
    residues 17 (msgRing 8 pt.values * msgRing 8 pt.values) ≠ List.replicate 8 0 := by
  obtain ⟨P, h⟩ := Ex.exists_params
  obtain ⟨sk, tape1, tape2, x, y, z, pt', h1, -, -, h2, h3, h4, h5, h6⟩ := c35_mul_wrong h (by norm_num) (by norm_num) (by decide) .debug
    (pt := ⟨P, 0, .poly, [1]⟩) rfl rfl (by norm_num) (by simp)
  refine ⟨P, sk, tape1, tape2, x, y, z, pt', _, h, h1, rfl, rfl, h2, h3, h4, h5, h6, ?_⟩
  have h1 : msgRing (2 ^ 3) [1] = (1 : Rg (2 ^ 3)) := by rw [BfvP.msgRing_eq (K := 3)]; exact BfvMul.ofList_one
  have h2 : residues 17 (msgRing (2 ^ 3) [1] * msgRing (2 ^ 3) [1]) ≠ List.replicate 8 0 := by
    rw [h1, mul_one, ← h1, residues_msgRing]
    decide
  exact h2

/-- The hypotheses of the remaining statements of C35 and C50 hold for actual encryptions, and a level mismatch is rejected. -/
example : ∃ P sk ct rlk z z', ∃ r0 r1 D0 D1 D2 : Rg 8, IsParams 8 17 Ex.mods 10 P ∧ IsKey P sk ∧
    RelinearizationKey.new .debug sk 0 (fun _ _ _ => 0) (fun _ i => i % 1000) = .ok rlk ∧
    multiplyWithStrategy .debug ct ct rlk = .ok z ∧ IsCt P 0 [r0, r1] z ∧
    Encodes 17 (levelQ Ex.mods 0) (msgRing 8 [3, 1, 16, 0, 2, 0, 0, 9] * msgRing 8 [3, 1, 16, 0, 2, 0, 0, 9]) (phase (keyRing 8 sk) [r0, r1])
      (productNoise 8 17 Ex.mods 0 20 374 374 20) ∧
    (∃ z1, multiplyWithStrategy .release ct ct rlk = .ok z1) ∧
    multiplyWithStrategy .debug ct { ct with level := 1 } rlk = .error .assert ∧ ct.mul .debug ct = .ok z' ∧ IsCt P 0 [D0, D1, D2] z' := by
  obtain ⟨P, sk, ct, f0, f1, h, hk, hb, hct, he⟩ := Ex.setup
  obtain ⟨rlk, h1, h2, h3, -⟩ := c38_relinearize h hk .debug .debug (by norm_num) (by norm_num) (i := 0) (by decide) Ex.tapes (fun _ => Ex.wordTape)
  have hm : Bdd ((17 : Nat) : ℤ) (msgRing 8 [3, 1, 16, 0, 2, 0, 0, 9]) := BfvP.msgRing_bdd (K := 3) (by decide)
  obtain ⟨z, r0, r1, h4, h5, h6⟩ := c50_multiply h (by norm_num [Ex.mods]) .debug hct hct h2 hb h3 he he hm hm
    (by rw [Ex.levelQ_mods0]; norm_num) (by rw [Ex.levelQ_mods0]; norm_num)
  obtain ⟨z1, -, -, h7, -⟩ := c50_multiply_total h .release hct hct h2 h3
  obtain ⟨z', -, -, -, -, D0, D1, D2, h8, h9, -⟩ := c35_mul_partial h (by norm_num [Ex.mods]) .debug hct hct
  exact ⟨P, sk, ct, rlk, z, z', r0, r1, D0, D1, D2, h, hk, h1, h4, h5, by simpa using h6, ⟨z1, h7⟩,
    c50_mismatch .debug ct _ rlk (.inl (by rw [hct.2.1]; simp)), h8, h9⟩

end OnionPIR
