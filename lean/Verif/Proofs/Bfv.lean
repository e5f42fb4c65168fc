import Verif.Proofs.BfvParams
import Verif.Proofs.Utils
/- Plaintexts, secret keys and ciphertexts as ring elements. -/
namespace OnionPIR
open Rg Poly

variable {K : Nat}

theorem ofList_bdd {B : ℤ} (hB : 0 ≤ B) {l : List ℤ} (h : ∀ x ∈ l, |x| ≤ B) : Bdd B (ofList K l) := by
  intro k hk
  unfold ofList
  rw [cf_ofCoeffs (by positivity) _ hk]
  rcases lt_or_ge k l.length with hlt | hge
  · rw [List.getD_eq_getElem _ _ hlt]; exact h _ (List.getElem_mem hlt)
  · rw [List.getD_eq_default _ _ hge]; simpa using hB

/-! ### Random polynomials -/

/-- A tape for `Poly::random`: every value is below its modulus. -/
def TapeOk (c : RqContext) (tape : Nat → Nat → Nat) : Prop := ∀ i j, i < c.moduli64.length → tape i j < c.moduli64.getD i 1

theorem random_enc {c : RqContext} (h : c.WF K) {tape : Nat → Nat → Nat} (ht : TapeOk c tape) :
    ∃ a : Rg (2 ^ K), Poly.random c tape .ntt = enc c .ntt a := by
  have hl : c.moduli.length = c.moduli64.length := by rw [h.core.m64, ← h.core.rns.ps, h.core.mods, List.length_map]
  have hv : (Poly.random c tape .ntt).Valid := by
    refine ⟨by simp [Poly.random, hl], fun i hi => ?_⟩
    have hi' : i < c.moduli64.length := hi
    rw [show (Poly.random c tape .ntt).coefficients = (List.range c.moduli.length).map
        (fun i => (List.range c.degree).map fun j => tape i j) from rfl,
      NttOperator.getD_map_of_lt _ _ _ 0 _ (by simpa [hl] using hi')]
    refine ⟨by simp [Poly.random], ?_⟩
    intro x hx
    rw [List.mem_map] at hx
    obtain ⟨j, -, rfl⟩ := hx
    have := ht i j hi'
    rw [show (List.range c.moduli.length).getD i 0 = i by simp [List.getD, hl, hi']]
    exact this
  obtain ⟨f, hf, -⟩ := exists_enc (p := Poly.random c tape .ntt) h (by simp [Poly.random]) hv
  exact ⟨f, hf⟩

theorem randomSmall_enc {c : RqContext} (h : c.WF K) (pr : Profile) {variance : Nat} (hv1 : 1 ≤ variance) (hv2 : variance ≤ 16)
    {rng : Nat → Nat} (hr : ∀ i, rng i < 2 ^ 64) :
    ∃ e : Rg (2 ^ K), Poly.randomSmall pr c .ntt variance rng = .ok (enc c .ntt e) ∧ Bdd (2 * variance) e := by
  unfold Poly.randomSmall
  rw [sampleVecCbd_ok pr hr hv1 hv2, res_ok_bind]
  have hb : ∀ x ∈ (List.range c.degree).map (cbdValue rng variance), |x| ≤ 2 * variance := by
    intro x hx
    rw [List.mem_map] at hx
    obtain ⟨i, -, rfl⟩ := hx
    exact abs_le.mpr (cbdValue_bound rng variance i)
  rw [tryFromVecI64_ok h pr (by simp [h.core.deg]) (fun x hx => by have := abs_le.mp (hb x hx); omega), res_ok_bind, toNtt_enc h]
  exact ⟨_, rfl, ofList_bdd (by positivity) hb⟩

/-! ### Secret keys -/

namespace SecretKey

/-- The secret key as a ring element. -/
noncomputable def ring (K : Nat) (sk : SecretKey) : Rg (2 ^ K) := ofList K sk.coeffs

structure WF (K : Nat) (sk : SecretKey) (ext : List Nat) : Prop where
  params : sk.params.WF K ext
  len : sk.coeffs.length ≤ 2 ^ K
  bound : ∀ x ∈ sk.coeffs, -2 ^ 63 ≤ x ∧ x < 2 ^ 63

theorem polyNtt_enc {sk : SecretKey} {ext : List Nat} (h : sk.WF K ext) (pr : Profile) {c : RqContext} (hc : c.WF K) :
    sk.polyNtt pr c = .ok (enc c .ntt (sk.ring K)) := by
  unfold polyNtt
  rw [tryFromVecI64_ok hc pr h.len h.bound, res_ok_bind, toNtt_enc hc]
  rfl

/-! ### Phases -/

/-- `c0 + c1*s + c2*s^2 + …`. -/
noncomputable def phaseOf {N : Nat} (s : Rg N) : List (Rg N) → Rg N
  | [] => 0
  | f :: fs => f + s * phaseOf s fs

theorem phase_fold {c : RqContext} (hc : c.WF K) (pr : Profile) (s : Rg (2 ^ K)) (fs : List (Rg (2 ^ K))) (m si : Rg (2 ^ K)) :
    ∃ si', foldR (phaseStep pr (enc c .ntt s)) (enc c .ntt m, enc c .ntt si) (fs.map (enc c .ntt)) =
      .ok (enc c .ntt (m + si * phaseOf s fs), si') := by
  induction fs generalizing m si with
  | nil => exact ⟨_, by simp [phaseOf]; rfl⟩
  | cons f fs ih =>
    obtain ⟨x, hx⟩ := ih (m + si * f) (si * s)
    refine ⟨x, ?_⟩
    rw [List.map_cons, foldR_cons]
    have hst : phaseStep pr (enc c .ntt s) (enc c .ntt m, enc c .ntt si) (enc c .ntt f) =
        .ok (enc c .ntt (m + si * f), enc c .ntt (si * s)) := by
      unfold phaseStep
      simp only [mul_enc hc, add_enc hc, res_ok_bind]
    rw [hst, res_ok_bind, hx, phaseOf]
    congr 3; ring

theorem phase_enc {sk : SecretKey} {ext : List Nat} (h : sk.WF K ext) (pr : Profile) {c : RqContext} (hc : c.WF K)
    {fs : List (Rg (2 ^ K))} (hne : fs ≠ []) :
    sk.phase pr (fs.map (enc c .ntt)) = .ok (enc c .ntt (phaseOf (sk.ring K) fs)) := by
  cases fs with
  | nil => exact absurd rfl hne
  | cons f fs =>
    unfold phase
    rw [List.map_cons, show idx (enc c .ntt f :: fs.map (enc c .ntt)) 0 = .ok (enc c .ntt f) from rfl, res_ok_bind,
      show (enc c .ntt f).context = c from rfl, polyNtt_enc h pr hc, res_ok_bind]
    obtain ⟨x, hx⟩ := phase_fold hc pr (sk.ring K) fs f (sk.ring K)
    rw [show (enc c .ntt f :: fs.map (enc c .ntt)).drop 1 = fs.map (enc c .ntt) from rfl, hx, res_ok_bind]
    rfl

end SecretKey

/-! ### Plaintexts -/

namespace Plaintext

theorem scalarMulVec_ok {m : Modulus} (h : m.WF) (pr : Profile) {b : Nat} (hb : b < m.p) (a : List Nat) (ha : ∀ x ∈ a, x < 2 ^ 64) :
    ∃ r, m.scalarMulVec pr a b = .ok r ∧ r.length = a.length ∧
      ∀ k, k < a.length → r.getD k 0 < 2 * m.p ∧ r.getD k 0 % m.p = a.getD k 0 * b % m.p := by
  unfold Modulus.scalarMulVec
  rw [Modulus.shoup_ok h pr hb, res_ok_bind]
  induction a with
  | nil => exact ⟨[], rfl, rfl, by simp⟩
  | cons x a ih =>
    obtain ⟨r, h1, h2, h3⟩ := ih (fun y hy => ha y (by simp [hy]))
    obtain ⟨v, v1, v2, v3⟩ := Modulus.lazyMulShoup_ok h pr (ha x (by simp)) hb
    refine ⟨v :: r, by simp only [mapR, v1, h1, res_ok_bind], by simp [h2], ?_⟩
    intro k hk
    cases k with
    | zero => simpa using ⟨v2, v3⟩
    | succ k => simpa using h3 k (by simpa using hk)

/-- `to_poly` scales the message by `Q/t`, rounding down by less than two units. -/
theorem toPoly_enc {p : Plaintext} {ext : List Nat} (hP : p.params.WF K ext) {L : BfvLevel} (hL : p.params.At K ext p.level L)
    (pr : Profile) (hlen : p.values.length ≤ 2 ^ K) (hv : ∀ x ∈ p.values, x < 2 ^ 64) :
    ∃ M : Rg (2 ^ K), p.toPoly pr = .ok (enc L.qCtx .ntt M) ∧ ∀ k, k < 2 ^ K → ∃ r : ℤ, 0 ≤ r ∧ r < 2 * p.params.plaintextModulus ∧
      (p.params.plaintextModulus : ℤ) * cf M k = L.qCtx.Q * (p.values.getD k 0 : ℤ) - r := by
  have hN : 0 < 2 ^ K := by positivity
  set t := p.params.plaintextModulus with htd
  have ht0 : 0 < t := hP.t_prime.pos
  set Q := L.qCtx.Q with hQ
  have hc := hL.wf.ctx
  obtain ⟨d, hd, hdQ⟩ := hL.wf.delta
  obtain ⟨tm, htm, htp, htw⟩ := Modulus.new_ok (p := t) hP.t_prime.two_le hP.t_lt
  have hb : L.qModT < tm.p := by rw [hL.wf.qModT, htp]; exact Nat.mod_lt _ ht0
  obtain ⟨r, r1, r2, r3⟩ := scalarMulVec_ok htw pr hb p.values hv
  have htl := hP.t_lt
  have hr64 : ∀ x ∈ r, x < 2 ^ 64 := by
    intro x hx
    obtain ⟨k, hk, rfl⟩ := List.getElem_of_mem hx
    have := (r3 k (by omega)).1
    rw [getD_eq_getElem' _ _ _ hk] at this
    omega
  set R : Nat → ℤ := fun k => (r.getD k 0 : ℤ) with hR
  have hRb : ∀ k, 0 ≤ R k ∧ R k < 2 * t ∧ (t : ℤ) ∣ Q * (p.values.getD k 0 : ℤ) - R k := by
    intro k
    by_cases hk : k < p.values.length
    · obtain ⟨h1, h2⟩ := r3 k hk
      rw [htp] at h1 h2
      refine ⟨by simp [hR], by simp only [hR]; exact_mod_cast h1, ?_⟩
      have h3 : Q * p.values.getD k 0 ≡ r.getD k 0 [MOD t] := by
        unfold Nat.ModEq
        rw [h2, hL.wf.qModT, Nat.mul_mod, Nat.mul_mod (p.values.getD k 0), Nat.mul_comm, Nat.mod_mod]
      have := (Int.natCast_modEq_iff.mpr h3).symm.dvd
      simpa [hR] using this
    · rw [List.getD_eq_default _ _ (by omega)]
      have : R k = 0 := by simp only [hR]; rw [List.getD_eq_default _ _ (by omega)]; rfl
      rw [this]; simp; omega
  refine ⟨ofCoeffs _ fun k => (Q * (p.values.getD k 0 : ℤ) - R k) / t, ?_, ?_⟩
  · unfold toPoly
    rw [idx_of hL.qmt, res_ok_bind, idx_of hL.q, res_ok_bind, idx_of hL.del, res_ok_bind, htm, res_ok_bind, r1, res_ok_bind,
      tryFromVecU64_ok hc pr (by omega) hr64, res_ok_bind, toNtt_enc hc, res_ok_bind, hd, mul_enc hc]
    congr 1
    apply enc_congr hc
    rw [dvd_iff hN]
    intro k hk
    rw [cf_sub hN, mul_comm, cf_int_mul hN, cf_ofCoeffs hN _ hk]
    have h1 : cf (ofList K (r.map (fun x : Nat => (x : ℤ)))) k = R k := by
      unfold ofList
      rw [cf_ofCoeffs hN _ hk]
      simp only [hR, List.getD, List.getElem?_map]
      cases r[k]? <;> simp
    rw [h1]
    obtain ⟨h2, h3, w, hw⟩ := hRb k
    rw [hw, Int.mul_ediv_cancel_left _ (by omega)]
    -- `Q ∣ d R - w`, since `t w = Q m - R` and `d t ≡ -1`
    obtain ⟨z, hz⟩ := hdQ
    have : d * R k - w = (Q : ℤ) * (d * p.values.getD k 0 - z * w) := by
      have h5 : R k = Q * (p.values.getD k 0 : ℤ) - t * w := by linarith
      rw [h5]
      linear_combination (-w) * hz
    exact ⟨_, this⟩
  · intro k hk
    obtain ⟨h2, h3, w, hw⟩ := hRb k
    refine ⟨R k, h2, h3, ?_⟩
    rw [cf_ofCoeffs hN _ hk, hw, Int.mul_ediv_cancel_left _ (by omega), ← hw]

end Plaintext

/-! ### Encryption -/

namespace SecretKey

theorem encryptPoly_enc {sk : SecretKey} {ext : List Nat} (h : sk.WF K ext) (pr : Profile) {c : RqContext} (hc : c.WF K)
    (hv1 : 1 ≤ sk.params.variance) (hv2 : sk.params.variance ≤ 16) (M : Rg (2 ^ K)) {aTape : Nat → Nat → Nat} (ha : TapeOk c aTape)
    {rng : Nat → Nat} (hr : ∀ i, rng i < 2 ^ 64) :
    ∃ a e : Rg (2 ^ K), Bdd (2 * sk.params.variance) e ∧
      sk.encryptPoly pr (enc c .ntt M) aTape rng =
        .ok { params := sk.params, cts := [enc c .ntt (e - a * sk.ring K + M), enc c .ntt a], level := 0 } := by
  obtain ⟨a, ha⟩ := random_enc hc ha
  obtain ⟨e, he, hb⟩ := randomSmall_enc hc pr hv1 hv2 hr
  refine ⟨a, e, hb, ?_⟩
  unfold encryptPoly
  simp only [show (enc c .ntt M).context = c from rfl, polyNtt_enc h pr hc, res_ok_bind, ha, mul_enc hc, he, sub_enc hc, add_enc hc]

/-! ### Decryption -/

theorem addVec_plain (pr : Profile) {t : Nat} (row : List Nat) (h : ∀ x ∈ row, x + t < 2 ^ 64) :
    mapR (fun a => addW 64 pr a t) row = .ok (row.map (· + t)) := mapR_ok (fun x hx => addW_ok (h x hx))

theorem scale_bound1 {Q : Nat} {x : ℤ} (h : 2 ^ 191 * |x| ≤ (Q : ℤ) * (2 ^ 190 + ((2 ^ 94 : Nat) : ℤ) * ((max (2 ^ 94) (2 ^ 63) : Nat) : ℤ))) :
    8 * |x| ≤ 5 * Q := by
  have e : max (2 ^ 94) (2 ^ 63) = 2 ^ 94 := by norm_num
  rw [e, Nat.cast_pow] at h
  have : (2 : ℤ) ^ 191 = 2 ^ 188 * 8 := by norm_num
  have : (2 : ℤ) ^ 190 + ((2 : Nat) : ℤ) ^ 94 * ((2 : Nat) : ℤ) ^ 94 = 2 ^ 188 * 5 := by norm_num
  have h0 : (0 : ℤ) < 2 ^ 188 := by positivity
  nlinarith

theorem scale_bound2 {Q : Nat} {x : ℤ} (h : 2 ^ 127 * |x| ≤ (Q : ℤ) * (2 ^ 126 + 2 * ((2 ^ 94 : Nat) : ℤ))) :
    2 ^ 32 * |x| ≤ Q * (2 ^ 31 + 1) := by
  rw [Nat.cast_pow] at h
  have e1 : (2 : ℤ) ^ 127 = 2 ^ 95 * 2 ^ 32 := by norm_num
  have e2 : (2 : ℤ) ^ 126 + 2 * ((2 : Nat) : ℤ) ^ 94 = 2 ^ 95 * (2 ^ 31 + 1) := by norm_num
  have h0 : (0 : ℤ) < 2 ^ 95 := by positivity
  rw [e1, e2] at h
  have : (2 : ℤ) ^ 95 * (2 ^ 32 * |x|) ≤ 2 ^ 95 * (Q * (2 ^ 31 + 1)) := by linarith
  exact le_of_mul_le_mul_left this h0

/-- Rounding `t x / Q` recovers the message. -/
theorem decrypt_num {Q t x y phi m v w z : ℤ} (hQ : 0 < Q) (ht : 2 ≤ t) (hz : x - phi = Q * z) (hx : 8 * |x| ≤ 5 * Q)
    (hy : 2 ^ 32 * |Q * y - t * x| ≤ Q * (2 ^ 31 + 1)) (hphi : t * phi = Q * m + v + t * Q * w) (hv : 4 * |v| ≤ Q) :
    -t < y ∧ y < t ∧ y - m = t * (z + w) := by
  have hu : y - m - t * (z + w) = 0 := by
    set u := y - m - t * (z + w) with hu
    have e2 : Q * y - t * x = Q * u - v := by
      have : x = phi + Q * z := by linarith
      rw [this, hu, mul_add, hphi]; ring
    rw [e2] at hy
    have a1 := abs_le.mp (le_refl |v|)
    by_contra hne
    rcases lt_or_gt_of_ne hne with hlt | hgt
    · have h1 : Q * u ≤ -Q := by nlinarith
      have h2 := neg_abs_le (Q * u - v)
      linarith
    · have h1 : Q ≤ Q * u := by nlinarith
      have h2 := le_abs_self (Q * u - v)
      linarith
  have b2 := abs_le.mp (le_refl |x|)
  have b5 : 2 * Q ≤ Q * t := by nlinarith
  have b6 : t * (8 * |x|) ≤ t * (5 * Q) := mul_le_mul_of_nonneg_left hx (by linarith)
  have b7 : |t * x| = t * |x| := by rw [abs_mul, abs_of_nonneg (by linarith : (0 : ℤ) ≤ t)]
  have b8 := abs_le.mp (le_refl |t * x|)
  rw [b7] at b8
  have b9 := abs_le.mp (le_refl |Q * y - t * x|)
  refine ⟨?_, ?_, by linarith⟩
  · by_contra hle
    have b3 : Q * y ≤ Q * -t := mul_le_mul_of_nonneg_left (by linarith) hQ.le
    linarith [b8.1, b9.1]
  · by_contra hle
    have b3 : Q * t ≤ Q * y := mul_le_mul_of_nonneg_left (by linarith) hQ.le
    linarith [b8.2, b9.2]

theorem _root_.OnionPIR.BfvParameters.At.head {P : BfvParameters} {ext : List Nat} {i : Nat} {L : BfvLevel} (hL : P.At K ext i L) :
    L.qCtx.moduli64.getD 0 0 = P.ciphertextModuli.getD 0 0 := by
  rw [hL.wf.mods]
  have := hL.lt
  have : 0 < P.ciphertextModuli.length - i := by omega
  simp only [List.getD, List.getElem?_take, this, if_true]

theorem _root_.OnionPIR.BfvParameters.At.head_mem {P : BfvParameters} {ext : List Nat} {i : Nat} {L : BfvLevel} (hL : P.At K ext i L) :
    P.ciphertextModuli.getD 0 0 ∈ L.qCtx.moduli64 := by
  rw [← hL.head]
  have h0 : 0 < L.qCtx.moduli64.length := List.length_pos_iff.mpr hL.wf.ctx.core.ne
  rw [getD_eq_getElem' _ _ _ h0]; exact List.getElem_mem h0

theorem _root_.OnionPIR.BfvParameters.At.t_lt_Q {P : BfvParameters} {ext : List Nat} (hP : P.WF K ext) {i : Nat} {L : BfvLevel} (hL : P.At K ext i L) :
    P.plaintextModulus < L.qCtx.Q := by
  have h1 := Nat.le_of_dvd hL.wf.ctx.Q_pos (List.dvd_prod hL.head_mem)
  have h2 := hP.lt_q _ (List.mem_of_mem_take (hL.wf.mods ▸ hL.head_mem))
  omega

theorem len_le {P : BfvParameters} {ext : List Nat} (hP : P.WF K ext) {i : Nat} {L : BfvLevel} (hL : P.At K ext i L) :
    L.qCtx.moduli64.length ≤ 2 ^ 30 := by
  rw [hL.wf.mods, List.length_take]; have := hP.len; omega

theorem prod_le {c : RqContext} (hc : c.WF K) (hl : c.moduli64.length ≤ 2 ^ 32) :
    ∀ q ∈ c.moduli64, c.moduli64.length * q ≤ 2 ^ 94 := by
  intro q hq
  have := (hc.bound hq).2
  calc _ ≤ 2 ^ 32 * 2 ^ 62 := Nat.mul_le_mul hl this.le
    _ = 2 ^ 94 := by norm_num

/-- Decryption of any well-formed ciphertext: the phase is scaled by `t/Q`, rounded, shifted by `t` and reduced. -/
theorem decrypt_scaled {sk : SecretKey} {ext : List Nat} (h : sk.WF K ext) (pr : Profile) {ct : BfvCipherText} {L : BfvLevel}
    (hL : sk.params.At K ext ct.level L) {fs : List (Rg (2 ^ K))} (hne : fs ≠ []) (hct : ct.cts = fs.map (enc L.qCtx .ntt))
    {B : Nat} (hB : ∀ q ∈ L.qCtx.moduli64, L.qCtx.moduli64.length * q ≤ B) :
    ∃ x y : Nat → ℤ, (∀ k, k < 2 ^ K → (L.qCtx.Q : ℤ) ∣ x k - cf (phaseOf (sk.ring K) fs) k ∧
      2 ^ 191 * |x k| ≤ L.qCtx.Q * (2 ^ 190 + B * max B (2 ^ 63)) ∧
      2 ^ 127 * |L.qCtx.Q * y k - sk.params.plaintextModulus * x k| ≤ L.qCtx.Q * (2 ^ 126 + 2 * B)) ∧
    sk.decrypt pr ct = .ok ⟨sk.params, ct.level, .none, (List.range (2 ^ K)).map fun k =>
      ((y k % (sk.params.ciphertextModuli.getD 0 0 : ℤ)).toNat + sk.params.plaintextModulus) % sk.params.ciphertextModuli.getD 0 0 %
        sk.params.plaintextModulus⟩ := by
  have hN : 0 < 2 ^ K := by positivity
  have hP := h.params
  have htQ := (hL.t_lt_Q hP).ne
  set t := sk.params.plaintextModulus with htd
  have ht2 : 2 ≤ t := hP.t_prime.two_le
  have htl := hP.t_lt
  set Q := L.qCtx.Q with hQ
  have hc := hL.wf.ctx
  have hQp : 0 < Q := hc.Q_pos
  set φ := phaseOf (sk.ring K) fs with hφ
  obtain ⟨pr', hsc⟩ := hL.wf.scalar
  have hlen := len_le hP hL
  -- the first modulus
  have hqhead := hL.head
  have hne2 := hc.core.ne
  set q0 := sk.params.ciphertextModuli.getD 0 0 with hq0
  have hpt := hP.pt
  have hq0m : q0 ∈ sk.params.ptCtx.moduli64 := by rw [hP.pt_mods]; exact List.mem_singleton.mpr rfl
  have hq0l := hpt.bound hq0m
  obtain ⟨x, y, hxy, hscale, -⟩ := RqScaler.scale_enc hc hpt pr (by omega) hQp hsc (Or.inl (Dvd.intro_left _ rfl))
    (fun he => absurd he htQ) hB φ
  refine ⟨x, y, fun k hk => ⟨(hxy k hk).1, (hxy k hk).2.1, (hxy k hk).2.2.1⟩, ?_⟩
  -- the code
  unfold decrypt
  rw [hct, phase_enc h pr hc hne, res_ok_bind, toPower_enc hc, res_ok_bind, idx_of hL.sc, res_ok_bind, hscale, res_ok_bind]
  have hrow : (enc sk.params.ptCtx .powerBasis (ofCoeffs (2 ^ K) y)).coefficients = [rowP (ofCoeffs (2 ^ K) y) q0] := by
    have : (enc sk.params.ptCtx .powerBasis (ofCoeffs (2 ^ K) y)).coefficients = encRows sk.params.ptCtx .powerBasis (ofCoeffs (2 ^ K) y) := rfl
    rw [this, encRows_power hpt, hP.pt_mods]; rfl
  rw [hrow, show idx [rowP (ofCoeffs (2 ^ K) y) q0] 0 = .ok (rowP (ofCoeffs (2 ^ K) y) q0) from rfl, res_ok_bind,
    addVec_plain pr _ (fun a ha => by have := rowP_lt _ (by omega : 0 < q0) a ha; omega), res_ok_bind,
    takeR_ok (by simp [hP.deg, length_rowP]), res_ok_bind, hP.deg, List.take_of_length_le (by simp [length_rowP]), idx_of hL.q, res_ok_bind]
  have hm0 : ∃ m0, idx L.qCtx.moduli 0 = .ok m0 ∧ m0.WF ∧ m0.p = q0 := by
    have hmm : L.qCtx.moduli.map Modulus.p = L.qCtx.moduli64 := by rw [hc.core.mods, hc.core.rns.ps, hc.core.m64]
    cases hml : L.qCtx.moduli with
    | nil => rw [hml] at hmm; exact absurd hmm.symm hne2
    | cons m0 ms =>
      refine ⟨m0, rfl, hc.core.mod_wf (by rw [hml]; simp), ?_⟩
      rw [← hqhead, ← hmm, hml]; rfl
  obtain ⟨m0, hm0, hm0w, hm0p⟩ := hm0
  obtain ⟨tm, htm, htp, htw⟩ := Modulus.new_ok (p := t) ht2 htl
  rw [hm0, res_ok_bind]
  unfold Modulus.reduceVecU64
  rw [mapR_ok (g := fun a => a % q0), res_ok_bind, htm, res_ok_bind, mapR_ok (g := fun a => a % t), res_ok_bind]
  · congr 2
    unfold rowP
    rw [List.map_map, List.map_map, List.map_map]
    apply List.map_congr_left
    intro k hk
    simp only [Function.comp]
    rw [cf_ofCoeffs hN _ (List.mem_range.mp hk)]
  · intro a ha
    rw [Modulus.reduce_ok htw pr, htp]
    rw [List.mem_map] at ha
    obtain ⟨b, -, rfl⟩ := ha
    have := Nat.mod_lt b (show q0 > 0 by omega)
    omega
  · intro a ha
    rw [Modulus.reduce_ok hm0w pr, hm0p]
    rw [List.mem_map] at ha
    obtain ⟨b, hb, rfl⟩ := ha
    have := rowP_lt _ (by omega : 0 < q0) b hb
    omega

/-- `decrypt_scaled` with bounds that hold for every number of moduli. -/
theorem decrypt_general {sk : SecretKey} {ext : List Nat} (h : sk.WF K ext) (pr : Profile) {ct : BfvCipherText} {L : BfvLevel}
    (hL : sk.params.At K ext ct.level L) {fs : List (Rg (2 ^ K))} (hne : fs ≠ []) (hct : ct.cts = fs.map (enc L.qCtx .ntt)) :
    ∃ x y : Nat → ℤ, (∀ k, k < 2 ^ K → (L.qCtx.Q : ℤ) ∣ x k - cf (phaseOf (sk.ring K) fs) k ∧ 8 * |x k| ≤ 5 * L.qCtx.Q ∧
      2 ^ 32 * |L.qCtx.Q * y k - sk.params.plaintextModulus * x k| ≤ L.qCtx.Q * (2 ^ 31 + 1)) ∧
    sk.decrypt pr ct = .ok ⟨sk.params, ct.level, .none, (List.range (2 ^ K)).map fun k =>
      ((y k % (sk.params.ciphertextModuli.getD 0 0 : ℤ)).toNat + sk.params.plaintextModulus) % sk.params.ciphertextModuli.getD 0 0 %
        sk.params.plaintextModulus⟩ := by
  obtain ⟨x, y, hxy, hd⟩ := decrypt_scaled h pr hL hne hct (prod_le hL.wf.ctx (by have := len_le h.params hL; omega))
  exact ⟨x, y, fun k hk => ⟨(hxy k hk).1, scale_bound1 (hxy k hk).2.1, scale_bound2 (hxy k hk).2.2⟩, hd⟩

/-- Decryption of a ciphertext whose phase is `Q m / t` up to `v / t`. -/
theorem decrypt_enc {sk : SecretKey} {ext : List Nat} (h : sk.WF K ext) (pr : Profile) {ct : BfvCipherText} {L : BfvLevel}
    (hL : sk.params.At K ext ct.level L) {fs : List (Rg (2 ^ K))} (hne : fs ≠ []) (hct : ct.cts = fs.map (enc L.qCtx .ntt))
    (h2t : 2 * sk.params.plaintextModulus ≤ sk.params.ciphertextModuli.getD 0 0) {m v w : Rg (2 ^ K)} {V : ℤ} (hv : Bdd V v)
    (hV : 4 * V ≤ L.qCtx.Q)
    (hphi : ((sk.params.plaintextModulus : ℤ) : Rg (2 ^ K)) * phaseOf (sk.ring K) fs =
      ((L.qCtx.Q : ℤ) : Rg (2 ^ K)) * m + v + ((sk.params.plaintextModulus : ℤ) : Rg (2 ^ K)) * (((L.qCtx.Q : ℤ) : Rg (2 ^ K)) * w)) :
    sk.decrypt pr ct = .ok ⟨sk.params, ct.level, .none,
      (List.range (2 ^ K)).map fun k => (cf m k % (sk.params.plaintextModulus : ℤ)).toNat⟩ := by
  have hN : 0 < 2 ^ K := by positivity
  have hP := h.params
  obtain ⟨x, y, hxy, hd⟩ := decrypt_general h pr hL hne hct
  have hQp : 0 < L.qCtx.Q := hL.wf.ctx.Q_pos
  have ht2 : 2 ≤ sk.params.plaintextModulus := hP.t_prime.two_le
  rw [hd]
  congr 2
  apply List.map_congr_left
  intro k hk
  have hk := List.mem_range.mp hk
  obtain ⟨⟨z, hz⟩, h2, h3⟩ := hxy k hk
  have hphik : (sk.params.plaintextModulus : ℤ) * cf (phaseOf (sk.ring K) fs) k =
      L.qCtx.Q * cf m k + cf v k + sk.params.plaintextModulus * L.qCtx.Q * cf w k := by
    have := congrArg (fun f => cf f k) hphi
    beta_reduce at this
    rw [cf_add hN, cf_add hN, cf_int_mul hN, cf_int_mul hN, cf_int_mul hN, cf_int_mul hN] at this
    rw [this]; ring
  obtain ⟨y1, y2, y3⟩ := decrypt_num (by exact_mod_cast hQp) (by exact_mod_cast ht2) hz h2 h3 hphik (by have := hv k hk; linarith)
  set t := sk.params.plaintextModulus
  set q0 := sk.params.ciphertextModuli.getD 0 0
  have e1 : ((y k % (q0 : ℤ)).toNat + t) % q0 = (y k + t).toNat := by
    have h0 : (0 : ℤ) < q0 := by omega
    zify
    rw [Int.toNat_of_nonneg (Int.emod_nonneg _ (by omega)), Int.toNat_of_nonneg (by omega), Int.emod_add_emod]
    exact Int.emod_eq_of_lt (by omega) (by omega)
  rw [e1]
  zify
  rw [Int.toNat_of_nonneg (by omega), Int.toNat_of_nonneg (Int.emod_nonneg _ (by omega)), Int.add_emod_right]
  exact Int.emod_eq_emod_iff_emod_sub_eq_zero.mpr (Int.emod_eq_zero_of_dvd ⟨_, y3⟩)

end SecretKey
end OnionPIR
