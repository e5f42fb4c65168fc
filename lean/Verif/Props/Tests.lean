import Verif.Model.Tests
import Verif.Props.Default
import Verif.Props.BfvMul
import Verif.Props.Server
import Verif.Props.Rlwe
import Verif.Props.Pvw
import Verif.Props.Misc
import Verif.Props.Modulus
import Verif.Props.Rns
import Verif.Props.Utils

/-! C71: what the tests of the repository check, for all inputs and all randomness. -/

namespace OnionPIR
open Rg Spec

variable {N t : Nat} {l : List Nat} {P : BfvParameters}

/-! ### The parameters of the tests -/

/-- Parameters of the size used in the tests: degree up to 2048, a plaintext modulus of at most 21 bits, moduli of 50 to 62 bits with a product
of at least 123 bits and variance 10. -/
structure TestParams (N t : Nat) (l : List Nat) (P : BfvParameters) : Prop where
  params : IsParams N t l 10 P
  deg : N ≤ 2 ^ 11
  pt : t < 2 ^ 21
  two : 2 ≤ l.length
  few : l.length ≤ 40
  bits : ∀ q ∈ l, 2 ^ 49 ≤ q ∧ q < 2 ^ 62
  size : 2 ^ 122 ≤ l.prod

theorem TestParams.of_62 (h : IsParams N t l 10 P) (hN : N ≤ 2 ^ 11) (ht : t < 2 ^ 21) (h2 : 2 ≤ l.length) (h40 : l.length ≤ 40)
    (hb : ∀ q ∈ l, 2 ^ 61 ≤ q ∧ q < 2 ^ 62) : TestParams N t l P := by
  have key : ∀ l : List Nat, (∀ q ∈ l, 2 ^ 61 ≤ q) → 2 ^ (61 * l.length) ≤ l.prod := by
    intro l
    induction l with
    | nil => intro _; simp
    | cons a l ih =>
      intro hq
      rw [List.prod_cons, List.length_cons, Nat.mul_succ, Nat.pow_add, Nat.mul_comm]
      exact Nat.mul_le_mul (hq a (by simp)) (ih fun q hq' => hq q (by simp [hq']))
  have h1 := key l (fun q hq => (hb q hq).1)
  have h3 : 2 ^ 122 ≤ 2 ^ (61 * l.length) := Nat.pow_le_pow_right (by norm_num) (by omega)
  exact ⟨h, hN, ht, h2, h40, fun q hq => ⟨by have := (hb q hq).1; omega, (hb q hq).2⟩, h3.trans h1⟩

/-- C71: `BfvParameters::default` with two to forty moduli gives such parameters, whatever the sampler. -/
theorem c71_default {pr : Profile} {sample : Nat → Nat → Nat} (hs : ∀ p i, 0 < p → sample p i < p) {n : Nat} (hn : 2 ≤ n) (hn2 : n ≤ 40)
    (hN : N < 2 ^ 64) {bd : BitDecomposition} (h : BfvParameters.default pr sample n N bd = .ok P) :
    ∃ l, TestParams N 1153 l P ∧ l.length = n ∧ ∀ q ∈ l, 2 ^ 61 ≤ q ∧ q < 2 ^ 62 := by
  obtain ⟨-, hd⟩ := c63_default_degrees pr sample n hN bd h
  unfold BfvParameters.default at h
  simp only [bind_eq_ok] at h
  obtain ⟨o, ho, ms, hms, hP⟩ := h
  have hN1 : 1 ≤ N := by omega
  rcases c62_generate_moduli pr hN1 (by omega) (sizes := List.replicate n 62) (fun s hs => by
      rw [(List.mem_replicate.mp hs).2]; norm_num) with ⟨-, h1⟩ | ⟨-, ms', h1, h2, h3⟩
  · rw [h1] at ho; cases ho; cases hms
  · rw [h1] at ho; cases ho; cases hms
    rw [List.length_replicate] at h2
    have hb : ∀ q ∈ ms, 2 ^ 61 ≤ q ∧ q < 2 ^ 62 := by
      intro q hq
      obtain ⟨i, hi⟩ := List.mem_iff_getElem?.mp hq
      have hin : i < n := by rw [← h2]; exact (List.getElem?_eq_some_iff.mp hi).1
      have := (h3 i 62 q (by rw [List.getElem?_eq_getElem (by simpa using hin), List.getElem_replicate]) hi).1.1
      obtain ⟨-, a, b, -⟩ := (mem_friendly hN1 (by norm_num)).mp this
      exact ⟨a, b⟩
    exact ⟨ms, .of_62 ⟨by omega, by omega, fun q hq => by have := hb q hq; omega, pr, sample, bd, hs, hP⟩ (by omega) (by norm_num) (by omega)
      (by omega) hb, h2, hb⟩

namespace TestParams

theorem prod_ge (h : TestParams N t l P) : 2 ^ 122 ≤ levelQ l 0 ∧ l.length * 2 ^ 116 ≤ levelQ l 0 := by
  have h1 := h.size
  have h2 : levelQ l 0 = l.prod := by unfold levelQ levelModuli; simp
  rw [h2]
  refine ⟨h1, ?_⟩
  have h4 := h.few
  have h5 : l.length * 2 ^ 116 ≤ 2 ^ 122 := by
    have : l.length * 2 ^ 116 ≤ 40 * 2 ^ 116 := Nat.mul_le_mul_right _ h4
    omega
  omega

theorem switch (h : TestParams N t l P) : switchNoise N l 0 ≤ N * (l.length * 2 ^ 62) := by
  have h1 := c36_bound N l 0 (2 ^ 62) (fun q hq => (h.bits q hq).2.le) 1
  have h2 : (levelModuli l 0).length = l.length := by unfold levelModuli; simp
  rw [h2] at h1
  push_cast at h1 ⊢
  linarith

theorem switch_nonneg (_ : TestParams N t l P) : 0 ≤ switchNoise N l 0 := by unfold switchNoise; positivity

/-- One key switch with errors up to 40 stays far below the ciphertext modulus. -/
theorem room (h : TestParams N t l P) : (t : ℤ) * (switchNoise N l 0 * 40) ≤ 2 ^ 106 := by
  have h1 := h.switch
  have h2 : (t : ℤ) ≤ 2 ^ 21 := by exact_mod_cast h.pt.le
  have h3 : (N : ℤ) ≤ 2 ^ 11 := by exact_mod_cast h.deg
  have h4 : (l.length : ℤ) ≤ 40 := by exact_mod_cast h.few
  have h5 : (N : ℤ) * (l.length * 2 ^ 62) ≤ 2 ^ 11 * (40 * 2 ^ 62) := by gcongr
  have h6 : (t : ℤ) * (switchNoise N l 0 * 40) ≤ 2 ^ 21 * (2 ^ 11 * (40 * 2 ^ 62) * 40) := by
    have := h.switch_nonneg
    gcongr
    exact h1.trans h5
  refine h6.trans (by norm_num)

theorem h2t (h : TestParams N t l P) : 2 * t ≤ l.getD 0 0 := by
  have h0 : 0 < l.length := by have := h.two; omega
  have : l.getD 0 0 = l[0] := by simp [List.getD, h0]
  rw [this]
  have := (h.bits l[0] (List.getElem_mem h0)).1
  have := h.pt
  omega

theorem t_pos (h : TestParams N t l P) : 2 ≤ t := by
  obtain ⟨K, ext, -, hw, rfl, -⟩ := BfvP.params h.params
  exact hw.t_prime.two_le

theorem N_pos (h : TestParams N t l P) : 0 < N := by
  obtain ⟨K, ext, rfl, -⟩ := BfvP.params h.params
  positivity

/-- The key is small. -/
theorem key (h : TestParams N t l P) (pr : Profile) {rng : Nat → Nat} (hr : ∀ i, rng i < 2 ^ 64) :
    ∃ sk, SecretKey.generate pr P rng = .ok sk ∧ IsKey P sk ∧ Bdd 20 (keyRing N sk) := by
  obtain ⟨sk, h1, h2, h3⟩ := c30_generate h.params pr (by norm_num) (by norm_num) hr
  exact ⟨sk, h1, h2, by simpa using h3⟩

/-- A plaintext with polynomial encoding. -/
theorem plain (h : TestParams N t l P) (pr : Profile) {v : List Nat} (hv : v.length ≤ N) :
    Plaintext.new pr P v 0 .poly = .ok ⟨P, 0, .poly, v ++ List.replicate (N - v.length) 0⟩ := by
  have hd : P.degree = N := (c51_levels h.params).1
  unfold Plaintext.new Plaintext.encode copyPrefix
  simp [hd, hv, res_ok_bind]

theorem msgRing_pad (N : Nat) (v : List Nat) (k : Nat) : msgRing N (v ++ List.replicate k 0) = msgRing N v := by
  unfold msgRing
  congr 1
  funext j
  congr 1
  simp only [List.getD, List.getElem?_append, List.getElem?_replicate]
  split_ifs with h1 h2 <;> simp_all

/-- A fresh encryption. -/
theorem enc (h : TestParams N t l P) (pr : Profile) {sk : SecretKey} (hk : IsKey P sk) {v : List Nat} (hv : v.length ≤ N)
    (hv2 : ∀ x ∈ v, x < 2 ^ 64) {a : Nat → Nat → Nat} (ha : TapeAt l 0 a) {r : Nat → Nat} (hr : ∀ i, r i < 2 ^ 64) (e : Encoding) :
    ∃ ct, ∃ f0 f1 : Rg N, sk.encrypt pr ⟨P, 0, e, v⟩ a r = .ok ct ∧ IsCt P 0 [f0, f1] ct ∧
      Encodes t (levelQ l 0) (msgRing N v) (phase (keyRing N sk) [f0, f1]) (22 * t) := by
  obtain ⟨ct, f0, f1, h1, h2, h3⟩ := c30_encrypt h.params hk pr (by norm_num) (by norm_num) (pt := ⟨P, 0, e, v⟩) rfl rfl hv hv2 ha hr
  refine ⟨ct, f0, f1, h1, h2, ?_⟩
  have : (2 * t * (10 : Nat) + 2 * t : ℤ) = 22 * t := by push_cast; ring
  rwa [this] at h3

/-- Decryption of what encodes `m` with little noise. -/
theorem dec (h : TestParams N t l P) (pr : Profile) {sk : SecretKey} (hk : IsKey P sk) {ct : BfvCipherText} {f0 f1 m : Rg N}
    (hct : IsCt P 0 [f0, f1] ct) {V : ℤ} (hV : V ≤ 2 ^ 119) (he : Encodes t (levelQ l 0) m (phase (keyRing N sk) [f0, f1]) V) :
    ∃ pt, sk.decrypt pr ct = .ok pt ∧ pt.params = P ∧ pt.level = 0 ∧ pt.values = residues t m := by
  have : (2 ^ 122 : ℤ) ≤ levelQ l 0 := by exact_mod_cast h.prod_ge.1
  exact c30_decrypt h.params hk pr (by simp) hct h.h2t he (by linarith)

theorem residues_msg (hN : 0 < N) {v : List Nat} (hv : IsVec t N v) : residues t (msgRing N v) = v := by
  unfold residues msgRing
  apply List.ext_getElem (by simp [hv.1])
  intro i h1 h2
  have hi : i < N := by simpa using h1
  have hlt := hv.2 v[i] (List.getElem_mem h2)
  rw [List.getElem_map, List.getElem_range, cf_ofCoeffs hN _ hi]
  have : v.getD i 0 = v[i] := by simp [List.getD, h2]
  rw [this]
  have : ((v[i] : ℤ) % (t : ℤ)) = v[i] := Int.emod_eq_of_lt (by positivity) (by exact_mod_cast hlt)
  rw [this]
  simp

/-- The context of level 0. -/
theorem ctx0 (h : TestParams N t l P) : ∃ c, P.qCtxs[0]? = some c ∧ IsContext N l c := by
  obtain ⟨-, -, -, -, -, -, -, ext, -, -, h1⟩ := c51_levels h.params
  obtain ⟨q, e, h2, -, h3, -⟩ := h1 0 (by have := h.two; omega)
  have : levelModuli l 0 = l := by unfold levelModuli; simp
  rw [this] at h3
  exact ⟨q, h2, h3⟩

theorem denotes_msg {c : RqContext} (hc : IsContext N l c) (hN : 0 < N) {r : Representation} (hr : r ≠ .nttShoup) {v : List Nat} {p : Poly}
    (h : Denotes c r (fun k => (v.getD k 0 : ℤ)) p) : Denotes c r (cf (msgRing N v)) p := by
  refine (c20_denotes_unique hc hr h).mpr fun k hk => ?_
  unfold msgRing
  rw [cf_ofCoeffs hN _ hk]

/-- Import of words in power basis and in NTT form. -/
theorem import_words (h : TestParams N t l P) (pr : Profile) {c : RqContext} (hc : P.qCtxs[0]? = some c) {v : List Nat} (hv : v.length ≤ N)
    (hv2 : ∀ x ∈ v, x < 2 ^ 64) : ∃ p p', Poly.tryFromVecU64 pr c v = .ok p ∧ PowerAt P 0 (msgRing N v) p ∧
      p.changeRepresentation pr .ntt = .ok p' ∧ PolyAt P 0 (msgRing N v) p' := by
  obtain ⟨c', hc', hi⟩ := h.ctx0
  rw [hc] at hc'
  cases hc'
  obtain ⟨p, p1, p2⟩ := c25_from_u64 hi pr hv hv2
  have p3 := denotes_msg hi h.N_pos (by simp) p2
  obtain ⟨p', q1, -, -, -, -, q2⟩ := c20_round_trip hi pr p2.1 (r := .powerBasis) (r' := .ntt) (by simp) (by simp) p2.2.1 p2.2.2.1
  exact ⟨p, p', p1, ⟨c, hc, p3⟩, q1, c, hc, (q2 _).mp p3⟩

/-- The coefficients of a power-basis polynomial. -/
theorem rows {c : RqContext} (hc : IsContext N l c) {A : Nat → ℤ} {p : Poly} (h : Denotes c .powerBasis A p) :
    p.coefficients = l.map fun (q : Nat) => (List.range N).map fun k => (A k % (q : ℤ)).toNat := by
  obtain ⟨K, rfl, hw, rfl⟩ := RqP.ctx hc
  obtain ⟨-, h2, -, p', h4, h5⟩ := h
  have := c20_same .debug p (by rw [h2]; simp)
  rw [h2, h4] at this
  cases this
  rw [h5, rowsOf, hw.core.deg]

theorem bdd_msg (h : TestParams N t l P) {v : List Nat} (hv : ∀ x ∈ v, x < t) : Bdd t (msgRing N v) := by
  obtain ⟨K, ext, rfl, -⟩ := BfvP.params h.params
  exact BfvP.msgRing_bdd fun x hx => (hv x hx).le

end TestParams

/-! ### bfv.rs -/

/-- C71: `encrypt_decrypt` of bfv.rs. The half with polynomial encoding passes for all values and all randomness. The half with SIMD encoding,
and so the test, passes exactly if values in slots with the same index coincide; otherwise its assertion fails. -/
theorem c71_encrypt_decrypt (h : TestParams N t l P) (pr : Profile) {skRng : Nat → Nat} (hs : ∀ i, skRng i < 2 ^ 64) {vals : List Nat}
    (hv : IsVec t N vals) {a0 a1 : Nat → Nat → Nat} (ha0 : TapeAt l 0 a0) (ha1 : TapeAt l 0 a1) {r0 r1 : Nat → Nat}
    (hr0 : ∀ i, r0 i < 2 ^ 64) (hr1 : ∀ i, r1 i < 2 ^ 64) :
    ((∀ i j, i < N → j < N → P.matrixRepsIndexMap.getD i 0 = P.matrixRepsIndexMap.getD j 0 → vals.getD i 0 = vals.getD j 0) →
      Tests.encryptDecrypt pr P skRng vals a0 a1 r0 r1 = .ok ()) ∧
    (¬ (∀ i j, i < N → j < N → P.matrixRepsIndexMap.getD i 0 = P.matrixRepsIndexMap.getD j 0 → vals.getD i 0 = vals.getD j 0) →
      Tests.encryptDecrypt pr P skRng vals a0 a1 r0 r1 = .error .assert) := by
  have hN := h.N_pos
  have ht : t < 2 ^ 64 := h.pt.trans (by norm_num)
  have ht' : (t : ℤ) ≤ 2 ^ 21 := by exact_mod_cast h.pt.le
  obtain ⟨sk, k1, k2, -⟩ := h.key pr hs
  have hpad : vals ++ List.replicate (N - vals.length) 0 = vals := by rw [hv.1]; simp
  have hP := h.plain pr hv.1.le
  rw [hpad] at hP
  obtain ⟨ct, f0, f1, c1, c2, c3⟩ := h.enc pr k2 hv.1.le (fun x hx => (hv.2 x hx).trans ht) ha0 hr0 .poly
  obtain ⟨pt, d1, d2, -, d4⟩ := h.dec pr k2 c2 (by linarith) c3
  rw [TestParams.residues_msg hN hv] at d4
  have hd : P.degree = N := (c51_levels h.params).1
  have e1 : (pt.setEncoding .poly).decode pr = .ok vals := by
    unfold Plaintext.setEncoding Plaintext.decode copyFromSlice
    simp only [d2, d4, hd]
    rw [if_pos (by simp [hv.1])]
  -- SIMD
  obtain ⟨pt1, out, p1, p2, -, p4⟩ := c28_simd_round_trip_partial h.params pr pr hv.1 hv.2 0
  have hval : IsVec t N pt1.values ∧ pt1 = ⟨P, 0, .simd, pt1.values⟩ := by
    obtain ⟨K, ext, rfl, hw, rfl, -⟩ := BfvP.params h.params
    obtain ⟨e, e1, e2, e3, e4⟩ := Plaintext.scatter_ok (Plaintext.simdWF hw) hv.1.ge hw.t_prime.pos hv.2
    obtain ⟨op, psi, psiInv, hop, how, hp⟩ := hw.ntt
    obtain ⟨b, b1, b2, b3, b4⟩ := NttOperator.forward_backward how pr e2 (by rw [hp]; exact e3)
    unfold Plaintext.new Plaintext.encode at p1
    simp only at p1
    rw [e1, res_ok_bind, hop, show unwrapR (some op) = .ok op from rfl, res_ok_bind, b1, res_ok_bind] at p1
    cases p1
    exact ⟨⟨b2, by rw [hp] at b3; exact b3⟩, rfl⟩
  obtain ⟨hval, hpt1⟩ := hval
  obtain ⟨ct', g0, g1, c1', c2', c3'⟩ := h.enc pr k2 hval.1.le (fun x hx => (hval.2 x hx).trans ht) ha1 hr1 .simd
  rw [← hpt1] at c1'
  obtain ⟨pt', d1', d2', -, d4'⟩ := h.dec pr k2 c2' (by linarith) c3'
  rw [TestParams.residues_msg hN hval] at d4'
  have e2 : (pt'.setEncoding .simd).decode pr = .ok out := by
    rw [← p2, hpt1]
    unfold Plaintext.setEncoding Plaintext.decode
    simp only [d2', d4']
  unfold Tests.encryptDecrypt
  rw [k1, res_ok_bind, hP, res_ok_bind, c1, res_ok_bind, d1, res_ok_bind, e1, res_ok_bind, rassert_ok rfl, res_ok_bind, p1, res_ok_bind,
    c1', res_ok_bind, d1', res_ok_bind, e2, res_ok_bind]
  exact ⟨fun hc => rassert_ok ((p4.mpr hc).symm), fun hc => rassert_fail fun he => hc (p4.mp he.symm)⟩

/-- C71: so the test fails whenever the values in slots `N/2` and `3N/4` differ. -/
theorem c71_encrypt_decrypt_fails (h : TestParams N t l P) (pr : Profile) {skRng : Nat → Nat} (hs : ∀ i, skRng i < 2 ^ 64) {vals : List Nat}
    (hv : IsVec t N vals) {a0 a1 : Nat → Nat → Nat} (ha0 : TapeAt l 0 a0) (ha1 : TapeAt l 0 a1) {r0 r1 : Nat → Nat}
    (hr0 : ∀ i, r0 i < 2 ^ 64) (hr1 : ∀ i, r1 i < 2 ^ 64) (hne : vals.getD (N / 2) 0 ≠ vals.getD (N / 2 + N / 4) 0) :
    Tests.encryptDecrypt pr P skRng vals a0 a1 r0 r1 = .error .assert := by
  refine (c71_encrypt_decrypt h pr hs hv ha0 ha1 hr0 hr1).2 fun hc => ?_
  obtain ⟨pt, out, h1, h2, -, h3⟩ := c28_simd_round_trip_partial h.params pr pr hv.1 hv.2 0
  obtain ⟨pt', out', h1', h2', h3'⟩ := c28_simd_not_round_trip h.params pr pr hv.1 hv.2 0 hne
  rw [h1] at h1'
  cases h1'
  rw [h2] at h2'
  cases h2'
  exact h3' (h3.mpr hc)

/-- C71: `mul_op` of bfv.rs, for all messages: the result is their product. The test multiplies the constants 100 and 200. -/
theorem c71_mul_op (h : TestParams N t l P) (pr : Profile) {skRng : Nat → Nat} (hs : ∀ i, skRng i < 2 ^ 64) {p1 p2 : List Nat}
    (hp1 : p1.length ≤ N) (hp2 : p2.length ≤ N) (hv1 : ∀ x ∈ p1, x < t) (hv2 : ∀ x ∈ p2, x < t) {a0 a1 : Nat → Nat → Nat}
    (ha0 : TapeAt l 0 a0) (ha1 : TapeAt l 0 a1) {r0 r1 : Nat → Nat} (hr0 : ∀ i, r0 i < 2 ^ 64) (hr1 : ∀ i, r1 i < 2 ^ 64)
    {aRlk : Nat → Nat → Nat → Nat} (ha : ∀ j, TapeAt l 0 (aRlk j)) {rRlk : Nat → Nat → Nat} (hr : ∀ j i, rRlk j i < 2 ^ 64) :
    Tests.mulOp pr P skRng p1 p2 a0 a1 r0 r1 aRlk rRlk = .ok (residues t (msgRing N p1 * msgRing N p2)) := by
  have hN := h.N_pos
  have ht : t < 2 ^ 64 := h.pt.trans (by norm_num)
  obtain ⟨sk, k1, k2, k3⟩ := h.key pr hs
  have ht0 := h.t_pos
  have pad : ∀ {v : List Nat}, v.length ≤ N → (∀ x ∈ v, x < t) → (v ++ List.replicate (N - v.length) 0).length ≤ N ∧
      ∀ x ∈ v ++ List.replicate (N - v.length) 0, x < 2 ^ 64 := by
    intro v h1 h2
    refine ⟨by simp; omega, fun x hx => ?_⟩
    rcases List.mem_append.mp hx with hx | hx
    · exact (h2 x hx).trans ht
    · rw [(List.mem_replicate.mp hx).2]; norm_num
  obtain ⟨ct1, f0, f1, c1, c2, c3⟩ := h.enc pr k2 (pad hp1 hv1).1 (pad hp1 hv1).2 ha0 hr0 .poly
  obtain ⟨ct2, g0, g1, d1, d2, d3⟩ := h.enc pr k2 (pad hp2 hv2).1 (pad hp2 hv2).2 ha1 hr1 .poly
  rw [TestParams.msgRing_pad] at c3 d3
  obtain ⟨rlk, e1, e2, e3, -⟩ := c38_relinearize h.params k2 pr pr (by norm_num) (by norm_num) (i := 0) (by have := h.two; omega) ha hr
  have hQ : (2 ^ 122 : ℤ) ≤ levelQ l 0 := by exact_mod_cast h.prod_ge.1
  have ht' : (t : ℤ) ≤ 2 ^ 21 := by exact_mod_cast h.pt.le
  have hN' : (N : ℤ) ≤ 2 ^ 11 := by exact_mod_cast h.deg
  have hroom := h.room
  have hsn := h.switch_nonneg
  have hpn : productNoise N t l 0 20 (22 * t) (22 * t) (2 * (10 : Nat)) ≤ 2 ^ 119 := by
    unfold productNoise
    have b1 : (N : ℤ) * t * (N * 20 + 3) * (22 * t + 22 * t) ≤ 2 ^ 11 * 2 ^ 21 * (2 ^ 11 * 20 + 3) * (22 * 2 ^ 21 + 22 * 2 ^ 21) := by gcongr
    have b2 : (N : ℤ) * (22 * t) ≤ 2 ^ 11 * (22 * 2 ^ 21) := by gcongr
    have b3 : (t : ℤ) * (1 + N * 20 + N * 20 * (N * 20)) ≤ 2 ^ 21 * (1 + 2 ^ 11 * 20 + 2 ^ 11 * 20 * (2 ^ 11 * 20)) := by gcongr
    have b4 : (t : ℤ) * (switchNoise N l 0 * (2 * (10 : Nat))) ≤ t * (switchNoise N l 0 * 40) := by
      gcongr; norm_num
    norm_num at b1 b2 b3 b4 hroom ⊢
    linarith
  have hNn : N * 2 ^ l.length ≤ 2 ^ 57 := by
    calc N * 2 ^ l.length ≤ 2 ^ 11 * 2 ^ 40 := Nat.mul_le_mul h.deg (Nat.pow_le_pow_right (by norm_num) h.few)
      _ ≤ 2 ^ 57 := by norm_num
  obtain ⟨z, pt, m1, m2, m3⟩ := c50_decrypts h.params hNn k2 pr c2 d2 e2 k3 e3 c3 d3 (h.bdd_msg hv1) (h.bdd_msg hv2) (by linarith)
    (by linarith) h.h2t (by linarith)
  unfold Tests.mulOp
  rw [k1, res_ok_bind, h.plain pr hp1, res_ok_bind, c1, res_ok_bind, h.plain pr hp2, res_ok_bind, d1, res_ok_bind, e1, res_ok_bind, m1,
    res_ok_bind, m2, res_ok_bind, m3]

/-- The context of the plaintext modulus. -/
theorem TestParams.ptCtx (h : TestParams N t l P) (pr : Profile) {sample : Nat → Nat → Nat} (hs : ∀ p i, 0 < p → sample p i < p)
    (hgood : ∃ i, i < 100 ∧ sample t i ^ ((t - 1) / 2) % t = t - 1) (bd : BitDecomposition) :
    ∃ c, RqContext.new pr sample [P.plaintextModulus] P.degree bd = .ok c ∧ IsContext N [t] c := by
  obtain ⟨K, ext, rfl, hw, rfl, -⟩ := BfvP.params h.params
  have h60 := hw.K60
  obtain ⟨c, h1, h2⟩ := c20_context_exists pr hw.three (by omega) (l := [P.plaintextModulus]) (by simp) (by simp)
    (fun q hq => by
      rw [List.mem_singleton.mp hq]
      exact ⟨hw.t_prime, h.pt.trans (by norm_num), hw.t_cong⟩) hs (fun q hq => by rw [List.mem_singleton.mp hq]; exact hgood) bd
  rw [← hw.deg] at h1
  exact ⟨c, h1, h2⟩

/-- C71: `galois_key` of bfv.rs passes for every odd exponent, all values and all randomness. The sampler inside `primitive_root` has to
find a quadratic non-residue of the plaintext modulus. -/
theorem c71_galois_key (h : TestParams N t l P) (pr : Profile) {sample : Nat → Nat → Nat} (hsam : ∀ p i, 0 < p → sample p i < p)
    (hgood : ∃ i, i < 100 ∧ sample t i ^ ((t - 1) / 2) % t = t - 1) (bd : BitDecomposition) {e : Nat} (he : Odd e)
    {skRng : Nat → Nat} (hs : ∀ i, skRng i < 2 ^ 64) {aGk : Nat → Nat → Nat → Nat} (hag : ∀ j, TapeAt l 0 (aGk j))
    {rGk : Nat → Nat → Nat} (hrg : ∀ j i, rGk j i < 2 ^ 64) {v : List Nat} (hv : IsVec t N v) {a : Nat → Nat → Nat} (ha : TapeAt l 0 a)
    {r : Nat → Nat} (hr : ∀ i, r i < 2 ^ 64) : Tests.galoisKey pr sample P bd e skRng aGk rGk v a r = .ok () := by
  have hN := h.N_pos
  have ht : t < 2 ^ 64 := h.pt.trans (by norm_num)
  have ht' : (t : ℤ) ≤ 2 ^ 21 := by exact_mod_cast h.pt.le
  obtain ⟨sk, k1, k2, -⟩ := h.key pr hs
  obtain ⟨c, hc, hci⟩ := h.ctx0
  have hN31 : N ≤ 2 ^ 31 := h.deg.trans (by norm_num)
  obtain ⟨sub, g, g1, g2, g3, -⟩ := c37_galois h.params k2 pr pr (by norm_num) (by norm_num) (by have := h.two; omega) hN31 hc he hag hrg
  have hpad : v ++ List.replicate (N - v.length) 0 = v := by rw [hv.1]; simp
  have hP := h.plain pr hv.1.le
  rw [hpad] at hP
  obtain ⟨ct, f0, f1, c1, c2, c3⟩ := h.enc pr k2 hv.1.le (fun x hx => (hv.2 x hx).trans ht) ha hr .poly
  obtain ⟨ct2, s0, s1, E, e1, e2, -, -, e5⟩ := g3 ct f0 f1 c2
  have hroom := h.room
  have hsn := h.switch_nonneg
  have b4 : (t : ℤ) * (switchNoise N l 0 * (2 * (10 : Nat))) ≤ t * (switchNoise N l 0 * 40) := by
    gcongr; norm_num
  obtain ⟨pt, d1, -, -, d4⟩ := h.dec pr k2 e2 (by linarith) (e5 _ _ c3)
  obtain ⟨pc, p1, p2⟩ := h.ptCtx pr hsam hgood bd
  obtain ⟨x, x1, x2⟩ := c25_from_u64 p2 pr hv.1.le (fun x hx => (hv.2 x hx).trans ht)
  obtain ⟨sub', y, y1, y2, y3⟩ := c22_substitute p2 hN31 pr he (by simp) x2
  have hsub : sub' = sub := by
    obtain ⟨K, rfl, w1, -⟩ := RqP.ctx hci
    obtain ⟨K', hK, w2, -⟩ := RqP.ctx p2
    unfold Substitution.new at g1 y1
    rw [w1.core.deg] at g1
    rw [w2.core.deg, ← hK] at y1
    exact Except.ok.inj (y1.symm.trans g1)
  rw [hsub] at y2
  have hexp := (c25_to_u64 p2 y3).1 t rfl
  unfold Tests.galoisKey
  rw [k1, res_ok_bind, idx_of hc, res_ok_bind, g1, res_ok_bind, g2, res_ok_bind, hP, res_ok_bind, c1, res_ok_bind, e1, res_ok_bind, d1,
    res_ok_bind, p1, res_ok_bind, x1, res_ok_bind, y2, res_ok_bind, hexp, res_ok_bind]
  refine rassert_ok ?_
  rw [d4]
  unfold residues
  refine List.map_congr_left fun k hk => ?_
  rw [subst_eq hN _ _ (List.mem_range.mp hk)]
  rfl

/-! ### ksk.rs -/

/-- C71: `ksk_with_pt` of ksk.rs, for all plaintexts and factors: the result is their product. The test uses the constants 5 and 34. -/
theorem c71_ksk_with_pt (h : TestParams N t l P) (pr : Profile) {skRng : Nat → Nat} (hs : ∀ i, skRng i < 2 ^ 64) {v f : List Nat}
    (hv : v.length ≤ N) (hv2 : ∀ x ∈ v, x < t) (hf : f.length ≤ N) (hf2 : ∀ x ∈ f, x < t) {a : Nat → Nat → Nat → Nat}
    (ha : ∀ j, TapeAt l 0 (a j)) {r : Nat → Nat → Nat} (hr : ∀ j i, r j i < 2 ^ 64) :
    Tests.kskWithPt pr P skRng v f a r = .ok (residues t (msgRing N v * msgRing N f)) := by
  have hN := h.N_pos
  have ht : t < 2 ^ 64 := h.pt.trans (by norm_num)
  have ht0 := h.t_pos
  have ht' : (t : ℤ) ≤ 2 ^ 21 := by exact_mod_cast h.pt.le
  have hN' : (N : ℤ) ≤ 2 ^ 11 := by exact_mod_cast h.deg
  obtain ⟨sk, k1, k2, -⟩ := h.key pr hs
  obtain ⟨c, hc, hci⟩ := h.ctx0
  have hpadv : ∀ x ∈ v ++ List.replicate (N - v.length) 0, x < t := fun x hx => by
    rcases List.mem_append.mp hx with hx | hx
    · exact hv2 x hx
    · rw [(List.mem_replicate.mp hx).2]; omega
  obtain ⟨k, M, m1, -, m3, m4⟩ := c70_ksk_with_pt h.params k2 pr (by norm_num) (by norm_num)
    (pt := ⟨P, 0, .poly, v ++ List.replicate (N - v.length) 0⟩) rfl (by have := h.two; show 0 < _; omega) (by simp; omega)
    (fun x hx => (hpadv x hx).trans ht) ha hr
  obtain ⟨p, -, p1, p2, -, -⟩ := h.import_words pr hc hf (fun x hx => (hf2 x hx).trans ht)
  obtain ⟨q0, q1, r0, r1, E, s1, s2, s3, s4, s5⟩ := c36_key_switch h.params pr m3 p2
  have henc : Encodes t (levelQ l 0) (msgRing N v) M (2 * t) := by
    rw [← TestParams.msgRing_pad N v (N - v.length)]
    refine ⟨((t : ℤ) : Rg N) * M - ((levelQ l 0 : ℤ) : Rg N) * msgRing N _, 0, fun j hj => ?_, by ring⟩
    rw [cf_sub hN, cf_int_mul hN, cf_int_mul hN]
    generalize hw : v ++ List.replicate (N - v.length) 0 = w at m4 hpadv ⊢
    have hw' : w.getD j 0 < t := by
      by_cases hj' : j < w.length
      · simp only [List.getD, List.getElem?_eq_getElem hj', Option.getD_some]
        exact hpadv _ (List.getElem_mem hj')
      · simp only [List.getD, List.getElem?_eq_none (not_lt.mp hj'), Option.getD_none]
        omega
    have hcf : cf (msgRing N w) j = (w.getD j 0 : ℤ) := by unfold msgRing; rw [cf_ofCoeffs hN _ hj]
    have h4 := m4 j hj
    simp only [Nat.mod_eq_of_lt hw'] at h4
    rw [hcf]
    generalize w.getD j 0 = x at *
    have d1 := Nat.div_mul_le_self (levelQ l 0 * x) t
    have d2 := Nat.lt_div_mul_add (a := levelQ l 0 * x) (b := t) (by omega)
    generalize levelQ l 0 * x / t = d at *
    have d1' : (d : ℤ) * t ≤ levelQ l 0 * x := by exact_mod_cast d1
    have d2' : (levelQ l 0 : ℤ) * x < d * t + t := by exact_mod_cast d2
    have ht0' : (2 : ℤ) ≤ t := by exact_mod_cast ht0
    rw [abs_le]
    rcases h4 with h4 | h4 <;> rw [h4] <;> constructor <;> nlinarith
  have h6 := BfvP.Encodes.addError hN (BfvP.Encodes.mul hN henc (h.bdd_msg hf2)) s4
  have h7 : Encodes t (levelQ l 0) (msgRing N v * msgRing N f) (phase (keyRing N sk) [r0, r1])
      (N * (2 * t) * t + t * (switchNoise N l 0 * (2 * (10 : Nat)))) := by
    refine BfvP.Encodes.congr h6 ?_
    rw [BfvP.phase_two]
    obtain ⟨z, hz⟩ := s5
    exact ⟨z, by linear_combination hz⟩
  have hroom := h.room
  have hsn := h.switch_nonneg
  have b4 : (t : ℤ) * (switchNoise N l 0 * (2 * (10 : Nat))) ≤ t * (switchNoise N l 0 * 40) := by
    gcongr; norm_num
  have b5 : (N : ℤ) * (2 * t) * t ≤ 2 ^ 11 * (2 * 2 ^ 21) * 2 ^ 21 := by gcongr
  have hct : IsCt P 0 [r0, r1] ⟨P, [q0, q1], 0⟩ := ⟨rfl, rfl, .cons s2 (.cons s3 .nil)⟩
  obtain ⟨pt, d1, -, -, d4⟩ := h.dec pr k2 hct (by norm_num at b5 b4 hroom ⊢; linarith) h7
  unfold Tests.kskWithPt
  rw [k1, res_ok_bind, h.plain pr hv, res_ok_bind, m1, res_ok_bind, idx_of hc, res_ok_bind, p1, res_ok_bind, s1, res_ok_bind]
  dsimp only
  rw [d1, res_ok_bind, d4]

theorem den_congr {c : RqContext} (hc : IsContext N l c) {r : Representation} (hr : r ≠ .nttShoup) {A B : Nat → ℤ} {p : Poly}
    (h : Denotes c r A p) (hAB : ∀ k, k < N → A k = B k) : Denotes c r B p :=
  (c20_denotes_unique hc hr h).mpr fun k hk => by rw [hAB k hk]

/-- A random polynomial is canonical. -/
theorem random_valid {c : RqContext} (hc : IsContext N l c) {tape : Nat → Nat → Nat} (ht : ∀ i, i < l.length → ∀ j, tape i j < l.getD i 1)
    (rep : Representation) : ValidRows c (Poly.random c tape rep).coefficients :=
  (c70_seed hc (fun (_ : Unit) _ _ => tape) (fun _ => ht) rep ()).2.2

/-- The polynomial with the given tape. -/
theorem random_den (h : TestParams N t l P) {tp : Nat → Nat → Nat} (htp : TapeAt l 0 tp) {rep : Representation} (hrep : rep ≠ .nttShoup)
    {c : RqContext} (hc : P.qCtxs[0]? = some c) : ∃ f : Rg N, Denotes c rep (cf f) (Poly.random c tp rep) := by
  have hN := h.N_pos
  have hlev : levelModuli l 0 = l := by unfold levelModuli; simp
  obtain ⟨c', hc', hci⟩ := h.ctx0
  obtain rfl := Option.some.inj (hc.symm.trans hc')
  obtain ⟨A, h1, -⟩ := c20_denotes hci (p := Poly.random c tp rep) rfl hrep (random_valid hci (fun i hi j => by
    have := htp i j; rw [hlev] at this; exact this hi) _)
  exact ⟨ofCoeffs N A, den_congr hci hrep h1 fun k hk => by rw [cf_ofCoeffs hN _ hk]⟩

theorem sample_bound {pr : Profile} {rng : Nat → Nat} (hr : ∀ i, rng i < 2 ^ 64) {n : Nat} {e : List Int} (h : sampleVecCbd pr rng n 10 = .ok e)
    {x : Int} (hx : x ∈ e) : |x| ≤ ((20 : Nat) : ℤ) := by
  obtain rfl := Except.ok.inj (h.symm.trans (sampleVecCbd_ok pr hr (by norm_num) (by norm_num) n))
  obtain ⟨i, -, rfl⟩ := List.mem_map.mp hx
  exact abs_le.mpr (cbdValue_bound _ _ i)

/-- C71: `ksk` of ksk.rs passes whenever the error of the key switch stays below the limit. -/
theorem c71_ksk_of_error (h : TestParams N t l P) (pr : Profile) {limit : Nat} {skRng : Nat → Nat}
    (hs : ∀ i, skRng i < 2 ^ 64) {fromTape inputTape : Nat → Nat → Nat} (hf : TapeAt l 0 fromTape)
    {a : Nat → Nat → Nat → Nat} (ha : ∀ j, TapeAt l 0 (a j)) {r : Nat → Nat → Nat} (hr : ∀ j i, r j i < 2 ^ 64) {inp : Rg N}
    (hinp : ∀ c, P.qCtxs[0]? = some c → Denotes c .powerBasis (cf inp) (Poly.random c inputTape .powerBasis))
    (hlim : ∀ e : Nat → List Int, (∀ j, sampleVecCbd pr (r j) N 10 = .ok (e j)) → ∀ k, k < N → |cf (switchError l 0 inp e) k| < 2 ^ limit) :
    Tests.ksk pr P limit skRng fromTape a r inputTape = .ok () := by
  have hN := h.N_pos
  have hlev : levelModuli l 0 = l := by unfold levelModuli; simp
  have hQ : levelQ l 0 = l.prod := by unfold levelQ; rw [hlev]
  obtain ⟨c, hc, hci⟩ := h.ctx0
  obtain ⟨sk, k1, k2, -⟩ := h.key pr hs
  have hP : P.ciphertextModuli = l := (c51_levels h.params).2.2.1
  obtain ⟨skp, e1, e2⟩ : ∃ skp, sk.polyNtt pr c = .ok skp ∧ Denotes c .ntt (cf (keyRing N sk)) skp := by
    have hd : P.degree = N := (c51_levels h.params).1
    obtain ⟨p, p1, p2⟩ := c25_from_i64 hci pr (hd ▸ k2.2.1) k2.2.2
    obtain ⟨p', q1, -, -, -, -, q2⟩ := c20_round_trip hci pr p2.1 (r := .powerBasis) (r' := .ntt) (by simp) (by simp) p2.2.1 p2.2.2.1
    refine ⟨p', by unfold SecretKey.polyNtt; rw [p1, res_ok_bind, q1], ?_⟩
    refine den_congr hci (by simp) ((q2 _).mp p2) fun k hk => ?_
    unfold keyRing; rw [cf_ofCoeffs hN _ hk]
  obtain ⟨src, f1⟩ := random_den h hf (rep := .ntt) (by simp) hc
  have i1 := hinp c hc
  obtain ⟨k, e, g1, g2, g3⟩ := c77_key_switch h.params k2 pr (by norm_num) (by norm_num) ⟨c, hc, f1⟩ ha hr
  obtain ⟨p0, p1, r0, r1, s1, ⟨c2, s2, s2'⟩, ⟨c3, s3, s3'⟩, s5⟩ := g3 pr _ _ ⟨c, hc, i1⟩
  have s4 := c77_error_bound (B := 20) hN (fun q hq => by have := (h.bits q hq).1; omega) (i := 0) inp (fun j x hx => sample_bound (hr j) (g2 j) hx)
  have s6 := hlim e g2
  generalize switchError l 0 inp e = E at s4 s5 s6
  rw [hc] at s2 s3
  cases s2; cases s3
  obtain ⟨m, m1, m2⟩ := c21_mul hci pr s3' e2
  obtain ⟨m', m3, m4⟩ := c21_add hci pr m2 s2'
  obtain ⟨i', n1, n2, n3, -, -, n4⟩ := c20_round_trip hci pr i1.1 (r := .powerBasis) (r' := .ntt) (by simp) (by simp) i1.2.1 i1.2.2.1
  have f2 := c20_same pr (Poly.random c fromTape .ntt) (by simp [Poly.random])
  obtain ⟨x, x1, x2⟩ := c21_mul hci pr f1 ((n4 _).mp i1)
  obtain ⟨y, y1, y2⟩ := c21_sub hci pr x2 m4
  obtain ⟨z, z1, -, -, -, -, z2⟩ := c20_round_trip hci pr y2.1 (r := .ntt) (r' := .powerBasis) (by simp) (by simp) y2.2.1 y2.2.2.1
  have z3 : Denotes c .powerBasis (cf (-E)) z := by
    refine (c20_denotes_unique hci (by simp) ((z2 _).mp y2)).mpr fun k hk => ?_
    rw [← cf_mul hN _ _ hk, ← cf_mul hN _ _ hk, ← cf_add hN, ← cf_sub hN]
    obtain ⟨w, hw⟩ := s5
    have : src * inp - (r1 * keyRing N sk + r0) = -E + ((levelQ l 0 : ℤ) : Rg N) * (-w) := by linear_combination -hw
    rw [this, cf_add hN, cf_int_mul hN, hQ]
    exact Int.modEq_iff_dvd.mpr ⟨-(cf (-w) k), by ring⟩
  have hex := c25_export hci z3
  obtain ⟨rns, t1⟩ := (c18_new_iff l).mpr (by
    obtain ⟨K, -, hw, h7⟩ := RqP.ctx hci
    rw [← h7, hw.core.m64]
    exact ⟨hw.core.rns.bound, hw.core.rns.cop⟩)
  have t2 := c18_modulus t1
  have hpos : 0 < l.prod := by
    have := h.prod_ge.1
    rw [hQ] at this
    omega
  unfold Tests.ksk
  rw [idx_of hc, res_ok_bind, k1, res_ok_bind, e1, res_ok_bind]
  dsimp only
  rw [g1, res_ok_bind, s1, res_ok_bind]
  dsimp only
  rw [m1, res_ok_bind, m3, res_ok_bind, show (Poly.random c fromTape .ntt).changeRepresentation pr .ntt = .ok (Poly.random c fromTape .ntt) from f2,
    res_ok_bind, n1, res_ok_bind, x1, res_ok_bind, y1, res_ok_bind, z1, res_ok_bind, hP, t1, res_ok_bind, hex, res_ok_bind,
    show rns.product = l.prod from t2]
  have hsmall : switchNoise N l 0 * 20 < (l.prod : ℤ) := by
    have h1 := h.room
    have h2 := h.switch_nonneg
    have h3 : (2 : ℤ) ≤ t := by exact_mod_cast h.t_pos
    have h4 : (2 ^ 122 : ℤ) ≤ l.prod := by rw [← hQ]; exact_mod_cast h.prod_ge.1
    nlinarith
  have key : ∀ x : Nat, x < 2 ^ limit → SecretKey.bitLength x ≤ limit := by
    intro x hx
    unfold SecretKey.bitLength
    split
    · omega
    · rename_i h0
      have := (Nat.log2_lt h0).mpr hx
      omega
  have fold : ∀ bs : List Nat, (∀ b ∈ bs, b ≤ l.prod ∧ (b < 2 ^ limit ∨ l.prod - b < 2 ^ limit)) → foldR (fun (_ : Unit) b => do
      let d ← if b ≤ l.prod then .ok (l.prod - b) else .error .overflow
      rassert (min (SecretKey.bitLength b) (SecretKey.bitLength d) ≤ limit)) () bs = .ok () := by
    intro bs
    induction bs with
    | nil => intro _; rfl
    | cons b bs ih =>
      intro hb
      obtain ⟨b1, b2⟩ := hb b (by simp)
      rw [foldR_cons, if_pos b1, res_ok_bind]
      dsimp only
      rw [rassert_ok, res_ok_bind, ih fun x hx => hb x (by simp [hx])]
      rcases b2 with b2 | b2
      · exact (min_le_left _ _).trans (key _ b2)
      · exact (min_le_right _ _).trans (key _ b2)
  refine fold _ fun b hb => ?_
  obtain ⟨j, hj, rfl⟩ := List.mem_map.mp hb
  have hE := s4 j (List.mem_range.mp hj)
  have hE' := s6 j (List.mem_range.mp hj)
  have h20 : (((20 : Nat) : ℤ)) = 20 := by norm_num
  rw [h20, abs_le] at hE
  rw [abs_lt] at hE'
  rw [cf_neg hN]
  have hq0 : (0 : ℤ) < l.prod := by exact_mod_cast hpos
  have b1 := Int.emod_lt_of_pos (-cf E j) hq0
  have b2 := Int.emod_nonneg (-cf E j) hq0.ne'
  refine ⟨by omega, ?_⟩
  have hl2 : ((2 ^ limit : Nat) : ℤ) = 2 ^ limit := by norm_cast
  rcases le_or_gt (cf E j) 0 with h0 | h0
  · left
    rw [Int.emod_eq_of_lt (by omega) (by omega)]
    omega
  · right
    have : (-cf E j) % (l.prod : ℤ) = l.prod - cf E j := by
      rw [← Int.add_emod_right, Int.emod_eq_of_lt (by omega) (by omega)]; ring
    rw [this]
    omega

/-- C71: `ksk` of ksk.rs with any limit on the number of bits above the worst case, for all randomness. -/
theorem c71_ksk (h : TestParams N t l P) (pr : Profile) {limit : Nat} (hlim : switchNoise N l 0 * 20 < 2 ^ limit) {skRng : Nat → Nat}
    (hs : ∀ i, skRng i < 2 ^ 64) {fromTape inputTape : Nat → Nat → Nat} (hf : TapeAt l 0 fromTape) (hi : TapeAt l 0 inputTape)
    {a : Nat → Nat → Nat → Nat} (ha : ∀ j, TapeAt l 0 (a j)) {r : Nat → Nat → Nat} (hr : ∀ j i, r j i < 2 ^ 64) :
    Tests.ksk pr P limit skRng fromTape a r inputTape = .ok () := by
  obtain ⟨c, hc, hci⟩ := h.ctx0
  obtain ⟨inp, i1⟩ := random_den h hi (rep := .powerBasis) (by simp) hc
  refine c71_ksk_of_error h pr hs hf ha hr (inp := inp) (fun c' hc' => ?_) fun e he k hk => ?_
  · obtain rfl := Option.some.inj (hc.symm.trans hc')
    exact i1
  · refine lt_of_le_of_lt (c77_error_bound (B := 20) h.N_pos (fun q hq => by have := (h.bits q hq).1; omega) (i := 0) inp
      (fun j x hx => sample_bound (hr j) (he j) hx) k hk) ?_
    exact_mod_cast hlim

/-- C71: for the parameters of the test `ksk`, two moduli and degree 8, the difference has at most 71 bits, whatever the randomness. The test
asks for at most 70; the worst case `8 · 20 · (q₀ + q₁)` is above `2^70` for the moduli the code generates. -/
theorem c71_ksk_71 (h : TestParams 8 t l P) (hl : l.length = 2) (pr : Profile) {skRng : Nat → Nat}
    (hs : ∀ i, skRng i < 2 ^ 64) {fromTape inputTape : Nat → Nat → Nat} (hf : TapeAt l 0 fromTape) (hi : TapeAt l 0 inputTape)
    {a : Nat → Nat → Nat → Nat} (ha : ∀ j, TapeAt l 0 (a j)) {r : Nat → Nat → Nat} (hr : ∀ j i, r j i < 2 ^ 64) :
    Tests.ksk pr P 71 skRng fromTape a r inputTape = .ok () := by
  refine c71_ksk h pr ?_ hs hf hi ha hr
  have := h.switch
  rw [hl] at this
  norm_num at this ⊢
  linarith

/-! ### rgsw.rs -/

/-- C71: `external_product` of rgsw.rs passes for all values and all randomness. -/
theorem c71_external_product (h : TestParams N t l P) (pr : Profile) {sample : Nat → Nat → Nat} (hsam : ∀ p i, 0 < p → sample p i < p)
    (hgood : ∃ i, i < 100 ∧ sample t i ^ ((t - 1) / 2) % t = t - 1) (bd : BitDecomposition) {skRng : Nat → Nat}
    (hs : ∀ i, skRng i < 2 ^ 64) {v1 v2 : List Nat} (hv1 : IsVec t N v1) (hv2 : IsVec t N v2) {a : Nat → Nat → Nat} (ha : TapeAt l 0 a)
    {r : Nat → Nat} (hr : ∀ i, r i < 2 ^ 64) {a0 a1 : Nat → Nat → Nat → Nat} (ha0 : ∀ j, TapeAt l 0 (a0 j)) (ha1 : ∀ j, TapeAt l 0 (a1 j))
    {r0 r1 : Nat → Nat → Nat} (hr0 : ∀ j i, r0 j i < 2 ^ 64) (hr1 : ∀ j i, r1 j i < 2 ^ 64) :
    Tests.externalProduct pr sample P bd skRng v1 v2 a r a0 a1 r0 r1 = .ok () := by
  have hN := h.N_pos
  have ht : t < 2 ^ 64 := h.pt.trans (by norm_num)
  have ht0 := h.t_pos
  have ht' : (t : ℤ) ≤ 2 ^ 21 := by exact_mod_cast h.pt.le
  have hN' : (N : ℤ) ≤ 2 ^ 11 := by exact_mod_cast h.deg
  have hPt : P.plaintextModulus = t := (c51_levels h.params).2.1
  obtain ⟨sk, k1, k2, -⟩ := h.key pr hs
  obtain ⟨c, hc, hci⟩ := h.ctx0
  have hpad : v1 ++ List.replicate (N - v1.length) 0 = v1 := by rw [hv1.1]; simp
  have hP := h.plain pr hv1.1.le
  rw [hpad] at hP
  obtain ⟨ct, f0, f1, c1, c2, c3⟩ := h.enc pr k2 hv1.1.le (fun x hx => (hv1.2 x hx).trans ht) ha hr .poly
  obtain ⟨p, p', p1, -, p3, p4⟩ := h.import_words pr hc hv2.1.le (fun x hx => (hv2.2 x hx).trans ht)
  obtain ⟨g, g1, g2⟩ := c39_encrypt_poly h.params k2 pr (by norm_num) (by norm_num) p4 ha0 ha1 hr0 hr1
  obtain ⟨e0, e1, s0, s1, E, x1, x2, -, -, x5⟩ := c39_external_product h.params pr g2 c2
  have hroom := h.room
  have b5 : (N : ℤ) * (22 * t) * t ≤ 2 ^ 11 * (22 * 2 ^ 21) * 2 ^ 21 := by gcongr
  have b6 : (2 * ((10 : Nat) : ℤ) + 2 * ((10 : Nat) : ℤ)) = 40 := by norm_num
  have x6 := x5 _ _ _ c3 (h.bdd_msg hv2.2)
  rw [b6] at x6
  obtain ⟨pt, d1, -, -, d4⟩ := h.dec pr k2 x2 (by norm_num at b5 hroom ⊢; linarith) x6
  obtain ⟨pc, y1, y2⟩ := h.ptCtx pr hsam hgood bd
  obtain ⟨z1, z11, z12⟩ := c25_from_u64 y2 pr hv1.1.le (fun x hx => (hv1.2 x hx).trans ht)
  obtain ⟨z2, z21, z22⟩ := c25_from_u64 y2 pr hv2.1.le (fun x hx => (hv2.2 x hx).trans ht)
  obtain ⟨w1, w11, -, -, -, -, w12⟩ := c20_round_trip y2 pr z12.1 (r := .powerBasis) (r' := .ntt) (by simp) (by simp) z12.2.1 z12.2.2.1
  obtain ⟨w2, w21, -, -, -, -, w22⟩ := c20_round_trip y2 pr z22.1 (r := .powerBasis) (r' := .ntt) (by simp) (by simp) z22.2.1 z22.2.2.1
  have u1 := (w12 _).mp (TestParams.denotes_msg y2 hN (by simp) z12)
  have u2 := (w22 _).mp (TestParams.denotes_msg y2 hN (by simp) z22)
  obtain ⟨m, m1, m2⟩ := c21_mul y2 pr u1 u2
  obtain ⟨n, n1, n2, n3, -, -, n4⟩ := c20_round_trip y2 pr m2.1 (r := .ntt) (r' := .powerBasis) (by simp) (by simp) m2.2.1 m2.2.2.1
  have hrows := TestParams.rows y2 ((n4 _).mp m2)
  obtain ⟨tm, t1⟩ := (c01_modulus_new t).mpr ⟨ht0, h.pt.trans (by norm_num)⟩
  have hex : n.coefficients.flatten = residues t (msgRing N v1 * msgRing N v2) := by
    rw [hrows]
    unfold residues
    simp only [List.map_cons, List.map_nil, List.flatten_cons, List.flatten_nil, List.append_nil]
    exact List.map_congr_left fun k hk => by rw [cf_mul hN _ _ (List.mem_range.mp hk)]
  have hlt : ∀ x ∈ residues t (msgRing N v1 * msgRing N v2), x < t := by
    intro x hx
    obtain ⟨k, -, rfl⟩ := List.mem_map.mp hx
    have h1 := Int.emod_lt_of_pos (cf (msgRing N v1 * msgRing N v2) k) (show (0 : ℤ) < t by omega)
    have h2 := Int.emod_nonneg (cf (msgRing N v1 * msgRing N v2) k) (show (t : ℤ) ≠ 0 by omega)
    omega
  have hred := c02_reduce_vec_u64 t1 pr (fun x hx => (hlt x hx).trans ht)
  have hid : (residues t (msgRing N v1 * msgRing N v2)).map (fun x => x % t) = residues t (msgRing N v1 * msgRing N v2) := by
    conv_rhs => rw [← List.map_id (residues t (msgRing N v1 * msgRing N v2))]
    exact List.map_congr_left fun x hx => Nat.mod_eq_of_lt (hlt x hx)
  rw [hid] at hred
  unfold Tests.externalProduct
  rw [k1, res_ok_bind, hP, res_ok_bind, c1, res_ok_bind, idx_of hc, res_ok_bind, p1, res_ok_bind, p3, res_ok_bind, g1, res_ok_bind, x1,
    res_ok_bind]
  dsimp only
  rw [d1, res_ok_bind, y1, res_ok_bind, z11, res_ok_bind, z21, res_ok_bind, w11, res_ok_bind, w21, res_ok_bind, m1, res_ok_bind, n1,
    res_ok_bind, hPt, t1, res_ok_bind, hex, hred, res_ok_bind]
  exact rassert_ok d4

/-! ### rq.rs -/

/-- C71: `change_representation` of rq.rs passes for every context and polynomial. -/
theorem c71_change_representation {c : RqContext} (hc : IsContext N l c) (pr : Profile) {tape : Nat → Nat → Nat}
    (ht : ∀ i, i < l.length → ∀ j, tape i j < l.getD i 1) : Tests.changeRepresentation pr c tape = .ok () := by
  obtain ⟨p, h1, -, -, -, h2, -⟩ := c20_round_trip hc pr (p := Poly.random c tape .powerBasis) rfl (r := .powerBasis) (r' := .ntt)
    (by simp) (by simp) rfl (random_valid hc ht _)
  unfold Tests.changeRepresentation
  simp only [h1, res_ok_bind, h2]
  exact rassert_ok trivial

theorem Tests.div_eq {c n q : Nat} (hn : n % 2 = 1) (hq : q % 2 = 1) : (c * n + n * q / 2) / (n * q) = (c + q / 2) / q := by
  obtain ⟨a, rfl⟩ : ∃ a, n = 2 * a + 1 := ⟨n / 2, by omega⟩
  obtain ⟨b, rfl⟩ : ∃ b, q = 2 * b + 1 := ⟨q / 2, by omega⟩
  have h1 : (2 * a + 1) * (2 * b + 1) / 2 = (2 * a + 1) * b + a := by
    rw [show (2 * a + 1) * (2 * b + 1) = 2 * ((2 * a + 1) * b + a) + 1 by ring]; omega
  have h2 : (2 * b + 1) / 2 = b := by omega
  rw [h1, h2, show c * (2 * a + 1) + ((2 * a + 1) * b + a) = (c + b) * (2 * a + 1) + a by ring, ← Nat.div_div_eq_div_mul,
    show ((c + b) * (2 * a + 1) + a) / (2 * a + 1) = c + b by
      rw [Nat.mul_comm, Nat.mul_add_div (by omega), Nat.div_eq_of_lt (by omega)]; rfl]

theorem Tests.modSwitchLoop_ok (pr : Profile) : ∀ (fuel : Nat) {l : List Nat} {c : RqContext} (_ : IsContext N l c) {poly : Poly} {A : Nat → ℤ}
    (_ : Denotes c .powerBasis A poly), l.length ≤ fuel + 1 →
    Tests.modSwitchLoop pr fuel c poly ((List.range N).map fun k => (A k % (l.prod : ℤ)).toNat) = .ok () := by
  intro fuel
  induction fuel with
  | zero =>
    intro l c hc poly A hp hl
    obtain ⟨K, rfl, hw, rfl⟩ := RqP.ctx hc
    obtain ⟨h64, pr', sample, bd, hs, hnew⟩ := hc
    have := (RqContext.new_next hs h64 hnew).2 (by omega)
    unfold Tests.modSwitchLoop
    rw [this]
  | succ fuel ih =>
    intro l c hc poly A hp hl
    by_cases h1 : l.length ≤ 1
    · obtain ⟨K, rfl, hw, rfl⟩ := RqP.ctx hc
      obtain ⟨h64, pr', sample, bd, hs, hnew⟩ := hc
      have := (RqContext.new_next hs h64 hnew).2 (by omega)
      unfold Tests.modSwitchLoop
      rw [this]
    · obtain ⟨l', q, rfl⟩ : ∃ l' q, l = l' ++ [q] := ⟨l.dropLast, l.getLast (by rintro rfl; simp at h1), (List.dropLast_append_getLast _).symm⟩
      have hl' : l' ≠ [] := by rintro rfl; simp at h1
      have hp' : Denotes c .powerBasis (fun k => A k % ((l' ++ [q]).prod : ℤ)) poly :=
        (c20_denotes_unique hc (by simp) hp).mpr fun k _ => (Int.mod_modEq _ _).symm
      obtain ⟨c', b, B, h2, h3, h4, h5, h6⟩ := c23_switch hc hl' pr hp'
      have hprod : c.rns.product = l'.prod * q := by
        obtain ⟨K, -, hw, h7⟩ := RqP.ctx hc
        rw [hw.core.prod, h7]; simp
      have hprod' : c'.rns.product = l'.prod := by
        obtain ⟨K, -, hw, h7⟩ := RqP.ctx h3
        rw [hw.core.prod, h7]
      have hodd : ∀ q' ∈ l' ++ [q], q' % 2 = 1 := by
        obtain ⟨K, -, hw, h7⟩ := RqP.ctx hc
        rw [← h7, hw.core.m64_ops]
        intro q' hq'
        obtain ⟨op, hop, rfl⟩ := List.mem_map.mp hq'
        obtain ⟨psi, psiInv, ho⟩ := hw.core.ops op hop
        have h8 := ho.cong
        have h9 := Nat.mod_mul_right_mod op.p.p 2 (2 ^ K)
        rw [h8] at h9
        exact h9.symm
      have hq := hodd q (by simp)
      have hprodd : ∀ l' : List Nat, (∀ q ∈ l', q % 2 = 1) → l'.prod % 2 = 1 := by
        intro l'
        induction l' with
        | nil => intro _; rfl
        | cons a l' ih =>
          intro h
          rw [List.prod_cons, Nat.mul_mod, h a (by simp), ih fun q hq => h q (by simp [hq])]
      have hn := hprodd l' fun q hq => hodd q (by simp [hq])
      have hn0 : l'.prod ≠ 0 := by rintro h0; rw [h0] at hn; omega
      have hq0 : q ≠ 0 := by rintro rfl; omega
      have hexp : ((List.range N).map fun k => (A k % ((l' ++ [q]).prod : ℤ)).toNat).map (fun coeff => (coeff * l'.prod + l'.prod * q / 2) / (l'.prod * q) % l'.prod) =
          (List.range N).map fun k => (B k % (l'.prod : ℤ)).toNat := by
        rw [List.map_map]
        refine List.map_congr_left fun k hk => ?_
        have h7 := (h6 k (List.mem_range.mp hk)).2
        have h8 : 0 ≤ A k % ((l' ++ [q]).prod : ℤ) := Int.emod_nonneg _ (by
          rw [List.prod_append, List.prod_singleton]; exact_mod_cast Nat.mul_ne_zero hn0 hq0)
        simp only [Function.comp]
        rw [h7, Tests.div_eq hn hq]
        generalize hx : (A k % ((l' ++ [q]).prod : ℤ)) = x at *
        obtain ⟨x', rfl⟩ := Int.eq_ofNat_of_zero_le h8
        norm_cast
      have hexp' : mapR (fun coeff => do
            let x ← divR (coeff * c'.rns.product + c.rns.product / 2) c.rns.product
            if c'.rns.product = 0 then Except.error Panic.divZero else .ok (x % c'.rns.product))
          ((List.range N).map fun k => (A k % ((l' ++ [q]).prod : ℤ)).toNat) = .ok ((List.range N).map fun k => (B k % (l'.prod : ℤ)).toNat) := by
        rw [← hexp, hprod, hprod']
        refine mapR_ok fun x _ => ?_
        rw [divR_ok (Nat.mul_ne_zero hn0 hq0), res_ok_bind, if_neg hn0]
      unfold Tests.modSwitchLoop
      rw [h2]
      dsimp only
      rw [h4, res_ok_bind, rassert_ok h5.1, res_ok_bind, c25_export h3 h5, res_ok_bind, hexp', res_ok_bind, rassert_ok rfl, res_ok_bind]
      exact ih h3 h5 (by simp at hl; omega)

/-- C71: `mod_switch` of rq.rs passes for every context and polynomial: switching down rounds to the nearest integer at every level. -/
theorem c71_mod_switch {c : RqContext} (hc : IsContext N l c) (pr : Profile) {tape : Nat → Nat → Nat}
    (ht : ∀ i, i < l.length → ∀ j, tape i j < l.getD i 1) : Tests.modSwitch pr c tape = .ok () := by
  obtain ⟨A, h1, -⟩ := c20_denotes hc (p := Poly.random c tape .powerBasis) rfl (by simp [Poly.random]) (random_valid hc ht _)
  have h2 := c25_export hc h1
  have hlen : c.moduli.length = l.length := by
    obtain ⟨K, -, hw, rfl⟩ := RqP.ctx hc
    rw [hw.core.mods, hw.core.m64, ← hw.core.rns.ps, List.length_map]
  unfold Tests.modSwitch
  dsimp only
  rw [h2, res_ok_bind, hlen]
  exact Tests.modSwitchLoop_ok pr _ hc h1 (by omega)

/-! ### ntt.rs, utils.rs -/

/-- C71: `bijection` of ntt.rs passes for every modulus and size an operator can be built for. -/
theorem c71_bijection (pr : Profile) {q n : Nat} {m : Modulus} (hm : Modulus.new q = .ok m) (hn : n < 2 ^ 64) {sample : Nat → Nat}
    (hs : ∀ i, sample i < q) {op : NttOperator} (hop : NttOperator.new pr sample m n = .ok op) {a : List Nat} (ha : IsVec q n a) :
    Tests.bijection pr sample q n a = .ok () := by
  obtain ⟨b, h1, -, h2⟩ := c16_backward_forward hm pr pr hn hs hop ha
  unfold Tests.bijection
  rw [hm, res_ok_bind, hop, res_ok_bind, h1, res_ok_bind, h2, res_ok_bind]
  exact rassert_ok rfl

theorem Tests.horner (pr : Profile) {B : Nat} (hB : 0 < B) : ∀ ds : List Nat, ∑ i ∈ Finset.range ds.length, ds.getD i 0 * B ^ i < 2 ^ 64 →
    foldR (fun acc b => do
      let x ← mulW 64 pr acc B
      addW 64 pr x b) 0 ds.reverse = .ok (∑ i ∈ Finset.range ds.length, ds.getD i 0 * B ^ i) := by
  intro ds
  induction ds with
  | nil => intro _; rfl
  | cons d ds ih =>
    intro h
    have hs : ∑ i ∈ Finset.range (d :: ds).length, (d :: ds).getD i 0 * B ^ i =
        (∑ i ∈ Finset.range ds.length, ds.getD i 0 * B ^ i) * B + d := by
      rw [List.length_cons, Finset.sum_range_succ', Finset.sum_mul]
      simp only [List.getD_cons_succ, List.getD_cons_zero, pow_zero, mul_one, pow_succ, mul_assoc]
    rw [hs] at h ⊢
    have := Nat.le_mul_of_pos_right (∑ i ∈ Finset.range ds.length, ds.getD i 0 * B ^ i) hB
    rw [List.reverse_cons, foldR_append, ih (by omega), res_ok_bind, foldR_cons, mulW_ok (by omega), res_ok_bind, addW_ok h, res_ok_bind]
    rfl

/-- C71: `test_decompose_bits` of utils.rs passes for every value. -/
theorem c71_decompose_bits (pr : Profile) {value : Nat} (h : value < 2 ^ 64) : Tests.decomposeBits pr value = .ok () := by
  obtain ⟨ds, h1, -, -, h4⟩ := c08_decompose_bits pr (n := 64) (k := 4) h (by norm_num) h (by norm_num)
  have h5 : ∑ i ∈ Finset.range ds.length, ds.getD i 0 * (2 ^ 4) ^ i = value := by
    rw [← h4]; exact Finset.sum_congr rfl fun i _ => by rw [← pow_mul]
  unfold Tests.decomposeBits
  rw [h1, res_ok_bind, Tests.horner pr (B := 2 ^ 4) (by norm_num) ds (by rw [h5]; exact h), res_ok_bind, h5]
  exact rassert_ok rfl

/-- C71: `test_bit_vector` of utils.rs passes for every value. -/
theorem c71_bit_vector (pr : Profile) {m : Nat} (h : m < 2 ^ 64) : Tests.bitVector pr m = .ok () := by
  obtain ⟨r, h1, h2, h3⟩ := c08_bit_vector (n := 64) (by norm_num) h
  have h4 := bitsVal_eq r m (by rw [h2]; exact h) h3
  have key : ∀ r : List Bool, bitsVal r < 2 ^ 64 → foldR (fun acc b => do
      let x ← mulW 64 pr acc 2
      addW 64 pr x (if b then 1 else 0)) 0 r.reverse = .ok (bitsVal r) := by
    intro r
    induction r with
    | nil => intro _; rfl
    | cons b r ih =>
      intro h
      have hb : (if b = true then 1 else 0) = b.toNat := by cases b <;> rfl
      simp only [bitsVal] at h ⊢
      rw [List.reverse_cons, foldR_append, ih (by omega), res_ok_bind, foldR_cons, mulW_ok (by omega), res_ok_bind, hb, addW_ok (by omega),
        res_ok_bind, foldR_nil]
      congr 1
      omega
  unfold Tests.bitVector
  rw [h1, res_ok_bind, key r (by rw [h4]; exact h), res_ok_bind, h4]
  exact rassert_ok rfl

/-! ### pvw.rs -/

/-- C71: `encrypt_decrypt` of pvw.rs passes exactly when decryption gives the message back; C46 says for which errors it does and C69 how
rarely it does not. -/
theorem c71_pvw (pr : Profile) (params : PvwParams) (skTape aTape rng : Nat → Nat → Nat) (e : Nat → Nat) (m : List Nat) :
    Tests.pvwEncryptDecrypt pr params skTape aTape rng e m = .ok () ↔ pvwRun pr params skTape aTape rng e m = .ok m := by
  have : Tests.pvwEncryptDecrypt pr params skTape aTape rng e m = (pvwRun pr params skTape aTape rng e m >>= fun d => rassert (d = m)) := by
    unfold Tests.pvwEncryptDecrypt pvwRun
    simp only [bind_assoc]
  rw [this]
  cases hr : pvwRun pr params skTape aTape rng e m with
  | error x => simp [bind, Except.bind]
  | ok d =>
    rw [res_ok_bind, rassert_eq_ok]
    exact ⟨fun h => by rw [h], fun h => Except.ok.inj h⟩

/-! ### evaluations.rs -/

/-- A query consists of zeros and ones. -/
theorem Tests.encode_bits {pr : Profile} {c : Client} {dims : List Nat} {rows : Nat} {v : List Nat} (h : c.encode pr dims rows = .ok v) :
    ∀ x ∈ v, x < 2 := by
  unfold Client.encode at h
  simp only [bind_eq_ok] at h
  obtain ⟨q0, -, -, -, x, -, p, -, y, -, -, -, rg, hrg, hv⟩ := h
  cases hv
  intro x hx
  rcases List.mem_append.mp hx with hx | hx
  · obtain ⟨i, -, rfl⟩ := List.mem_map.mp hx
    split <;> omega
  · obtain ⟨row, hrow, hx⟩ := List.mem_flatten.mp hx
    obtain ⟨h1, h2⟩ := mapR_eq_ok hrg
    obtain ⟨i, hi, rfl⟩ := List.mem_iff_getElem.mp hrow
    have h3 := h2 i (by omega) hi
    unfold Client.selector at h3
    simp only [bind_eq_ok] at h3
    obtain ⟨-, -, h3⟩ := h3
    rw [← Except.ok.inj h3] at hx
    obtain ⟨i, -, rfl⟩ := List.mem_map.mp hx
    split <;> omega

/-- The randomness of `Evaluation::build`. -/
structure EvalTapes (l : List Nat) (aTape : Nat → Nat → Nat → Nat → Nat) (rng : Nat → Nat → Nat → Nat) (a0 a1 : Nat → Nat → Nat → Nat)
    (r0 r1 : Nat → Nat → Nat) : Prop where
  a : ∀ k j, TapeAt l 0 (aTape k j)
  r : ∀ k j i, rng k j i < 2 ^ 64
  a0 : ∀ j, TapeAt l 0 (a0 j)
  a1 : ∀ j, TapeAt l 0 (a1 j)
  r0 : ∀ j i, r0 j i < 2 ^ 64
  r1 : ∀ j i, r1 j i < 2 ^ 64

variable {aTape : Nat → Nat → Nat → Nat → Nat} {rng : Nat → Nat → Nat → Nat} {a0 a1 : Nat → Nat → Nat → Nat} {r0 r1 : Nat → Nat → Nat}

theorem TestParams.build (h : TestParams N t l P) (pr : Profile) {sk : SecretKey} (hk : IsKey P sk) (ht : EvalTapes l aTape rng a0 a1 r0 r1) :
    ∃ ev, Evaluation.build pr sk P aTape rng a0 a1 r0 r1 = .ok ev := by
  obtain ⟨ev, h1, -⟩ := c41_build h.params hk pr (by norm_num) (by norm_num) (by have := h.two; omega) (h.deg.trans (by norm_num)) ht.a ht.r
    ht.a0 ht.a1 ht.r0 ht.r1
  exact ⟨ev, h1⟩

theorem TestParams.unpack (h : TestParams N t l P) (pr : Profile) {ct : BfvCipherText} {fs : List (Rg N)} (hct : IsCt P 0 fs ct)
    (ev : Evaluation) : ev.unpack pr ct = .error .assert :=
  c41_unpack_panics h.params (h.deg.trans (by norm_num)) pr ev hct.1 (by rw [hct.2.1]; have := h.two; omega)

/-- C71: the test `unpack` of evaluations.rs panics in `unpack`, for all values and all randomness. -/
theorem c71_unpack_panics (h : TestParams N t l P) (pr : Profile) {skRng : Nat → Nat} (hs : ∀ i, skRng i < 2 ^ 64) {v : List Nat}
    (hv : v.length ≤ N) (hv2 : ∀ x ∈ v, x < 2 ^ 64) (ht : EvalTapes l aTape rng a0 a1 r0 r1) {a : Nat → Nat → Nat} (ha : TapeAt l 0 a)
    {r : Nat → Nat} (hr : ∀ i, r i < 2 ^ 64) : Tests.unpack pr P skRng v aTape rng a0 a1 r0 r1 a r = .error .assert := by
  obtain ⟨sk, k1, k2, -⟩ := h.key pr hs
  obtain ⟨ev, e1⟩ := h.build pr k2 ht
  obtain ⟨ct, f0, f1, c1, c2, -⟩ := h.enc pr k2 (v := v ++ List.replicate (N - v.length) 0) (by simp; omega) (fun x hx => by
    rcases List.mem_append.mp hx with hx | hx
    · exact hv2 x hx
    · rw [(List.mem_replicate.mp hx).2]; norm_num) ha hr .poly
  unfold Tests.unpack
  rw [k1, res_ok_bind, e1, res_ok_bind, h.plain pr hv, res_ok_bind, c1, res_ok_bind]
  exact h.unpack pr c2 ev

/-- C71: the test `client_encode` of evaluations.rs panics in `unpack`, for all queries that fit and all randomness. -/
theorem c71_client_encode_panics (h : TestParams N t l P) (pr : Profile) {skRng0 skRng : Nat → Nat} (hs0 : ∀ i, skRng0 i < 2 ^ 64)
    (hs : ∀ i, skRng i < 2 ^ 64) {dims : List Nat} {rows : Nat} {v : List Nat} (hq : Client.default.encode pr dims rows = .ok v)
    (hv : v.length ≤ N) (ht : EvalTapes l aTape rng a0 a1 r0 r1) {a : Nat → Nat → Nat} (ha : TapeAt l 0 a)
    {r : Nat → Nat} (hr : ∀ i, r i < 2 ^ 64) :
    Tests.clientEncode pr P skRng0 skRng dims rows aTape rng a0 a1 r0 r1 a r = .error .assert := by
  obtain ⟨sk0, k0, -⟩ := h.key pr hs0
  have hu := c71_unpack_panics h pr hs hv (fun x hx => (Tests.encode_bits hq x hx).trans (by norm_num)) ht ha hr
  unfold Tests.clientEncode
  rw [k0, res_ok_bind, hq, res_ok_bind]
  exact hu

theorem TestParams.mulBig (h : TestParams N t l P) (pr : Profile) {p : Poly} {f : Rg N} (hp : PolyAt P 0 f p) (b : Nat) :
    ∃ s, ∃ g : Rg N, p.mulBig pr b = .ok s ∧ PolyAt P 0 g s := by
  obtain ⟨c, hc, hd⟩ := hp
  obtain ⟨c', hc', hci⟩ := h.ctx0
  rw [hc] at hc'
  cases hc'
  obtain ⟨s, h1, h2⟩ := c21_mul_big hci pr hd b
  exact ⟨s, ofCoeffs N fun k => b * cf f k, h1, c, hc, den_congr hci (by simp) h2 fun k hk => by rw [cf_ofCoeffs h.N_pos _ hk]⟩

/-- C71: the test `unpack_decomp` of evaluations.rs panics in `unpack`, for all values and all randomness. -/
theorem c71_unpack_decomp_panics (h : TestParams N t l P) (pr : Profile) {skRng : Nat → Nat} (hs : ∀ i, skRng i < 2 ^ 64) {v : List Nat}
    (hv : v.length ≤ N) (hv2 : ∀ x ∈ v, x < 2 ^ 64) (g0 : Nat) (ht : EvalTapes l aTape rng a0 a1 r0 r1) {a : Nat → Nat → Nat}
    (ha : TapeAt l 0 a) {r : Nat → Nat} (hr : ∀ i, r i < 2 ^ 64) :
    Tests.unpackDecomp pr P skRng v g0 aTape rng a0 a1 r0 r1 a r = .error .assert := by
  obtain ⟨sk, k1, k2, -⟩ := h.key pr hs
  obtain ⟨ev, e1⟩ := h.build pr k2 ht
  obtain ⟨c, hc, -⟩ := h.ctx0
  obtain ⟨p, p', p1, -, p3, p4⟩ := h.import_words pr hc hv hv2
  obtain ⟨s, g, s1, s2⟩ := h.mulBig pr p4 g0
  obtain ⟨ct, f0, f1, e, c1, c2, -⟩ := c30_encrypt_poly h.params k2 pr (by norm_num) (by norm_num) s2 ha hr
  unfold Tests.unpackDecomp
  rw [idx_of hc, res_ok_bind, k1, res_ok_bind, e1, res_ok_bind, p1, res_ok_bind, p3, res_ok_bind, s1, res_ok_bind, c1, res_ok_bind]
  exact h.unpack pr c2 ev

/-- C71: the test `pack_and_construct_rgsw` of evaluations.rs panics in the first call of `unpack`, for all queries and all randomness. -/
theorem c71_pack_panics (h : TestParams N t l P) (pr : Profile) {skRng : Nat → Nat} (hs : ∀ i, skRng i < 2 ^ 64) {v : List Nat}
    (hv : v.length ≤ N) (hv2 : ∀ x ∈ v, x < 2 ^ 64) (ht : EvalTapes l aTape rng a0 a1 r0 r1) {a : Nat → Nat → Nat → Nat}
    (ha : ∀ j, TapeAt l 0 (a j)) {r : Nat → Nat → Nat} (hr : ∀ j i, r j i < 2 ^ 64) :
    Tests.packAndConstructRgsw pr P skRng v aTape rng a0 a1 r0 r1 a r = .error .assert := by
  obtain ⟨sk, k1, k2, -⟩ := h.key pr hs
  obtain ⟨ev, e1⟩ := h.build pr k2 ht
  obtain ⟨c, hc, hci⟩ := h.ctx0
  obtain ⟨p, p', p1, -, p3, p4⟩ := h.import_words pr hc hv hv2
  obtain ⟨skp, e2⟩ : ∃ skp, sk.polyNtt pr c = .ok skp := by
    have hd : P.degree = N := (c51_levels h.params).1
    obtain ⟨p, p1, p2⟩ := c25_from_i64 hci pr (hd ▸ k2.2.1) k2.2.2
    obtain ⟨p', q1, -⟩ := c20_round_trip hci pr p2.1 (r := .powerBasis) (r' := .ntt) (by simp) (by simp) p2.2.1 p2.2.2.1
    exact ⟨p', by unfold SecretKey.polyNtt; rw [p1, res_ok_bind, q1]⟩
  have hg : c.rns.garner.length = l.length := by
    obtain ⟨K, -, hw, h7⟩ := RqP.ctx hci
    rw [hw.core.rns.g_len, ← hw.core.m64, h7]
  obtain ⟨x, xs, hx⟩ : ∃ x xs, c.rns.garner = x :: xs := by
    cases hgg : c.rns.garner with
    | nil => rw [hgg] at hg; have := h.two; simp at hg; omega
    | cons x xs => exact ⟨x, xs, rfl⟩
  obtain ⟨s, g, s1, s2⟩ := h.mulBig pr p4 x
  obtain ⟨ct, f0, f1, e, c1, c2, -⟩ := c30_encrypt_poly h.params k2 pr (by norm_num) (by norm_num) s2 (ha 0) (hr 0)
  unfold Tests.packAndConstructRgsw
  rw [k1, res_ok_bind, idx_of hc, res_ok_bind, e2, res_ok_bind, p1, res_ok_bind, p3, res_ok_bind, e1, res_ok_bind, hx, List.zipIdx_cons]
  unfold mapR
  dsimp only
  rw [s1, res_ok_bind, c1, res_ok_bind, h.unpack pr c2 ev]
  rfl

/-- C71: the test `query` of evaluations.rs panics in `decode`, for all databases and queries that fit and all randomness. -/
theorem c71_query_panics (h : TestParams N t l P) (pr : Profile) {db : List (List Nat)} (hdb : ∀ v ∈ db, v.length ≤ N ∧ ∀ x ∈ v, x < 2 ^ 64)
    {skRng : Nat → Nat} (hs : ∀ i, skRng i < 2 ^ 64) {dims : List Nat} {fd dim : Nat} {v : List Nat}
    (hq : Client.encode pr ⟨fd, dim⟩ dims db.length = .ok v) (hv : v.length ≤ N) (hv4 : 4 ≤ v.length)
    (ht : EvalTapes l aTape rng a0 a1 r0 r1) {aq : Nat → Nat → Nat} (haq : TapeAt l 0 aq) {rq : Nat → Nat} (hrq : ∀ i, rq i < 2 ^ 64)
    {a : Nat → Nat → Nat → Nat} (ha : ∀ j, TapeAt l 0 (a j)) {r : Nat → Nat → Nat} (hr : ∀ j i, r j i < 2 ^ 64) :
    Tests.query pr P db skRng dims fd dim aTape rng a0 a1 r0 r1 aq rq a r = .error .assert := by
  obtain ⟨sk, k1, k2, -⟩ := h.key pr hs
  obtain ⟨ev, e1⟩ := h.build pr k2 ht
  obtain ⟨c, hc, hci⟩ := h.ctx0
  have hbits : ∀ x ∈ v, x < 2 ^ 64 := fun x hx => (Tests.encode_bits hq x hx).trans (by norm_num)
  obtain ⟨ct, f0, f1, c1, c2, -⟩ := h.enc pr k2 (v := v ++ List.replicate (N - v.length) 0) (by simp; omega) (fun x hx => by
    rcases List.mem_append.mp hx with hx | hx
    · exact hbits x hx
    · rw [(List.mem_replicate.mp hx).2]; norm_num) haq hrq .poly
  obtain ⟨p, p', p1, -, p3, p4⟩ := h.import_words pr hc (v := v.drop 4) (by simp; omega) (fun x hx => hbits x (List.mem_of_mem_drop hx))
  have hrows : mapR (fun v => Plaintext.new pr P v 0 .poly) db =
      .ok (db.map fun v => (⟨P, 0, .poly, v ++ List.replicate (N - v.length) 0⟩ : Plaintext)) :=
    mapR_ok fun v hv => h.plain pr (hdb v hv).1
  obtain ⟨srv, s1, -⟩ := c43_new h.params pr fd dim (db := db.map fun v => (⟨P, 0, .poly, v ++ List.replicate (N - v.length) 0⟩ : Plaintext))
    (fun p hp => by
      obtain ⟨v, hv, rfl⟩ := List.mem_map.mp hp
      have := (hdb v hv).1
      simp; omega)
    (fun p hp x hx => by
      obtain ⟨v, hv, rfl⟩ := List.mem_map.mp hp
      rcases List.mem_append.mp hx with hx | hx
      · exact (hdb v hv).2 x hx
      · rw [(List.mem_replicate.mp hx).2]; norm_num)
  have hg : ∀ xs : List (Nat × Nat), ∃ cts, mapR (fun (x : Nat × Nat) => do
      let q ← p'.mulBig pr x.1
      sk.encryptPoly pr q (a x.2) (r x.2)) xs = .ok cts ∧ ∀ ct ∈ cts, ct.params = P ∧ ct.level < l.length := by
    intro xs
    induction xs with
    | nil => exact ⟨[], rfl, by simp⟩
    | cons x xs ih =>
      obtain ⟨cts, i1, i2⟩ := ih
      obtain ⟨s, g, s1, s2⟩ := h.mulBig pr p4 x.1
      obtain ⟨ct, f0, f1, e, c1, c2, -⟩ := c30_encrypt_poly h.params k2 pr (by norm_num) (by norm_num) s2 (ha x.2) (hr x.2)
      refine ⟨ct :: cts, ?_, fun y hy => ?_⟩
      · unfold mapR
        rw [s1, res_ok_bind, c1, res_ok_bind, i1, res_ok_bind]
      · rcases List.mem_cons.mp hy with rfl | hy
        · exact ⟨c2.1, by rw [c2.2.1]; have := h.two; omega⟩
        · exact i2 y hy
  obtain ⟨qs, q1, q2⟩ := hg c.rns.garner.zipIdx
  have hcts : Tests.queryCts pr P sk v aq rq a r = .ok (ct :: qs) := by
    unfold Tests.queryCts Tests.garnerCts
    rw [h.plain pr hv, res_ok_bind, c1, res_ok_bind, idx_of hc, res_ok_bind, if_pos hv4, res_ok_bind]
    dsimp only
    rw [p1, res_ok_bind, p3, res_ok_bind, q1, res_ok_bind]
  unfold Tests.query
  rw [hrows, res_ok_bind, k1, res_ok_bind, List.length_map, hq, res_ok_bind, hcts, res_ok_bind, e1, res_ok_bind, s1, res_ok_bind]
  exact c44_decode_panics h.params (h.deg.trans (by norm_num)) pr srv ev fun y hy => by
    rcases List.mem_cons.mp hy with rfl | hy
    · exact ⟨c2.1, by rw [c2.2.1]; have := h.two; omega⟩
    · exact q2 y hy

/-! ### Examples -/

namespace Ex

theorem test_gt (h : TestParams N t l P) : ∀ q ∈ l, 1 < q := fun q hq => by
  have := (h.bits q hq).1
  omega

theorem test_tapes (h : TestParams N t l P) : EvalTapes l (fun _ _ _ _ => 0) (fun _ _ i => i % 1000) (fun _ _ _ => 0) (fun _ _ _ => 0)
    (fun _ i => i % 1000) (fun _ i => i % 1000) :=
  ⟨fun _ _ => tape0 (test_gt h), fun _ _ => wordTape, fun _ => tape0 (test_gt h), fun _ => tape0 (test_gt h), fun _ => wordTape,
    fun _ => wordTape⟩

/-- `BfvParameters::default(n, 8, _)`, used in the tests of bfv.rs, ksk.rs and rgsw.rs. -/
theorem test_default {n : Nat} (hn : 2 ≤ n) (hn2 : n ≤ 27) : ∃ P l, BfvParameters.default .debug goodSample n 8 ⟨4, 8⟩ = .ok P ∧
    TestParams 8 1153 l P ∧ l.length = n ∧ ∀ q ∈ l, 2 ^ 61 ≤ q ∧ q < 2 ^ 62 := by
  obtain ⟨P, l', h1, -⟩ := c63_default_up_to_27_partial .debug (K := 3) (n := n) (by norm_num) (by norm_num) (by omega)
    hn2 goodSample_lt (fun q hq hc => ⟨0, by norm_num, goodSample_good hq (by rintro rfl; norm_num at hc)⟩) ⟨4, 8⟩
  obtain ⟨l, h2, h3⟩ := c71_default (N := 8) goodSample_lt hn (by omega) (by norm_num) h1
  exact ⟨P, l, h1, h2, h3⟩

/-- The parameters of the tests of evaluations.rs: degree 64, four moduli of 62 bits. -/
theorem test_eval : ∃ P l, TestParams 64 1785857 l P ∧ l.length = 4 ∧ ∀ q ∈ l, 2 ^ 61 ≤ q ∧ q < 2 ^ 62 := by
  obtain ⟨P, l, -, -, h1, h2, -, h3⟩ := c63_generate_then_new .debug (K := 6) (n := 4) (t := 1785857) (by norm_num) (by norm_num)
    (by norm_num) (by norm_num) (by norm_num) (by norm_num) (by norm_num) (by have := friendly_card (K := 6) (by norm_num); omega) goodSample_lt
    (fun q hq hc => ⟨0, by norm_num, goodSample_good hq (by rintro rfl; norm_num at hc)⟩) 10 ⟨4, 8⟩
  have hb : ∀ q ∈ l, 2 ^ 61 ≤ q ∧ q < 2 ^ 62 := fun q hq => by
    obtain ⟨-, a, b, -⟩ := (mem_friendly (by norm_num) (by norm_num)).mp (h3 q hq)
    exact ⟨a, b⟩
  exact ⟨P, l, .of_62 h1 (by norm_num) (by norm_num) (by omega) (by omega) hb, h2, hb⟩

theorem test_sampler : ∃ i, i < 100 ∧ goodSample 1153 i ^ ((1153 - 1) / 2) % 1153 = 1153 - 1 :=
  ⟨0, by norm_num, goodSample_good (by norm_num) (by norm_num)⟩

end Ex

/-- The tests of bfv.rs, ksk.rs and rgsw.rs on concrete values. -/
example : ∃ P, Tests.mulOp .debug P (fun i => i % 1000) [100] [200] (fun _ _ => 0) (fun _ _ => 0) (fun i => i % 1000) (fun i => i % 1000)
      (fun _ _ _ => 0) (fun _ i => i % 1000) = .ok (residues 1153 (msgRing 8 [100] * msgRing 8 [200])) ∧
    Tests.galoisKey .debug Ex.goodSample P ⟨4, 8⟩ 3 (fun i => i % 1000) (fun _ _ _ => 0) (fun _ i => i % 1000) [1, 2, 3, 4, 5, 6, 7, 1152]
      (fun _ _ => 0) (fun i => i % 1000) = .ok () ∧
    Tests.kskWithPt .debug P (fun i => i % 1000) [5] [34] (fun _ _ _ => 0) (fun _ i => i % 1000) =
      .ok (residues 1153 (msgRing 8 [5] * msgRing 8 [34])) ∧
    Tests.externalProduct .debug Ex.goodSample P ⟨4, 8⟩ (fun i => i % 1000) [1, 2, 3, 4, 5, 6, 7, 1152] [8, 7, 6, 5, 4, 3, 2, 1] (fun _ _ => 0)
      (fun i => i % 1000) (fun _ _ _ => 0) (fun _ _ _ => 0) (fun _ i => i % 1000) (fun _ i => i % 1000) = .ok () := by
  obtain ⟨P, l, -, h, -⟩ := Ex.test_default (n := 6) (by norm_num) (by norm_num)
  have ht := Ex.tape0 (i := 0) (Ex.test_gt h)
  exact ⟨P, c71_mul_op h .debug Ex.wordTape (by decide) (by decide) (by decide) (by decide) ht ht Ex.wordTape Ex.wordTape (fun _ => ht)
      (fun _ => Ex.wordTape),
    c71_galois_key h .debug Ex.goodSample_lt Ex.test_sampler ⟨4, 8⟩ (by decide) Ex.wordTape (fun _ => ht) (fun _ => Ex.wordTape)
      ⟨rfl, by decide⟩ ht Ex.wordTape,
    c71_ksk_with_pt h .debug Ex.wordTape (by decide) (by decide) (by decide) (by decide) (fun _ => ht) (fun _ => Ex.wordTape),
    c71_external_product h .debug Ex.goodSample_lt Ex.test_sampler ⟨4, 8⟩ Ex.wordTape ⟨rfl, by decide⟩ ⟨rfl, by decide⟩ ht Ex.wordTape
      (fun _ => ht) (fun _ => ht) (fun _ => Ex.wordTape) (fun _ => Ex.wordTape)⟩

/-- The test `ksk`. -/
example : ∃ P, Tests.ksk .debug P 71 (fun i => i % 1000) (fun _ _ => 0) (fun _ _ _ => 0) (fun _ i => i % 1000) (fun _ _ => 0) = .ok () := by
  obtain ⟨P, l, -, h, hl, -⟩ := Ex.test_default (n := 2) (by norm_num) (by norm_num)
  have ht := Ex.tape0 (i := 0) (Ex.test_gt h)
  exact ⟨P, c71_ksk_71 h hl .debug Ex.wordTape ht ht (fun _ => ht) (fun _ => Ex.wordTape)⟩

/-- The tests of evaluations.rs with the queries they use. -/
example : ∃ P, Tests.query .release P ((List.range 16).map fun i => [i, i, i, i]) (fun i => i % 1000) [3, 1, 1] 4 2 (fun _ _ _ _ => 0)
      (fun _ _ i => i % 1000) (fun _ _ _ => 0) (fun _ _ _ => 0) (fun _ i => i % 1000) (fun _ i => i % 1000) (fun _ _ => 0) (fun i => i % 1000)
      (fun _ _ _ => 0) (fun _ i => i % 1000) = .error .assert ∧
    Tests.packAndConstructRgsw .release P (fun i => i % 1000) [1, 0, 1, 0] (fun _ _ _ _ => 0)
      (fun _ _ i => i % 1000) (fun _ _ _ => 0) (fun _ _ _ => 0) (fun _ i => i % 1000) (fun _ i => i % 1000)
      (fun _ _ _ => 0) (fun _ i => i % 1000) = .error .assert := by
  obtain ⟨P, l, h, -, -⟩ := Ex.test_eval
  have ht := Ex.tape0 (i := 0) (Ex.test_gt h)
  exact ⟨P, c71_query_panics h .release (by decide +kernel) Ex.wordTape (v := [0, 0, 0, 1, 0, 1, 0, 1]) (by decide +kernel) (by decide) (by decide)
      (Ex.test_tapes h) ht Ex.wordTape (fun _ => ht) (fun _ => Ex.wordTape),
    c71_pack_panics h .release Ex.wordTape (by decide) (by decide) (Ex.test_tapes h) (fun _ => ht) (fun _ => Ex.wordTape)⟩

/-- The tests that succeed or panic, with the values of the code where it fixes them. -/
example : ∃ P l, TestParams 8 1153 l P ∧
    Tests.encryptDecrypt .debug P (fun i => i % 1000) [5, 5, 5, 5, 5, 5, 5, 5] (fun _ _ => 0) (fun _ _ => 0) (fun i => i % 1000) (fun i => i % 1000) = .ok () ∧
    Tests.encryptDecrypt .debug P (fun i => i % 1000) [0, 1, 2, 3, 4, 5, 6, 7] (fun _ _ => 0) (fun _ _ => 0) (fun i => i % 1000) (fun i => i % 1000) =
      .error .assert ∧
    Tests.unpack .debug P (fun i => i % 1000) [1, 0, 1] (fun _ _ _ _ => 0) (fun _ _ i => i % 1000) (fun _ _ _ => 0) (fun _ _ _ => 0)
      (fun _ i => i % 1000) (fun _ i => i % 1000) (fun _ _ => 0) (fun i => i % 1000) = .error .assert ∧
    Tests.unpackDecomp .debug P (fun i => i % 1000) [1, 0, 1] 4 (fun _ _ _ _ => 0) (fun _ _ i => i % 1000) (fun _ _ _ => 0) (fun _ _ _ => 0)
      (fun _ i => i % 1000) (fun _ i => i % 1000) (fun _ _ => 0) (fun i => i % 1000) = .error .assert ∧
    Tests.clientEncode .debug P (fun i => i % 1000) (fun i => i % 1000) [1, 3] 16 (fun _ _ _ _ => 0) (fun _ _ i => i % 1000) (fun _ _ _ => 0)
      (fun _ _ _ => 0) (fun _ i => i % 1000) (fun _ i => i % 1000) (fun _ _ => 0) (fun i => i % 1000) = .error .assert := by
  obtain ⟨P, l, -, h, -⟩ := Ex.test_default (n := 3) (by norm_num) (by norm_num)
  have ht := Ex.tape0 (i := 0) (Ex.test_gt h)
  refine ⟨P, l, h, (c71_encrypt_decrypt h .debug Ex.wordTape ⟨rfl, by decide⟩ ht ht Ex.wordTape Ex.wordTape).1 fun i j hi hj _ => ?_,
    c71_encrypt_decrypt_fails h .debug Ex.wordTape ⟨rfl, by decide⟩ ht ht Ex.wordTape Ex.wordTape (by decide),
    c71_unpack_panics h .debug Ex.wordTape (by decide) (by decide) (Ex.test_tapes h) ht Ex.wordTape,
    c71_unpack_decomp_panics h .debug Ex.wordTape (by decide) (by decide) 4 (Ex.test_tapes h) ht Ex.wordTape,
    c71_client_encode_panics h .debug Ex.wordTape Ex.wordTape (v := [0, 1, 0, 0, 0, 0, 0, 1]) (by decide +kernel) (by decide) (Ex.test_tapes h) ht Ex.wordTape⟩
  interval_cases i <;> interval_cases j <;> rfl

/-- The tests of rq.rs, ntt.rs, utils.rs and client.rs. -/
example : ∃ c, IsContext 8 [17, 97] c ∧ Tests.changeRepresentation .debug c (fun i j => i + j % 9) = .ok () ∧
    Tests.modSwitch .debug c (fun i j => i + j % 9) = .ok () ∧ Tests.bijection .debug (fun _ => 3) 17 8 [1, 2, 3, 4, 5, 6, 7, 8] = .ok () ∧
    Tests.decomposeBits .debug 1234567 = .ok () ∧ Tests.bitVector .release 1234567 = .ok () := by
  obtain ⟨c, hc⟩ := exists_context
  have ht : ∀ i, i < [17, 97].length → ∀ j, (fun i j => i + j % 9) i j < ([17, 97] : List Nat).getD i 1 := fun i hi j => by
    have hi : i < 2 := hi
    have := Nat.mod_lt j (show 0 < 9 by norm_num)
    interval_cases i <;> simp <;> omega
  obtain ⟨p, op, hp, hop⟩ := Ex.ntt17
  exact ⟨c, hc, c71_change_representation hc .debug ht, c71_mod_switch hc .debug ht,
    c71_bijection .debug hp (by norm_num) (fun _ => by norm_num) hop ⟨rfl, by decide⟩, c71_decompose_bits .debug (by norm_num),
    c71_bit_vector .release (by norm_num)⟩

end OnionPIR
