import Verif.Props.Bfv
/-
Properties C55 and C57: linear operations on ciphertexts of any number of components; `decrypt_trial`.
-/
namespace OnionPIR
open Rg Spec

variable {N t : Nat} {l : List Nat} {variance : Nat} {P : BfvParameters}

/-! ### C55: linear operations on ciphertexts with more than two components

`decrypt` handles any number of components and `Mul<&BfvCipherText>` returns three, but `Add`, `Sub`, `Mul<&Poly>`, `Mul<&Plaintext>`
and `Mul<&BigUint>` (src/bfv.rs:424-565) read `cts[0]` and `cts[1]` only, so C55 is false. -/

/-- The first two components. -/
def Spec.firstTwo (x : BfvCipherText) : BfvCipherText := { x with cts := x.cts.take 2 }

theorem isCt_firstTwo {i : Nat} {f0 f1 : Rg N} {fs : List (Rg N)} {x : BfvCipherText} (hx : IsCt P i (f0 :: f1 :: fs) x) :
    ∃ p0 p1 ps, x.cts = p0 :: p1 :: ps ∧ IsCt P i [f0, f1] (firstTwo x) := by
  obtain ⟨h1, h2, h3⟩ := hx
  obtain ⟨params, cts, level⟩ := x
  cases h3 with
  | cons h4 h3 =>
    cases h3 with
    | cons h5 h3 => exact ⟨_, _, _, rfl, h1, h2, .cons h4 (.cons h5 .nil)⟩

/-- What the operations compute on ciphertexts with at least two components: the operation on the first two, the others are dropped. Missing
from C55: the other components. -/
theorem c55_linear_partial (h : IsParams N t l variance P) (pr : Profile) {x y : BfvCipherText} {i : Nat} {f0 f1 g0 g1 : Rg N}
    {fs gs : List (Rg N)} (hx : IsCt P i (f0 :: f1 :: fs) x) (hy : IsCt P i (g0 :: g1 :: gs) y) (n : Nat) {p : Poly} {g : Rg N} (hp : PolyAt P i g p)
    {pt : Plaintext} (hl : pt.level = i) (hlen : pt.values.length ≤ N) (hv : ∀ a ∈ pt.values, a < 2 ^ 64) :
    ∃ z1 z2 z3 z4 z5, x.add pr y = .ok z1 ∧ x.sub pr y = .ok z2 ∧ x.mulBig pr n = .ok z3 ∧ x.mulPoly pr p = .ok z4 ∧ x.mulPlain pr pt = .ok z5 ∧
      IsCt P i [f0 + g0, f1 + g1] z1 ∧ IsCt P i [f0 - g0, f1 - g1] z2 ∧
      IsCt P i [f0 * ((n : ℤ) : Rg N), f1 * ((n : ℤ) : Rg N)] z3 ∧ IsCt P i [f0 * g, f1 * g] z4 ∧
      IsCt P i [f0 * msgRing N pt.values, f1 * msgRing N pt.values] z5 := by
  obtain ⟨p0, p1, ps, ex, hx'⟩ := isCt_firstTwo hx
  obtain ⟨q0, q1, qs, ey, hy'⟩ := isCt_firstTwo hy
  obtain ⟨z1, a1, b1, -⟩ := c32_add h pr hx' hy' 0
  obtain ⟨z2, a2, b2, -⟩ := c32_sub h pr hx' hy' 0
  obtain ⟨z3, a3, b3, -⟩ := c34_mul_big h pr n hx' 0
  obtain ⟨z4, a4, b4, -⟩ := c34_mul_poly h pr hx' hp 0
  obtain ⟨z5, a5, b5, -⟩ := c34_mul_plain h pr hx' hl hlen hv 0
  obtain ⟨xp, xc, xl⟩ := x
  obtain ⟨yp, yc, yl⟩ := y
  obtain rfl : xc = _ := ex
  obtain rfl : yc = _ := ey
  exact ⟨z1, z2, z3, z4, z5, a1, a2, a3, a4, a5, b1, b2, b3, b4, b5⟩

/-- The phase of the result is the expected one only if the dropped part `s^2 (f_2 + f_3 s + …)` vanishes. -/
theorem c55_phase_partial (s f0 f1 : Rg N) (fs : List (Rg N)) : phase s (f0 :: f1 :: fs) = phase s [f0, f1] + s ^ 2 * phase s fs := by
  simp only [phase]; ring

/-- C55 is violated: for every message there are a key and a three-component ciphertext that decrypts to the message, whereas the sum with
a ciphertext of 0, the difference, and the product by 1 all decrypt to 0. -/
theorem c55_linear_wrong (h : IsParams N t l variance P) (pr : Profile) (h2t : 2 * t ≤ l.getD 0 0) {i : Nat} (hi : i < l.length)
    (h4t : 4 * t ≤ levelQ l i) (m : Rg N) :
    ∃ sk x y px py, IsKey P sk ∧ sk.decrypt pr x = .ok px ∧ px.values = residues t m ∧ sk.decrypt pr y = .ok py ∧ py.values = residues t (0 : Rg N) ∧
      ∃ z1 z2 z3 p1 p2 p3, x.add pr y = .ok z1 ∧ x.sub pr y = .ok z2 ∧ x.mulBig pr 1 = .ok z3 ∧
        sk.decrypt pr z1 = .ok p1 ∧ sk.decrypt pr z2 = .ok p2 ∧ sk.decrypt pr z3 = .ok p3 ∧
        p1.values = residues t (0 : Rg N) ∧ p2.values = residues t (0 : Rg N) ∧ p3.values = residues t (0 : Rg N) := by
  have hNt : 0 < N ∧ 0 < t := by
    obtain ⟨K, ext, rfl, hw, rfl, -, -⟩ := BfvP.params h
    exact ⟨by positivity, hw.t_prime.pos⟩
  obtain ⟨hN, ht⟩ := hNt
  set Q := levelQ l i with hQ
  set f : Rg N := ofCoeffs N fun k => (Q : ℤ) * cf m k / t with hf
  have hdeg : P.degree = N := (c51_levels h).1
  have hk : IsKey P ⟨P, [1]⟩ := ⟨rfl, by rw [hdeg]; exact hN, by simp⟩
  have hs : keyRing N ⟨P, [1]⟩ = 1 := by
    unfold keyRing ofCoeffs
    rw [Finset.sum_eq_single 0]
    · simp
    · intro b _ hb
      dsimp only
      rw [show ([1] : List ℤ).getD b 0 = 0 by cases b with
        | zero => exact absurd rfl hb
        | succ b => rfl]
      simp
    · intro h0; exact absurd (Finset.mem_range.mpr hN) h0
  have hem : Encodes t Q m f t := by
    refine ⟨ofCoeffs N fun k => -((Q : ℤ) * cf m k % t), 0, fun k hk => ?_, ?_⟩
    · rw [cf_ofCoeffs hN _ hk, abs_neg, abs_of_nonneg (Int.emod_nonneg _ (by omega))]
      exact (Int.emod_lt_of_pos _ (by omega)).le
    · rw [mul_zero, mul_zero, add_zero]
      have hm : ((Q : ℤ) : Rg N) * m = ∑ k ∈ Finset.range N, ((Q : ℤ) : Rg N) * ((cf m k : Rg N) * xx ^ k) := by
        conv_lhs => rw [← ofCoeffs_cf hN m]
        unfold ofCoeffs
        rw [Finset.mul_sum]
      rw [hm, hf]
      unfold ofCoeffs
      rw [Finset.mul_sum, ← Finset.sum_add_distrib]
      refine Finset.sum_congr rfl fun k _ => ?_
      dsimp only
      have := Int.emod_add_mul_ediv ((Q : ℤ) * cf m k) t
      rw [show (-((Q : ℤ) * cf m k % t) : ℤ) = t * ((Q : ℤ) * cf m k / t) - Q * cf m k by linarith]
      push_cast; ring
  have he0 : Encodes t Q (0 : Rg N) 0 t := ⟨0, 0, (Bdd.zero hN).mono (by positivity), by ring⟩
  obtain ⟨p, hp⟩ := c33_exists_poly h hi f
  obtain ⟨o, ho⟩ := c33_exists_poly h hi (0 : Rg N)
  have hx : IsCt P i [0, 0, f] ⟨P, [o, o, p], i⟩ := ⟨rfl, rfl, .cons ho (.cons ho (.cons hp .nil))⟩
  have hy : IsCt P i [(0 : Rg N), 0] ⟨P, [o, o], i⟩ := ⟨rfl, rfl, .cons ho (.cons ho .nil)⟩
  obtain ⟨z1, z2, z3, -, -, a1, a2, a3, -, -, b1, b2, b3, -⟩ := c55_linear_partial h pr hx hy 1 ho (pt := ⟨P, i, .poly, []⟩) rfl (by simp) (by simp)
  have hV : 4 * (t : ℤ) ≤ levelQ l i := by exact_mod_cast h4t
  have dec : ∀ {fs : List (Rg N)} {ct : BfvCipherText} {m : Rg N}, fs ≠ [] → IsCt P i fs ct → Encodes t Q m (phase 1 fs) t →
      ∃ pt, SecretKey.decrypt pr ⟨P, [1]⟩ ct = .ok pt ∧ pt.values = residues t m := by
    intro fs ct m hne hct he
    obtain ⟨pt, h1, -, -, h2⟩ := c30_decrypt h hk pr hne hct h2t (by rw [hs]; exact he) hV
    exact ⟨pt, h1, h2⟩
  obtain ⟨px, x1, x2⟩ := dec (by simp) hx (m := m) (by simpa [phase] using hem)
  obtain ⟨py, y1, y2⟩ := dec (by simp) hy (m := 0) (by simpa [phase] using he0)
  obtain ⟨p1, c1, d1⟩ := dec (by simp) b1 (m := 0) (by simpa [phase] using he0)
  obtain ⟨p2, c2, d2⟩ := dec (by simp) b2 (m := 0) (by simpa [phase] using he0)
  obtain ⟨p3, c3, d3⟩ := dec (by simp) b3 (m := 0) (by simpa [phase] using he0)
  exact ⟨_, _, _, px, py, hk, x1, x2, y1, y2, z1, z2, z3, p1, p2, p3, a1, a2, a3, c1, c2, c3, d1, d2, d3⟩

/-- On the example parameters a three-component ciphertext of `1` becomes one of `0` when 0 is added. -/
example : ∃ P sk x y z px pz, IsParams 8 17 Ex.mods 10 P ∧ IsKey P sk ∧ SecretKey.decrypt .debug sk x = .ok px ∧
    x.add .debug y = .ok z ∧ sk.decrypt .debug z = .ok pz ∧ px.values.getD 0 0 = 1 ∧ pz.values.getD 0 0 = 0 := by
  obtain ⟨P, h⟩ := Ex.exists_params
  obtain ⟨sk, x, y, px, py, hk, h1, h2, -, -, z, -, -, p, -, -, h3, -, -, h4, -, -, h5, -⟩ := c55_linear_wrong h .debug (by decide)
    (i := 0) (by decide) (by rw [Ex.levelQ_mods0]; norm_num) (msgRing 8 [1])
  refine ⟨P, sk, x, y, z, px, p, h, hk, h1, h3, h4, ?_, ?_⟩
  · rw [h2, show residues 17 (msgRing 8 [1]) = _ from residues_msgRing (K := 3) 17 [1]]; rfl
  · rw [h5]; unfold residues
    simp [cf_zero]

/-! ### C57: `decrypt_trial` -/

/-- C57: `decrypt_trial` returns the phase `f0 + f1 s` of the two polynomials, in NTT form. -/
theorem c57_decrypt_trial (h : IsParams N t l variance P) {sk : SecretKey} (hk : IsKey P sk) (pr : Profile) {i : Nat} {p0 p1 : Poly}
    {f0 f1 : Rg N} (h0 : PolyAt P i f0 p0) (h1 : PolyAt P i f1 p1) :
    ∃ p, sk.decryptTrial pr p0 p1 = .ok p ∧ PolyAt P i (phase (keyRing N sk) [f0, f1]) p := by
  obtain ⟨K, ext, rfl, hw, rfl, rfl, rfl⟩ := BfvP.params h
  obtain ⟨L, hL⟩ := hw.levels i (BfvP.level_lt hw h0)
  have hc := hL.wf.ctx
  have hsk := BfvP.key hw hk
  obtain rfl := (BfvP.polyAt_iff hL _ _).mp h0
  obtain rfl := (BfvP.polyAt_iff hL _ _).mp h1
  refine ⟨enc L.qCtx .ntt (sk.ring K * f1 + f0), ?_, (BfvP.polyAt_iff hL _ _).mpr ?_⟩
  · unfold SecretKey.decryptTrial
    rw [rassert_ok (show (enc L.qCtx .ntt f0).context = (enc L.qCtx .ntt f1).context from rfl), res_ok_bind, show (enc L.qCtx .ntt f0).context = L.qCtx from rfl, SecretKey.polyNtt_enc hsk pr hc, res_ok_bind,
      Poly.mul_enc hc, res_ok_bind, Poly.add_enc hc]
  · rw [BfvP.phase_two, BfvP.keyRing_eq, add_comm, mul_comm]

/-- C57: polynomials of different contexts panic. -/
theorem c57_mismatch (sk : SecretKey) (pr : Profile) (p0 p1 : Poly) (h : p0.context ≠ p1.context) :
    sk.decryptTrial pr p0 p1 = .error .assert := by
  unfold SecretKey.decryptTrial
  rw [rassert_fail h]
  rfl

/-- A stored polynomial determines the ring element modulo the ciphertext modulus. -/
theorem c57_unique (h : IsParams N t l variance P) {i : Nat} {p : Poly} {f g : Rg N} (hf : PolyAt P i f p) (hg : PolyAt P i g p) :
    Cong (levelQ l i) f g := by
  obtain ⟨K, ext, rfl, hw, rfl, rfl, rfl⟩ := BfvP.params h
  obtain ⟨L, hL⟩ := hw.levels i (BfvP.level_lt hw hf)
  have h1 := (BfvP.polyAt_iff hL _ _).mp hf
  have h2 := (BfvP.polyAt_iff hL _ _).mp hg
  unfold Cong
  rw [← BfvP.levelQ_eq hL]
  exact (enc_eq_iff hL.wf.ctx f g).mp (h1.symm.trans h2)

/-- C57 and decryption: a ciphertext whose trial decryption is `Q/t m` plus noise decrypts to `m`. -/
theorem c57_decrypts (h : IsParams N t l variance P) {sk : SecretKey} (hk : IsKey P sk) (pr : Profile) {i : Nat} {p0 p1 : Poly}
    {f0 f1 : Rg N} (h0 : PolyAt P i f0 p0) (h1 : PolyAt P i f1 p1) (h2t : 2 * t ≤ l.getD 0 0) {m : Rg N} {V : ℤ}
    (hV : 4 * V ≤ levelQ l i) :
    ∃ p, sk.decryptTrial pr p0 p1 = .ok p ∧ ∀ phi : Rg N, PolyAt P i phi p → Encodes t (levelQ l i) m phi V →
      ∃ pt, sk.decrypt pr ⟨P, [p0, p1], i⟩ = .ok pt ∧ pt.values = residues t m := by
  obtain ⟨p, h2, h3⟩ := c57_decrypt_trial h hk pr h0 h1
  refine ⟨p, h2, fun phi h4 he => ?_⟩
  have hct : IsCt P i [f0, f1] ⟨P, [p0, p1], i⟩ := ⟨rfl, rfl, .cons h0 (.cons h1 .nil)⟩
  have he' := BfvP.Encodes.congr he (c57_unique h h3 h4)
  obtain ⟨pt, h5, -, -, h6⟩ := c30_decrypt h hk pr (by simp) hct h2t he' hV
  exact ⟨pt, h5, h6⟩

/-- Trial decryption of an actual encryption. -/
example : ∃ P sk p0 p1 p, IsParams 8 17 Ex.mods 10 P ∧ IsKey P sk ∧ SecretKey.decryptTrial .debug sk p0 p1 = .ok p ∧
    ∃ phi : Rg 8, PolyAt P 0 phi p ∧ Encodes 17 (levelQ Ex.mods 0) (msgRing 8 [3, 1, 16, 0, 2, 0, 0, 9]) phi 374 := by
  obtain ⟨P, sk, ⟨_, cts, _⟩, f0, f1, h, hk, -, ⟨-, -, hct⟩, he⟩ := Ex.setup
  dsimp only at hct
  cases hct with
  | cons h0 hct =>
    cases hct with
    | cons h1 hct =>
      obtain ⟨p, h2, h3⟩ := c57_decrypt_trial h hk .debug h0 h1
      exact ⟨P, sk, _, _, p, h, hk, h2, _, h3, by simpa using he⟩

/-- C55 for a three-component ciphertext and an actual encryption. -/
example : ∃ P ct z z1 z2 p, IsParams 8 17 Ex.mods 10 P ∧ BfvCipherText.cts z = [p, p, p] ∧ PolyAt P 0 (msgRing 8 [0, 2]) p ∧
    z.add .debug ct = .ok z1 ∧ z1.cts.length = 2 ∧ z.mulPoly .debug p = .ok z2 ∧ z2.cts.length = 2 := by
  obtain ⟨P, sk, ct, f0, f1, h, hk, -, hct, he⟩ := Ex.setup
  obtain ⟨p, hp⟩ := c33_exists_poly h (i := 0) (by decide) (msgRing 8 [0, 2])
  obtain ⟨z1, -, -, z4, -, h3, -, -, h6, -, h4, -, -, h7, -⟩ := c55_linear_partial h .debug (x := ⟨P, [p, p, p], 0⟩)
    ⟨rfl, rfl, .cons hp (.cons hp (.cons hp .nil))⟩ hct 3 hp (pt := ⟨P, 0, .poly, [1]⟩) rfl (by norm_num) (by simp)
  exact ⟨P, ct, _, z1, z4, p, h, rfl, hp, h3, h4.2.2.length_eq.symm, h6, h7.2.2.length_eq.symm⟩

/-- Trial decryption, then decryption, of an actual encryption; the two levels of one parameter set do not mix. -/
example : ∃ P sk p0 p1 p pt, IsParams 8 17 Ex.mods 10 P ∧ IsKey P sk ∧ SecretKey.decryptTrial .debug sk p0 p1 = .ok p ∧
    sk.decrypt .debug ⟨P, [p0, p1], 0⟩ = .ok pt ∧ pt.values = [3, 1, 16, 0, 2, 0, 0, 9] ∧
    ∃ p', PolyAt P 1 (1 : Rg 8) p' ∧ sk.decryptTrial .debug p0 p' = .error .assert ∧
      ∀ f : Rg 8, PolyAt P 1 f p' → Cong (levelQ Ex.mods 1) f 1 := by
  obtain ⟨P, sk, ⟨_, cts, _⟩, f0, f1, h, hk, -, ⟨-, -, hct⟩, he⟩ := Ex.setup
  dsimp only at hct
  cases hct with
  | cons h0 hct =>
    cases hct with
    | cons h1 hct =>
      obtain ⟨p', hp'⟩ := c33_exists_poly h (i := 1) (by decide) 1
      obtain ⟨p, h2, h3⟩ := c57_decrypt_trial h hk .debug h0 h1
      obtain ⟨p2, h4, h5⟩ := c57_decrypts h hk .debug h0 h1 (by decide) (m := msgRing 8 [3, 1, 16, 0, 2, 0, 0, 9]) (V := 374)
        (by rw [Ex.levelQ_mods0]; norm_num)
      rw [h2] at h4
      cases h4
      obtain ⟨pt, h6, h7⟩ := h5 _ h3 (by simpa using he)
      refine ⟨P, sk, _, _, p, pt, h, hk, h2, h6, ?_, p', hp', c57_mismatch sk .debug _ _ ?_, fun f hf => c57_unique h hf hp'⟩
      · rw [h7]; exact (residues_msgRing (K := 3) 17 _).trans (by decide)
      · obtain ⟨c, c1, c2, -⟩ := h0
        obtain ⟨d, d1, d2, -⟩ := hp'
        rw [c2, d2]
        intro e
        have e1 := c51_ctx_level h c1
        have e2 := c51_ctx_level h d1
        rw [e, e2] at e1
        simp at e1

end OnionPIR
