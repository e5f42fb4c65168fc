import Verif.Spec.Circuit
import Verif.Props.BfvMul
import Verif.Props.Unpack
/-
Property C60: circuits of ciphertext operations.
-/
namespace OnionPIR
open Rg Spec

variable {N t : Nat} {l : List Nat} {variance : Nat} {P : BfvParameters}

/-- Messages that agree modulo `t` are encoded by the same phases. -/
theorem Circuit.encodes_msg {Q : Nat} {m m' u phi : Rg N} {V : ℤ} (h : Encodes t Q m phi V) (hm : m = m' + ((t : ℤ) : Rg N) * u) :
    Encodes t Q m' phi V := by
  obtain ⟨v, w, hv, e⟩ := h
  refine ⟨v, w + u, hv, ?_⟩
  rw [e, hm]; ring

/-- Reduction of a message modulo `t`. -/
theorem Circuit.reduce (hN : 0 < N) (ht : 0 < t) (m : Rg N) : ∃ m' u : Rg N, Bdd t m' ∧ m = m' + ((t : ℤ) : Rg N) * u := by
  refine ⟨ofCoeffs N fun k => cf m k % t, ofCoeffs N fun k => cf m k / t, fun k hk => ?_, ?_⟩
  · rw [cf_ofCoeffs hN _ hk, abs_of_nonneg (Int.emod_nonneg _ (by omega))]
    exact (Int.emod_lt_of_pos _ (by omega)).le
  · conv_lhs => rw [← ofCoeffs_cf hN m]
    unfold ofCoeffs
    rw [Finset.mul_sum, ← Finset.sum_add_distrib]
    refine Finset.sum_congr rfl fun k _ => ?_
    conv_lhs => rw [← Int.emod_add_mul_ediv (cf m k) t]
    push_cast; ring

theorem Circuit.foldr_max_le (v : List Nat) : ∀ a ∈ v, a ≤ v.foldr max 1 := by
  induction v with
  | nil => simp
  | cons x v ih =>
    intro a ha
    rcases List.mem_cons.mp ha with rfl | ha
    · exact le_max_left _ _
    · exact (ih a ha).trans (le_max_right _ _)

theorem Circuit.one_le_foldr (v : List Nat) : 1 ≤ v.foldr max 1 := by
  induction v with
  | nil => simp
  | cons x v ih => exact ih.trans (le_max_right _ _)

/-- The bound on the errors of a key-switching key is not negative. -/
theorem Circuit.isKsk_nonneg (h : IsParams N t l variance P) {i : Nat} {s src : Rg N} {B : ℤ} {k : Ksk} (hk : IsKsk P l i s src B k) : 0 ≤ B := by
  obtain ⟨K, ext, rfl, hw, rfl, rfl, rfl⟩ := BfvP.params h
  obtain ⟨h1, -, bs, as, -, -, -, -, h2⟩ := hk
  have hi : i < P.ciphertextModuli.length := by rw [← hw.nLevels]; exact (List.getElem?_eq_some_iff.mp h1).1
  have : 0 < (levelModuli P.ciphertextModuli i).length := by unfold levelModuli; rw [List.length_take]; omega
  obtain ⟨g, -, e, he, -⟩ := h2 0 this
  exact he.nonneg (by positivity)

theorem Circuit.switchNoise_nonneg (N : Nat) (l : List Nat) (i : Nat) : 0 ≤ switchNoise N l i := by unfold switchNoise; positivity

theorem Circuit.le_scale {N x M : ℤ} (hN : 1 ≤ N) (hx : 0 ≤ x) (hM : 1 ≤ M) : x ≤ N * x * M := by
  nlinarith [mul_nonneg (mul_nonneg (by linarith : (0 : ℤ) ≤ N) hx) (by linarith : (0 : ℤ) ≤ M - 1), mul_nonneg (by linarith : (0 : ℤ) ≤ N - 1) hx]

theorem Circuit.le_product {N t S x y W : ℤ} (hN : 1 ≤ N) (ht : 1 ≤ t) (hS : 0 ≤ S) (hx : 0 ≤ x) (hy : 0 ≤ y) (hW : 0 ≤ W) :
    x + y ≤ N * t * (N * S + 3) * (x + y) + N * y + t * (1 + N * S + N * S * (N * S)) + t * W := by
  have h1 : 1 ≤ N * t := by nlinarith
  have h0 : 0 ≤ N * S := mul_nonneg (by linarith) hS
  have h2 : 1 ≤ N * t * (N * S + 3) := by nlinarith
  have h3 : x + y ≤ N * t * (N * S + 3) * (x + y) := le_mul_of_one_le_left (by linarith) h2
  have h4 : 0 ≤ N * y := mul_nonneg (by linarith) hy
  have h5 : 0 ≤ t * (1 + N * S + N * S * (N * S)) := by positivity
  have h6 : 0 ≤ t * W := mul_nonneg (by linarith) hW
  linarith

/-! ### C60 -/

/-- C60: on well-formed inputs and keys no circuit panics, whatever the noise; the result is a two-component ciphertext of the same level. -/
theorem c60_total {E : CircuitEnv} (h : IsParams N t l variance E.params) (pr : Profile) {s : Rg N} {m : Nat → Rg N} {e : Nat → Nat}
    {r : Nat → Rg N} {B : CircuitBounds} (hE : E.Good t l s m e r B) (c : Circuit) (hc : c.Fits N) :
    ∃ z, ∃ f0 f1 : Rg N, c.run pr E = .ok z ∧ IsCt E.params E.level [f0, f1] z := by
  induction c with
  | input k =>
    obtain ⟨f0, f1, h1, -⟩ := hE.inputs k
    exact ⟨_, f0, f1, rfl, h1⟩
  | add a b iha ihb =>
    obtain ⟨x, f0, f1, x1, x2⟩ := iha hc.1
    obtain ⟨y, g0, g1, y1, y2⟩ := ihb hc.2
    obtain ⟨z, z1, z2, -⟩ := c32_add h pr x2 y2 s
    exact ⟨z, _, _, by unfold Circuit.run; rw [x1, res_ok_bind, y1, res_ok_bind, z1], z2⟩
  | sub a b iha ihb =>
    obtain ⟨x, f0, f1, x1, x2⟩ := iha hc.1
    obtain ⟨y, g0, g1, y1, y2⟩ := ihb hc.2
    obtain ⟨z, z1, z2, -⟩ := c32_sub h pr x2 y2 s
    exact ⟨z, _, _, by unfold Circuit.run; rw [x1, res_ok_bind, y1, res_ok_bind, z1], z2⟩
  | mulPlain a v iha =>
    obtain ⟨x, f0, f1, x1, x2⟩ := iha hc.1
    obtain ⟨z, z1, z2, -⟩ := c34_mul_plain h pr (p := ⟨E.params, E.level, .poly, v⟩) x2 rfl hc.2.1 hc.2.2 s
    exact ⟨z, _, _, by unfold Circuit.run; rw [x1, res_ok_bind, z1], z2⟩
  | mulBig a n iha =>
    obtain ⟨x, f0, f1, x1, x2⟩ := iha hc
    obtain ⟨z, z1, z2, -⟩ := c34_mul_big h pr n x2 s
    exact ⟨z, _, _, by unfold Circuit.run; rw [x1, res_ok_bind, z1], z2⟩
  | mul a b iha ihb =>
    obtain ⟨x, f0, f1, x1, x2⟩ := iha hc.1
    obtain ⟨y, g0, g1, y1, y2⟩ := ihb hc.2
    obtain ⟨z, r0, r1, z1, z2⟩ := c50_multiply_total h pr x2 y2 hE.rlkParams hE.rlk
    exact ⟨z, _, _, by unfold Circuit.run; rw [x1, res_ok_bind, y1, res_ok_bind, z1], z2⟩
  | galois a j iha =>
    obtain ⟨x, f0, f1, x1, x2⟩ := iha hc
    obtain ⟨z, r0, r1, -, z1, z2, -⟩ := hE.gk j pr x f0 f1 x2
    exact ⟨z, _, _, by unfold Circuit.run; rw [x1, res_ok_bind, z1], z2⟩
  | external a j iha =>
    obtain ⟨x, f0, f1, x1, x2⟩ := iha hc
    obtain ⟨B0, B1, -, hg⟩ := hE.rgsw j
    obtain ⟨p0, p1, r0, r1, -, z1, z2, -⟩ := c39_external_product h pr hg x2
    exact ⟨_, _, _, by unfold Circuit.run; rw [x1, res_ok_bind, z1]; rfl, z2⟩

/-- C60: if the worst-case noise of the circuit is at most a quarter of the modulus, the result encodes the value of the circuit with
that noise. -/
theorem c60_run {E : CircuitEnv} (h : IsParams N t l variance E.params) (hNn : N * 2 ^ l.length ≤ 2 ^ 57) (pr : Profile) {s : Rg N}
    {m : Nat → Rg N} {e : Nat → Nat} {r : Nat → Rg N} {B : CircuitBounds} (hE : E.Good t l s m e r B) (c : Circuit) (hc : c.Fits N)
    (hV : 4 * c.noise N t l E.level B ≤ levelQ l E.level) :
    ∃ z, ∃ f0 f1 : Rg N, c.run pr E = .ok z ∧ IsCt E.params E.level [f0, f1] z ∧
      Encodes t (levelQ l E.level) (c.value m e r) (phase s [f0, f1]) (c.noise N t l E.level B) := by
  have hNt : 0 < N ∧ 0 < t ∧ ∀ j, Nat.Coprime (e j) N := by
    obtain ⟨K, ext, rfl, hw, rfl, -, -⟩ := BfvP.params h
    exact ⟨by positivity, hw.t_prime.pos, fun j => (Nat.coprime_two_right.mpr (hE.odd j)).pow_right K⟩
  obtain ⟨hN, ht, hcop⟩ := hNt
  have hN1 : (1 : ℤ) ≤ N := by exact_mod_cast hN
  have ht1 : (1 : ℤ) ≤ t := by exact_mod_cast ht
  have hsw := Circuit.switchNoise_nonneg N l E.level
  have key : ∀ c : Circuit, 0 ≤ c.noise N t l E.level B := by
    intro c
    induction c with
    | input k =>
      obtain ⟨_, _, -, v, w, hv, -⟩ := hE.inputs k
      exact hv.nonneg hN
    | add a b iha ihb => exact add_nonneg iha ihb
    | sub a b iha ihb => exact add_nonneg iha ihb
    | mulPlain a v iha => unfold Circuit.noise; positivity
    | mulBig a n iha => unfold Circuit.noise; positivity
    | mul a b iha ihb =>
      unfold Circuit.noise productNoise
      have := Circuit.le_product hN1 ht1 (hE.key.nonneg hN) iha ihb (mul_nonneg hsw (Circuit.isKsk_nonneg h hE.rlk))
      linarith
    | galois a j iha =>
      obtain ⟨f0, f1, h1, -⟩ := hE.inputs 0
      obtain ⟨_, _, _, _, -, -, h2, -⟩ := hE.gk j pr _ f0 f1 h1
      have := h2.nonneg hN
      unfold Circuit.noise; positivity
    | external a j iha =>
      obtain ⟨B0, B1, h1, h2⟩ := hE.rgsw j
      have := Circuit.isKsk_nonneg h h2.1
      have := Circuit.isKsk_nonneg h h2.2
      unfold Circuit.noise
      rw [← h1]; positivity
  induction c with
  | input k =>
    obtain ⟨f0, f1, h1, h2⟩ := hE.inputs k
    exact ⟨_, f0, f1, rfl, h1, h2⟩
  | add a b iha ihb =>
    have ha := key a; have hb := key b
    unfold Circuit.noise at hV
    obtain ⟨x, f0, f1, x1, x2, x3⟩ := iha hc.1 (by linarith)
    obtain ⟨y, g0, g1, y1, y2, y3⟩ := ihb hc.2 (by linarith)
    obtain ⟨z, z1, z2, -, z3⟩ := c32_add h pr x2 y2 s
    exact ⟨z, _, _, by unfold Circuit.run; rw [x1, res_ok_bind, y1, res_ok_bind, z1], z2, z3 _ _ _ _ x3 y3⟩
  | sub a b iha ihb =>
    have ha := key a; have hb := key b
    unfold Circuit.noise at hV
    obtain ⟨x, f0, f1, x1, x2, x3⟩ := iha hc.1 (by linarith)
    obtain ⟨y, g0, g1, y1, y2, y3⟩ := ihb hc.2 (by linarith)
    obtain ⟨z, z1, z2, -, z3⟩ := c32_sub h pr x2 y2 s
    exact ⟨z, _, _, by unfold Circuit.run; rw [x1, res_ok_bind, y1, res_ok_bind, z1], z2, z3 _ _ _ _ x3 y3⟩
  | mulPlain a v iha =>
    have hM : (1 : ℤ) ≤ (v.foldr max 1 : Nat) := by exact_mod_cast Circuit.one_le_foldr v
    have := Circuit.le_scale hN1 (key a) hM
    unfold Circuit.noise at hV
    obtain ⟨x, f0, f1, x1, x2, x3⟩ := iha hc.1 (by linarith)
    obtain ⟨z, z1, z2, -, z3⟩ := c34_mul_plain h pr (p := ⟨E.params, E.level, .poly, v⟩) x2 rfl hc.2.1 hc.2.2 s
    exact ⟨z, _, _, by unfold Circuit.run; rw [x1, res_ok_bind, z1], z2, z3 _ _ _ x3 (Circuit.foldr_max_le v)⟩
  | mulBig a n iha =>
    have hM : (1 : ℤ) ≤ (max 1 n : Nat) := by exact_mod_cast le_max_left 1 n
    have ha := key a
    have := le_mul_of_one_le_left ha hM
    unfold Circuit.noise at hV
    obtain ⟨x, f0, f1, x1, x2, x3⟩ := iha hc (by linarith)
    obtain ⟨z, z1, z2, -, z3⟩ := c34_mul_big h pr n x2 s
    refine ⟨z, _, _, by unfold Circuit.run; rw [x1, res_ok_bind, z1], z2, BfvP.Encodes.mono (z3 _ _ x3) ?_⟩
    exact mul_le_mul_of_nonneg_right (by exact_mod_cast le_max_right 1 n) ha
  | mul a b iha ihb =>
    have ha := key a; have hb := key b
    have hp := Circuit.le_product hN1 ht1 (hE.key.nonneg hN) ha hb (mul_nonneg hsw (Circuit.isKsk_nonneg h hE.rlk))
    unfold Circuit.noise productNoise at hV
    have hVa : 4 * a.noise N t l E.level B ≤ levelQ l E.level := by linarith
    have hVb : 4 * b.noise N t l E.level B ≤ levelQ l E.level := by linarith
    obtain ⟨x, f0, f1, x1, x2, x3⟩ := iha hc.1 hVa
    obtain ⟨y, g0, g1, y1, y2, y3⟩ := ihb hc.2 hVb
    obtain ⟨m1, u1, b1, q1⟩ := Circuit.reduce hN ht (a.value m e r)
    obtain ⟨m2, u2, b2, q2⟩ := Circuit.reduce hN ht (b.value m e r)
    obtain ⟨z, r0, r1, z1, z2, z3⟩ := c50_multiply h hNn pr x2 y2 hE.rlkParams hE.key hE.rlk (Circuit.encodes_msg x3 q1)
      (Circuit.encodes_msg y3 q2) b1 b2 hVa hVb
    refine ⟨z, _, _, by unfold Circuit.run; rw [x1, res_ok_bind, y1, res_ok_bind, z1], z2,
      Circuit.encodes_msg (u := -(u1 * m2 + m1 * u2 + ((t : ℤ) : Rg N) * (u1 * u2))) z3 ?_⟩
    unfold Circuit.value
    rw [q1, q2]; ring
  | galois a j iha =>
    have ha := key a
    have hga : (0 : ℤ) ≤ t * B.gk j := by
      obtain ⟨f0, f1, h1, -⟩ := hE.inputs 0
      obtain ⟨_, _, _, _, -, -, h2, -⟩ := hE.gk j pr _ f0 f1 h1
      have := h2.nonneg hN
      positivity
    unfold Circuit.noise at hV
    obtain ⟨x, f0, f1, x1, x2, x3⟩ := iha hc (by linarith)
    obtain ⟨z, r0, r1, E', z1, z2, z3, z4⟩ := hE.gk j pr x f0 f1 x2
    exact ⟨z, _, _, by unfold Circuit.run; rw [x1, res_ok_bind, z1], z2,
      BfvP.Encodes.congr (BfvP.Encodes.addError hN (BfvP.Encodes.sg hN x3 (hE.odd j) (hcop j)) z3) z4⟩
  | external a j iha =>
    have ha := key a
    obtain ⟨B0, B1, hB, hg⟩ := hE.rgsw j
    have h0 := Circuit.isKsk_nonneg h hg.1
    have h1 := Circuit.isKsk_nonneg h hg.2
    have hM : (1 : ℤ) ≤ max 1 (B.rgswMsg j) := le_max_left _ _
    have := Circuit.le_scale hN1 ha hM
    have hga : (0 : ℤ) ≤ t * (switchNoise N l E.level * B.rgsw j) := by rw [← hB]; positivity
    unfold Circuit.noise at hV
    obtain ⟨x, f0, f1, x1, x2, x3⟩ := iha hc (by linarith)
    obtain ⟨p0, p1, r0, r1, -, z1, z2, -, -, z3⟩ := c39_external_product h pr hg x2
    have z4 := z3 _ _ _ x3 ((hE.msg j).mono (le_max_right 1 _))
    rw [hB] at z4
    exact ⟨_, _, _, by unfold Circuit.run; rw [x1, res_ok_bind, z1]; rfl, z2, z4⟩

/-- C60: within the noise budget, decryption of the result of a circuit gives the value of the circuit modulo `t`. -/
theorem c60_decrypts {E : CircuitEnv} (h : IsParams N t l variance E.params) (hNn : N * 2 ^ l.length ≤ 2 ^ 57) (pr : Profile)
    {sk : SecretKey} (hk : IsKey E.params sk) {m : Nat → Rg N} {e : Nat → Nat} {r : Nat → Rg N} {B : CircuitBounds}
    (hE : E.Good t l (keyRing N sk) m e r B) (h2t : 2 * t ≤ l.getD 0 0) (c : Circuit) (hc : c.Fits N)
    (hV : 4 * c.noise N t l E.level B ≤ levelQ l E.level) :
    ∃ z pt, c.run pr E = .ok z ∧ sk.decrypt pr z = .ok pt ∧ pt.values = residues t (c.value m e r) := by
  obtain ⟨z, f0, f1, z1, z2, z3⟩ := c60_run h hNn pr hE c hc hV
  obtain ⟨pt, p1, -, -, p2⟩ := c30_decrypt h hk pr (by simp) z2 h2t z3 hV
  exact ⟨z, pt, z1, p1, p2⟩

/-- The bounds that hold for inputs and keys produced by the library at level 0, for a key with coefficients at most `S`, messages of
the RGSW ciphertexts with coefficients at most `M`. -/
def Spec.freshBounds (N t : Nat) (l : List Nat) (variance : Nat) (S M : ℤ) : CircuitBounds where
  input _ := 2 * t * variance + 2 * t
  key := S
  rlk := 2 * variance
  gk _ := switchNoise N l 0 * (2 * variance)
  rgswMsg _ := M
  rgsw _ := 2 * variance + 2 * variance

/-- C60: encryption and key generation succeed for every randomness and give inputs and keys that the circuit theorems accept. -/
theorem c60_fresh (h : IsParams N t l variance P) {sk : SecretKey} (hk : IsKey P sk) {S : ℤ} (hS : Bdd S (keyRing N sk)) (pr : Profile)
    (hv1 : 1 ≤ variance) (hv2 : variance ≤ 16) (hl : l.length ≠ 1) (hN : N ≤ 2 ^ 31) {ms rs : Nat → List Nat} {e : Nat → Nat} {M : Nat}
    (hms : ∀ k, (ms k).length ≤ N ∧ ∀ x ∈ ms k, x < 2 ^ 64) (hrs : ∀ j, (rs j).length ≤ N ∧ ∀ x ∈ rs j, x < 2 ^ 64 ∧ x ≤ M) (he : ∀ j, Odd (e j))
    {aIn : Nat → Nat → Nat → Nat} (haIn : ∀ k, TapeAt l 0 (aIn k)) {rIn : Nat → Nat → Nat} (hrIn : ∀ k i, rIn k i < 2 ^ 64)
    {aR : Nat → Nat → Nat → Nat} (haR : ∀ j, TapeAt l 0 (aR j)) {rR : Nat → Nat → Nat} (hrR : ∀ j i, rR j i < 2 ^ 64)
    {aG a0 a1 : Nat → Nat → Nat → Nat → Nat} (haG : ∀ k j, TapeAt l 0 (aG k j)) (ha0 : ∀ k j, TapeAt l 0 (a0 k j)) (ha1 : ∀ k j, TapeAt l 0 (a1 k j))
    {rG r0 r1 : Nat → Nat → Nat → Nat} (hrG : ∀ k j i, rG k j i < 2 ^ 64) (hr0 : ∀ k j i, r0 k j i < 2 ^ 64) (hr1 : ∀ k j i, r1 k j i < 2 ^ 64) :
    ∃ E : CircuitEnv, ∃ c, E.params = P ∧ E.level = 0 ∧ P.qCtxs[0]? = some c ∧
      (∀ k, sk.encrypt pr ⟨P, 0, .poly, ms k⟩ (aIn k) (rIn k) = .ok (E.inputs k)) ∧
      RelinearizationKey.new pr sk 0 aR rR = .ok E.rlk ∧
      (∀ j, ∃ sub, Substitution.new pr c (e j) = .ok sub ∧ GaliosKey.new pr sk sub 0 (aG j) (rG j) = .ok (E.gk j)) ∧
      (∀ j, RgswCt.encrypt pr sk ⟨P, 0, .poly, rs j⟩ (a0 j) (a1 j) (r0 j) (r1 j) = .ok (E.rgsw j)) ∧
      E.Good t l (keyRing N sk) (fun k => msgRing N (ms k)) e (fun j => msgRing N (rs j)) (freshBounds N t l variance S M) := by
  obtain ⟨K, ext, rfl, hw, ht, hl', hv⟩ := BfvP.params h
  have hpos : 0 < l.length := by rw [← hl']; exact List.length_pos_iff.mpr hw.ne
  obtain ⟨L, hL⟩ := hw.levels 0 (by rw [hl']; exact hpos)
  have h1 := fun k => c30_encrypt h hk pr hv1 hv2 (pt := ⟨P, 0, .poly, ms k⟩) rfl rfl (hms k).1 (hms k).2 (haIn k) (hrIn k)
  choose cts f0 f1 i1 i2 i3 using h1
  obtain ⟨rlk, k1, k2, k3, -⟩ := c38_relinearize h hk pr pr hv1 hv2 (i := 0) hpos haR hrR
  have h2 : ∀ j, ∃ g sub, Substitution.new pr L.qCtx (e j) = .ok sub ∧ GaliosKey.new pr sk sub 0 (aG j) (rG j) = .ok g ∧
      GaloisFor P l 0 (keyRing (2 ^ K) sk) (e j) (switchNoise (2 ^ K) l 0 * (2 * variance)) g := by
    intro j
    obtain ⟨sub, g, h1, h2, -⟩ := c37_galois h hk pr pr hv1 hv2 hl hN hL.q (he j) (haG j) (hrG j)
    refine ⟨g, sub, h1, h2, fun pr' ct f0 f1 hct => ?_⟩
    obtain ⟨sub', g', h1', h2', h3', -⟩ := c37_galois h hk pr pr' hv1 hv2 hl hN hL.q (he j) (haG j) (hrG j)
    obtain rfl := Except.ok.inj (h1.symm.trans h1')
    obtain rfl := Except.ok.inj (h2.symm.trans h2')
    obtain ⟨ct', x0, x1, E, y1, y2, y3, y4, -⟩ := h3' ct f0 f1 hct
    exact ⟨ct', x0, x1, E, y1, y2, y3, y4⟩
  choose gk sub g1 g2 g3 using h2
  have h3 := fun j => c39_encrypt h hk pr hv1 hv2 (pt := ⟨P, 0, .poly, rs j⟩) rfl hpos (hrs j).1 (fun x hx => ((hrs j).2 x hx).1) (ha0 j) (ha1 j) (hr0 j) (hr1 j)
  choose rg r1' r2' using h3
  refine ⟨⟨P, 0, cts, rlk, gk, rg⟩, L.qCtx, rfl, rfl, hL.q, i1, k1, fun j => ⟨sub j, g1 j, g2 j⟩, r1', ?_⟩
  exact ⟨fun k => ⟨f0 k, f1 k, i2 k, i3 k⟩, hS, k2, k3, he, g3, fun j => BfvP.msgRing_bdd fun x hx => ((hrs j).2 x hx).2,
    fun j => ⟨_, _, rfl, r2' j⟩⟩

/-- A circuit of multiplicative depth 2 with an automorphism and an external product, on fresh encryptions of `1 + 2X` and `3X^7`: within
the budget of the example parameters. -/
example : ∃ (E : CircuitEnv) (sk : SecretKey) (z : BfvCipherText) (pt : Plaintext), IsParams 8 17 Ex.mods 10 E.params ∧ IsKey E.params sk ∧
    (Circuit.sub (.mul (.mul (.input 0) (.input 1)) (.mulPlain (.input 0) [5, 0, 1])) (.mulBig (.external (.galois (.input 1) 0) 0) 3)).run .debug E = .ok z ∧
    sk.decrypt .debug z = .ok pt ∧
    pt.values = residues 17 (msgRing 8 [1, 2] * msgRing 8 [0, 0, 0, 0, 0, 0, 0, 3] * (msgRing 8 [1, 2] * msgRing 8 [5, 0, 1]) -
      sg 9 (msgRing 8 [0, 0, 0, 0, 0, 0, 0, 3]) * msgRing 8 [0, 1] * (((3 : Nat) : ℤ) : Rg 8)) := by
  obtain ⟨P, sk, h, hk, hb⟩ := Ex.setup_key
  have h8 : ∀ k : Nat, (if k = 0 then [1, 2] else [0, 0, 0, 0, 0, 0, 0, 3] : List Nat).length ≤ 8 ∧
      ∀ x ∈ (if k = 0 then [1, 2] else [0, 0, 0, 0, 0, 0, 0, 3] : List Nat), x < 2 ^ 64 := by
    intro k; split <;> exact ⟨by norm_num, by decide⟩
  obtain ⟨E, c, rfl, h0, -, -, -, -, -, hE⟩ := c60_fresh (e := fun _ => 9) (rs := fun _ => [0, 1]) (M := 1) h hk hb .debug (by norm_num)
    (by norm_num) (by decide) (by norm_num) h8 (fun _ => ⟨by norm_num, by decide⟩) (fun _ => by decide) (fun _ => Ex.tape0 Ex.mods_gt)
    (fun _ => Ex.wordTape) Ex.tapes (fun _ => Ex.wordTape) (fun _ => Ex.tapes) (fun _ => Ex.tapes) (fun _ => Ex.tapes)
    (fun _ _ => Ex.wordTape) (fun _ _ => Ex.wordTape) (fun _ _ => Ex.wordTape)
  obtain ⟨z, pt, h1, h2, h3⟩ := c60_decrypts h (by norm_num [Ex.mods]) .debug hk hE (by decide)
    (.sub (.mul (.mul (.input 0) (.input 1)) (.mulPlain (.input 0) [5, 0, 1])) (.mulBig (.external (.galois (.input 1) 0) 0) 3))
    ⟨⟨⟨trivial, trivial⟩, trivial, by norm_num, by decide⟩, trivial⟩ (by
      rw [h0, Ex.levelQ_mods0]
      simp only [Circuit.noise, productNoise, freshBounds,
        show switchNoise 8 Ex.mods 0 = 8 * (1048609 + 1048721 + 1048897) by decide +kernel]
      norm_num)
  exact ⟨E, sk, z, pt, h, hk, h1, h2, h3⟩

/-- `c60_total` and `c60_run` for a product of two encrypted vectors. -/
example : ∃ (E : CircuitEnv) (sk : SecretKey) (z : BfvCipherText) (f0 f1 : Rg 8), IsParams 8 17 Ex.mods 10 E.params ∧ IsKey E.params sk ∧
    (∃ z' g0 g1, (Circuit.mulBig (.mul (.input 0) (.input 1)) 100).run .release E = .ok z' ∧ IsCt E.params E.level [(g0 : Rg 8), g1] z') ∧
    (Circuit.mul (.input 0) (.input 1)).run .debug E = .ok z ∧ IsCt E.params E.level [f0, f1] z ∧
    Encodes 17 (levelQ Ex.mods E.level) (msgRing 8 [1, 2] * msgRing 8 [0, 0, 0, 0, 0, 0, 0, 3]) (phase (keyRing 8 sk) [f0, f1])
      ((Circuit.mul (.input 0) (.input 1)).noise 8 17 Ex.mods E.level (freshBounds 8 17 Ex.mods 10 20 1)) := by
  obtain ⟨P, sk, h, hk, hb⟩ := Ex.setup_key
  have h8 : ∀ k : Nat, (if k = 0 then [1, 2] else [0, 0, 0, 0, 0, 0, 0, 3] : List Nat).length ≤ 8 ∧
      ∀ x ∈ (if k = 0 then [1, 2] else [0, 0, 0, 0, 0, 0, 0, 3] : List Nat), x < 2 ^ 64 := by
    intro k; split <;> exact ⟨by norm_num, by decide⟩
  obtain ⟨E, c, rfl, h0, -, -, -, -, -, hE⟩ := c60_fresh (e := fun _ => 9) (rs := fun _ => [0, 1]) (M := 1) h hk hb .debug (by norm_num)
    (by norm_num) (by decide) (by norm_num) h8 (fun _ => ⟨by norm_num, by decide⟩) (fun _ => by decide) (fun _ => Ex.tape0 Ex.mods_gt)
    (fun _ => Ex.wordTape) Ex.tapes (fun _ => Ex.wordTape) (fun _ => Ex.tapes) (fun _ => Ex.tapes) (fun _ => Ex.tapes)
    (fun _ _ => Ex.wordTape) (fun _ _ => Ex.wordTape) (fun _ _ => Ex.wordTape)
  obtain ⟨z', g0, g1, h4, h5⟩ := c60_total h .release hE (.mulBig (.mul (.input 0) (.input 1)) 100) ⟨trivial, trivial⟩
  obtain ⟨z, f0, f1, h1, h2, h3⟩ := c60_run h (by norm_num [Ex.mods]) .debug hE (.mul (.input 0) (.input 1)) ⟨trivial, trivial⟩ (by
      rw [h0, Ex.levelQ_mods0]
      simp only [Circuit.noise, productNoise, freshBounds,
        show switchNoise 8 Ex.mods 0 = 8 * (1048609 + 1048721 + 1048897) by decide +kernel]
      norm_num)
  exact ⟨E, sk, z, f0, f1, h, hk, ⟨z', g0, g1, h4, h5⟩, h1, h2, h3⟩

end OnionPIR
