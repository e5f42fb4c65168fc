import Verif.Proofs.KskBridge
import Verif.Props.Bfv
/-
Properties C36 to C40: key switching, Galois keys, relinearization keys, RGSW ciphertexts.
-/
namespace OnionPIR
open Rg Spec

variable {N t : Nat} {l : List Nat} {variance : Nat} {P : BfvParameters}

/-! ### C36: key switching -/

/-- C36: `Ksk::new` returns a key-switching key from `src` with errors at most `2 variance`, for every tape. -/
theorem c36_new (h : IsParams N t l variance P) {sk : SecretKey} (hk : IsKey P sk) (pr : Profile) (hv1 : 1 ≤ variance) (hv2 : variance ≤ 16)
    {i : Nat} {src : Rg N} {p : Poly} (hp : PolyAt P i src p) {aTape : Nat → Nat → Nat → Nat} (ha : ∀ j, TapeAt l i (aTape j))
    {rng : Nat → Nat → Nat} (hr : ∀ j i, rng j i < 2 ^ 64) :
    ∃ k, Ksk.new pr sk p i i aTape rng = .ok k ∧ k.params = P ∧ IsKsk P l i (keyRing N sk) src (2 * variance) k := by
  obtain ⟨K, ext, rfl, hw, rfl, rfl, rfl⟩ := BfvP.params h
  obtain ⟨L, hL⟩ := hw.levels i (BfvP.level_lt hw hp)
  have hsk := BfvP.key hw hk
  have hP := hk.1
  subst hP
  rw [(BfvP.polyAt_iff hL _ _).mp hp]
  obtain ⟨k, a, b, h1, h2, h3⟩ := Ksk.new_enc hsk pr hL hv1 hv2 src (fun j => BfvP.tape hL (ha j)) hr
  exact ⟨k, h1, h2, BfvP.isKsk_of_holds hL h3⟩

/-- C36: `key_switch` turns `f` into a pair with phase `f src + E`, the error `E` bounded by `N (Σ q_j) B`. -/
theorem c36_key_switch (h : IsParams N t l variance P) (pr : Profile) {i : Nat} {s src f : Rg N} {B : ℤ} {k : Ksk}
    (hk : IsKsk P l i s src B k) {p : Poly} (hp : PowerAt P i f p) :
    ∃ p0 p1, ∃ r0 r1 E : Rg N, k.keySwitch pr p = .ok (p0, p1) ∧ PolyAt P i r0 p0 ∧ PolyAt P i r1 p1 ∧
      Bdd (switchNoise N l i * B) E ∧ Cong (levelQ l i) (r0 + r1 * s) (f * src + E) := by
  obtain ⟨K, ext, rfl, hw, rfl, rfl, rfl⟩ := BfvP.params h
  have hi : i < P.ciphertextModuli.length := by rw [← hw.nLevels]; exact (List.getElem?_eq_some_iff.mp hk.1).1
  obtain ⟨L, hL⟩ := hw.levels i hi
  obtain ⟨a, b, hh⟩ := BfvP.holds_of_isKsk hL hk
  rw [(BfvP.powerAt_iff hL _ _).mp hp]
  obtain ⟨r0, r1, E, h1, h2, h3⟩ := Ksk.keySwitch_spec hL.wf.ctx pr hh f
  refine ⟨_, _, r0, r1, E, h1, (BfvP.polyAt_iff hL _ _).mpr rfl, (BfvP.polyAt_iff hL _ _).mpr rfl, ?_, ?_⟩
  · rw [BfvP.switchNoise_eq hL]; exact h2
  · unfold Cong; rw [← BfvP.levelQ_eq hL]; exact h3

/-- C36: a polynomial of another context, or not in power basis, panics. -/
theorem c36_mismatch (pr : Profile) (k : Ksk) (p : Poly) (h : p.context ≠ k.ctContext ∨ p.representation ≠ .powerBasis) :
    k.keySwitch pr p = .error .assert := by
  unfold Ksk.keySwitch
  by_cases h1 : p.context = k.ctContext
  · rw [rassert_ok h1, rassert_fail (show ¬ p.representation = .powerBasis by tauto)]; rfl
  · rw [rassert_fail h1]; rfl

/-- The noise bound quoted in the property list: the sum of `k` moduli is at most `k` times the largest. -/
theorem c36_bound (N : Nat) (l : List Nat) (i qmax : Nat) (hq : ∀ q ∈ l, q ≤ qmax) (B : Nat) :
    switchNoise N l i * B ≤ (levelModuli l i).length * N * qmax * B := by
  unfold switchNoise
  have h1 : ∀ ms : List Nat, (∀ q ∈ ms, q ≤ qmax) → ms.sum ≤ ms.length * qmax := by
    intro ms
    induction ms with
    | nil => simp
    | cons q ms ih =>
      intro hm
      have := ih (fun x hx => hm x (by simp [hx]))
      have := hm q (by simp)
      simp only [List.sum_cons, List.length_cons]
      nlinarith
  have h2 := h1 (levelModuli l i) (fun q hq' => hq q (List.mem_of_mem_take hq'))
  have h3 : N * (levelModuli l i).sum * B ≤ (levelModuli l i).length * N * qmax * B := by
    apply Nat.mul_le_mul_right
    calc N * (levelModuli l i).sum ≤ N * ((levelModuli l i).length * qmax) := Nat.mul_le_mul_left _ h2
      _ = _ := by ring
  exact_mod_cast h3

namespace Ex

/-- Tapes of zeros for several polynomials. -/
theorem tapes {i : Nat} : ∀ _ : Nat, TapeAt mods i fun _ _ => 0 := fun _ => tape0 mods_gt

/-- A key, an actual ciphertext and the parameters, for the examples below. -/
theorem setup_key : ∃ P sk, IsParams 8 17 mods 10 P ∧ IsKey P sk ∧ Bdd 20 (keyRing 8 sk) := by
  obtain ⟨P, h⟩ := exists_params
  obtain ⟨sk, -, hk, hb⟩ := c30_generate h .release (by norm_num) (by norm_num) wordTape
  exact ⟨P, sk, h, hk, hb⟩

theorem exists_power (h : IsParams N t l variance P) {i : Nat} (hi : i < l.length) (f : Rg N) : ∃ p, PowerAt P i f p := by
  obtain ⟨K, ext, rfl, hw, rfl, rfl, -⟩ := BfvP.params h
  obtain ⟨L, hL⟩ := hw.levels i hi
  exact ⟨_, (BfvP.powerAt_iff hL _ _).mpr rfl⟩

end Ex

/-- A key for `X + 3` at level 1 of the example parameters, switching `1 + X`. -/
example : ∃ P sk p k q, IsParams 8 17 Ex.mods 10 P ∧ IsKey P sk ∧ PolyAt P 1 (msgRing 8 [3, 1]) p ∧
    Ksk.new .debug sk p 1 1 (fun _ _ _ => 0) (fun _ i => i % 1000) = .ok k ∧ PowerAt P 1 (msgRing 8 [1, 1]) q ∧
    ∃ r, k.keySwitch .debug q = .ok r := by
  obtain ⟨P, sk, h, hk, -⟩ := Ex.setup_key
  obtain ⟨p, hp⟩ := c33_exists_poly h (i := 1) (by decide) (msgRing 8 [3, 1])
  obtain ⟨k, h1, -, h2⟩ := c36_new h hk .debug (by norm_num) (by norm_num) hp Ex.tapes (fun _ => Ex.wordTape)
  obtain ⟨q, hq⟩ := Ex.exists_power h (i := 1) (by decide) (msgRing 8 [1, 1])
  obtain ⟨p0, p1, -, -, -, h3, -⟩ := c36_key_switch h .debug h2 hq
  exact ⟨P, sk, p, k, q, h, hk, hp, h1, hq, _, h3⟩

/-! ### C37: Galois keys -/

/-- C37: for every odd exponent, `GaliosKey::new` returns a key whose `relinearize` applies `X ↦ X^k` to the phase, with error at
most `N (Σ q_j) 2 variance`; the message is mapped accordingly and ciphertexts of another level panic. -/
theorem c37_galois (h : IsParams N t l variance P) {sk : SecretKey} (hk : IsKey P sk) (pr pr' : Profile) (hv1 : 1 ≤ variance) (hv2 : variance ≤ 16)
    (hl : l.length ≠ 1) (hN : N ≤ 2 ^ 31) {i : Nat} {c : RqContext} (hi : P.qCtxs[i]? = some c) {e : Nat} (he : Odd e)
    {aTape : Nat → Nat → Nat → Nat} (ha : ∀ j, TapeAt l i (aTape j)) {rng : Nat → Nat → Nat} (hr : ∀ j i, rng j i < 2 ^ 64) :
    ∃ sub g, Substitution.new pr c e = .ok sub ∧ GaliosKey.new pr sk sub i aTape rng = .ok g ∧
      (∀ ct, ∀ f0 f1 : Rg N, IsCt P i [f0, f1] ct → ∃ ct', ∃ r0 r1 E : Rg N, g.relinearize pr' ct = .ok ct' ∧ IsCt P i [r0, r1] ct' ∧
        Bdd (switchNoise N l i * (2 * variance)) E ∧
        Cong (levelQ l i) (phase (keyRing N sk) [r0, r1]) (sg e (phase (keyRing N sk) [f0, f1]) + E) ∧
        ∀ m V, Encodes t (levelQ l i) m (phase (keyRing N sk) [f0, f1]) V →
          Encodes t (levelQ l i) (sg e m) (phase (keyRing N sk) [r0, r1]) (V + t * (switchNoise N l i * (2 * variance)))) ∧
      ∀ ct, ct.level ≠ i → g.relinearize pr' ct = .error .assert := by
  obtain ⟨K, ext, rfl, hw, rfl, rfl, rfl⟩ := BfvP.params h
  have hpos : 0 < 2 ^ K := by positivity
  have hi' : i < P.ciphertextModuli.length := by rw [← hw.nLevels]; exact (List.getElem?_eq_some_iff.mp hi).1
  obtain ⟨L, hL⟩ := hw.levels i hi'
  rw [hL.q] at hi
  cases hi
  have hsk := BfvP.key hw hk
  have hP := hk.1
  subst hP
  have hK : K ≤ 31 := (Nat.pow_le_pow_iff_right (by norm_num)).mp hN
  have hs := Poly.substitution_new_ok hL.wf.ctx pr hK he
  obtain ⟨g, a, b, h1, h2, h3, h4⟩ := GaliosKey.new_enc hsk pr hL hv1 hv2 hl hK he hs (fun j => BfvP.tape hL (ha j)) hr
  refine ⟨_, g, hs, h1, ?_, ?_⟩
  · intro ct f0 f1 hct
    obtain ⟨x1, x2, x3⟩ := (BfvP.isCt_iff hL _ _).mp hct
    obtain ⟨r0, r1, E, y1, y2, y3⟩ := GaliosKey.relinearize_enc hL.wf.ctx pr' (x2.trans h3.symm) hK he (by rw [h2]; exact hs) h4 x3
    have hE : Bdd (switchNoise (2 ^ K) sk.params.ciphertextModuli i * (2 * sk.params.variance)) E := by
      rw [BfvP.switchNoise_eq hL]; exact y2
    have hcong : Cong (levelQ sk.params.ciphertextModuli i) (phase (keyRing (2 ^ K) sk) [r0, r1])
        (sg e (phase (keyRing (2 ^ K) sk) [f0, f1]) + E) := by
      unfold Cong; rw [← BfvP.levelQ_eq hL, BfvP.phase_two, BfvP.phase_two]; exact y3
    refine ⟨_, r0, r1, E, y1, (BfvP.isCt_iff hL _ _).mpr ⟨x1, h3, rfl⟩, hE, hcong, ?_⟩
    intro m V hm
    exact BfvP.Encodes.congr (BfvP.Encodes.addError hpos (BfvP.Encodes.sg hpos hm he (Nat.Coprime.pow_right K (Nat.coprime_two_right.mpr he))) hE) hcong
  · intro ct hct
    unfold GaliosKey.relinearize
    rw [rassert_fail (by rw [h3]; exact hct)]
    rfl

/-- C37: parameters with a single modulus are rejected by `GaliosKey::new`. -/
theorem c37_single_modulus (pr : Profile) (sk : SecretKey) (sub : Substitution) (i : Nat) (aTape : Nat → Nat → Nat → Nat)
    (rng : Nat → Nat → Nat) (h : sk.params.ciphertextModuli.length = 1) : GaliosKey.new pr sk sub i aTape rng = .error .assert := by
  unfold GaliosKey.new
  rw [rassert_fail (by rw [h]; simp)]
  rfl

/-- Applying `X ↦ X^9` to an actual encryption: the result decrypts to the transformed message. -/
example : ∃ P sk ct ct' pt g, IsParams 8 17 Ex.mods 10 P ∧ IsKey P sk ∧ GaliosKey.relinearize .debug g ct = .ok ct' ∧
    sk.decrypt .debug ct' = .ok pt ∧ pt.values = residues 17 (sg 9 (msgRing 8 [3, 1, 16, 0, 2, 0, 0, 9])) := by
  obtain ⟨P, sk, ct, f0, f1, h, hk, -, hct, he⟩ := Ex.setup
  obtain ⟨c, hc⟩ : ∃ c, P.qCtxs[0]? = some c := by
    obtain ⟨p, c, hc, -⟩ := c33_exists_poly h (i := 0) (by decide) (1 : Rg 8)
    exact ⟨c, hc⟩
  obtain ⟨sub, g, -, -, h3, -⟩ := c37_galois h hk .debug .debug (by norm_num) (by norm_num) (by decide) (by norm_num) hc (e := 9) (by decide)
    Ex.tapes (fun _ => Ex.wordTape)
  obtain ⟨ct', r0, r1, E, h4, h5, -, -, h6⟩ := h3 ct f0 f1 hct
  obtain ⟨pt, h7, -, -, h8⟩ := c30_decrypt h hk .debug (by simp) h5 (by decide) (h6 _ _ he)
    (by rw [Ex.levelQ_mods0, show switchNoise 8 Ex.mods 0 = 8 * (1048609 + 1048721 + 1048897) by decide +kernel]; norm_num)
  exact ⟨P, sk, ct, ct', pt, g, h, hk, h4, h7, h8⟩

/-! ### C38: relinearization keys -/

/-- C38: `relinearize_poly` of `f`, in either representation, has phase `f s^2 + E` with `E` at most `N (Σ q_j) 2 variance`. -/
theorem c38_relinearize (h : IsParams N t l variance P) {sk : SecretKey} (hk : IsKey P sk) (pr pr' : Profile) (hv1 : 1 ≤ variance)
    (hv2 : variance ≤ 16) {i : Nat} (hi : i < l.length) {aTape : Nat → Nat → Nat → Nat} (ha : ∀ j, TapeAt l i (aTape j))
    {rng : Nat → Nat → Nat} (hr : ∀ j i, rng j i < 2 ^ 64) :
    ∃ k, RelinearizationKey.new pr sk i aTape rng = .ok k ∧ k.params = P ∧
      IsKsk P l i (keyRing N sk) (keyRing N sk ^ 2) (2 * variance) k.ksk ∧
      ∀ p, ∀ f : Rg N, PolyAt P i f p ∨ PowerAt P i f p → ∃ p0 p1, ∃ r0 r1 E : Rg N, k.relinearizePoly pr' p = .ok (p0, p1) ∧
        PolyAt P i r0 p0 ∧ PolyAt P i r1 p1 ∧ Bdd (switchNoise N l i * (2 * variance)) E ∧
        Cong (levelQ l i) (r0 + r1 * keyRing N sk) (f * keyRing N sk ^ 2 + E) := by
  obtain ⟨K, ext, rfl, hw, rfl, rfl, rfl⟩ := BfvP.params h
  obtain ⟨L, hL⟩ := hw.levels i hi
  have hsk := BfvP.key hw hk
  have hP := hk.1
  subst hP
  obtain ⟨k, a, b, h1, h2, h3⟩ := RelinearizationKey.new_enc hsk pr hL hv1 hv2 (fun j => BfvP.tape hL (ha j)) hr
  rw [← pow_two] at h3
  refine ⟨k, h1, h2, BfvP.isKsk_of_holds hL h3, ?_⟩
  intro p f hp
  obtain ⟨r, hr, rfl⟩ : ∃ r : Representation, r ≠ .nttShoup ∧ p = enc L.qCtx r f := by
    rcases hp with hp | hp
    · exact ⟨_, by simp, (BfvP.polyAt_iff hL _ _).mp hp⟩
    · exact ⟨_, by simp, (BfvP.powerAt_iff hL _ _).mp hp⟩
  obtain ⟨r0, r1, E, y1, y2, y3⟩ := RelinearizationKey.relinearizePoly_enc hL.wf.ctx pr' h3 hr f
  refine ⟨_, _, r0, r1, E, y1, (BfvP.polyAt_iff hL _ _).mpr rfl, (BfvP.polyAt_iff hL _ _).mpr rfl, ?_, ?_⟩
  · rw [BfvP.switchNoise_eq hL]; exact y2
  · unfold Cong; rw [← BfvP.levelQ_eq hL]; exact y3

example : ∃ P sk k p r, IsParams 8 17 Ex.mods 10 P ∧ IsKey P sk ∧
    RelinearizationKey.new .debug sk 1 (fun _ _ _ => 0) (fun _ i => i % 1000) = .ok k ∧ PolyAt P 1 (msgRing 8 [3, 1]) p ∧
    k.relinearizePoly .release p = .ok r := by
  obtain ⟨P, sk, h, hk, -⟩ := Ex.setup_key
  obtain ⟨p, hp⟩ := c33_exists_poly h (i := 1) (by decide) (msgRing 8 [3, 1])
  obtain ⟨k, h1, -, -, h2⟩ := c38_relinearize h hk .debug .release (by norm_num) (by norm_num) (i := 1) (by decide) Ex.tapes (fun _ => Ex.wordTape)
  obtain ⟨p0, p1, -, -, -, h3, -⟩ := h2 p _ (Or.inl hp)
  exact ⟨P, sk, k, p, _, h, hk, h1, hp, h3⟩

/-! ### C39: RGSW ciphertexts -/

/-- C39: `encrypt_poly` gives an RGSW ciphertext with errors at most `2 variance` (in every NTT polynomial of every level). -/
theorem c39_encrypt_poly (h : IsParams N t l variance P) {sk : SecretKey} (hk : IsKey P sk) (pr : Profile) (hv1 : 1 ≤ variance) (hv2 : variance ≤ 16)
    {i : Nat} {m : Rg N} {p : Poly} (hp : PolyAt P i m p) {a0 a1 : Nat → Nat → Nat → Nat} (ha0 : ∀ j, TapeAt l i (a0 j))
    (ha1 : ∀ j, TapeAt l i (a1 j)) {r0 r1 : Nat → Nat → Nat} (hr0 : ∀ j i, r0 j i < 2 ^ 64) (hr1 : ∀ j i, r1 j i < 2 ^ 64) :
    ∃ g, RgswCt.encryptPoly pr sk p a0 a1 r0 r1 = .ok g ∧ IsRgsw P l i (keyRing N sk) m (2 * variance) (2 * variance) g := by
  obtain ⟨K, ext, rfl, hw, rfl, rfl, rfl⟩ := BfvP.params h
  obtain ⟨L, hL⟩ := hw.levels i (BfvP.level_lt hw hp)
  have hsk := BfvP.key hw hk
  have hP := hk.1
  subst hP
  rw [(BfvP.polyAt_iff hL _ _).mp hp]
  obtain ⟨g, x0, y0, x1, y1, h1, h2, h3⟩ := RgswCt.encryptPoly_enc hsk pr hL (BfvParameters.ctxLevel_at hw hL) hv1 hv2 m
    (fun j => BfvP.tape hL (ha0 j)) (fun j => BfvP.tape hL (ha1 j)) hr0 hr1
  exact ⟨g, h1, BfvP.isKsk_of_holds hL h2, BfvP.isKsk_of_holds hL h3⟩

/-- C39: `encrypt` gives an RGSW ciphertext of the values of the plaintext. -/
theorem c39_encrypt (h : IsParams N t l variance P) {sk : SecretKey} (hk : IsKey P sk) (pr : Profile) (hv1 : 1 ≤ variance) (hv2 : variance ≤ 16)
    {pt : Plaintext} (hp : pt.params = P) (hlev : pt.level < l.length) (hlen : pt.values.length ≤ N) (hv : ∀ x ∈ pt.values, x < 2 ^ 64)
    {a0 a1 : Nat → Nat → Nat → Nat} (ha0 : ∀ j, TapeAt l pt.level (a0 j))
    (ha1 : ∀ j, TapeAt l pt.level (a1 j)) {r0 r1 : Nat → Nat → Nat} (hr0 : ∀ j i, r0 j i < 2 ^ 64) (hr1 : ∀ j i, r1 j i < 2 ^ 64) :
    ∃ g, RgswCt.encrypt pr sk pt a0 a1 r0 r1 = .ok g ∧
      IsRgsw P l pt.level (keyRing N sk) (msgRing N pt.values) (2 * variance) (2 * variance) g := by
  obtain ⟨K, ext, rfl, hw, rfl, rfl, rfl⟩ := BfvP.params h
  obtain ⟨L, hL⟩ := hw.levels _ hlev
  have hsk := BfvP.key hw hk
  have hP := hk.1
  subst hP
  obtain ⟨g, x0, y0, x1, y1, h1, h2, h3⟩ := RgswCt.encrypt_enc hsk pr hp.symm hL hv1 hv2 hlen hv
    (fun j => BfvP.tape hL (ha0 j)) (fun j => BfvP.tape hL (ha1 j)) hr0 hr1
  rw [← BfvP.msgRing_eq] at h2 h3
  exact ⟨g, h1, BfvP.isKsk_of_holds hL h2, BfvP.isKsk_of_holds hL h3⟩

/-- C39: the external product of an RGSW ciphertext of `m` with a ciphertext multiplies the phase by `m`, up to an error at most
`N (Σ q_j) (B0 + B1)`; a message `m'` with noise `V` becomes `m m'` with noise `N V M + t N (Σ q_j) (B0 + B1)` where `M` bounds `m`. -/
theorem c39_external_product (h : IsParams N t l variance P) (pr : Profile) {i : Nat} {s m : Rg N} {B0 B1 : ℤ} {g : RgswCt}
    (hg : IsRgsw P l i s m B0 B1 g) {ct : BfvCipherText} {f0 f1 : Rg N} (hct : IsCt P i [f0, f1] ct) :
    ∃ p0 p1, ∃ r0 r1 E : Rg N, g.externalProduct pr ct = .ok (p0, p1) ∧ IsCt P i [r0, r1] ⟨P, [p0, p1], i⟩ ∧
      Bdd (switchNoise N l i * (B0 + B1)) E ∧ Cong (levelQ l i) (phase s [r0, r1]) (m * phase s [f0, f1] + E) ∧
      ∀ m' V M, Encodes t (levelQ l i) m' (phase s [f0, f1]) V → Bdd M m →
        Encodes t (levelQ l i) (m' * m) (phase s [r0, r1]) (N * V * M + t * (switchNoise N l i * (B0 + B1))) := by
  obtain ⟨K, ext, rfl, hw, rfl, rfl, rfl⟩ := BfvP.params h
  have hpos : 0 < 2 ^ K := by positivity
  obtain ⟨L, hL⟩ := BfvP.isCt_level hw (by simp) hct
  obtain ⟨a0, b0, h0⟩ := BfvP.holds_of_isKsk hL hg.1
  obtain ⟨a1, b1, h1⟩ := BfvP.holds_of_isKsk hL hg.2
  obtain ⟨x1, x2, x3⟩ := (BfvP.isCt_iff hL _ _).mp hct
  obtain ⟨r0, r1, E, y1, y2, y3⟩ := RgswCt.externalProduct_enc hL.wf.ctx pr h0 h1 x3
  have hE : Bdd (switchNoise (2 ^ K) P.ciphertextModuli i * (B0 + B1)) E := by rw [BfvP.switchNoise_eq hL]; exact y2
  have hcong : Cong (levelQ P.ciphertextModuli i) (phase s [r0, r1]) (m * phase s [f0, f1] + E) := by
    unfold Cong; rw [← BfvP.levelQ_eq hL, BfvP.phase_two, BfvP.phase_two]; exact y3
  refine ⟨_, _, r0, r1, E, y1, (BfvP.isCt_iff hL _ _).mpr ⟨rfl, rfl, rfl⟩, hE, hcong, ?_⟩
  intro m' V M hm hM
  rw [mul_comm m] at hcong
  exact BfvP.Encodes.congr (BfvP.Encodes.addError hpos (BfvP.Encodes.mul hpos hm hM) hE) hcong

/-- The external product of an actual RGSW encryption of `X` with an actual encryption decrypts to the product. -/
example : ∃ P sk g ct p0 p1 pt, IsParams 8 17 Ex.mods 10 P ∧ IsKey P sk ∧
    RgswCt.encrypt .debug sk ⟨P, 0, .poly, [0, 1]⟩ (fun _ _ _ => 0) (fun _ _ _ => 0) (fun _ i => i % 1000) (fun _ i => i % 1000) = .ok g ∧
    g.externalProduct .debug ct = .ok (p0, p1) ∧ sk.decrypt .debug ⟨P, [p0, p1], 0⟩ = .ok pt ∧
    pt.values = residues 17 (msgRing 8 [3, 1, 16, 0, 2, 0, 0, 9] * msgRing 8 [0, 1]) := by
  obtain ⟨P, sk, ct, f0, f1, h, hk, -, hct, he⟩ := Ex.setup
  obtain ⟨g, h1, h2⟩ := c39_encrypt h hk .debug (by norm_num) (by norm_num) (pt := ⟨P, 0, .poly, [0, 1]⟩) rfl (by norm_num [Ex.mods])
    (by norm_num) (by dsimp only; decide) Ex.tapes Ex.tapes (fun _ => Ex.wordTape) (fun _ => Ex.wordTape)
  obtain ⟨p0, p1, r0, r1, E, h3, h4, -, -, h5⟩ := c39_external_product h .debug h2 hct
  obtain ⟨pt, h7, -, -, h8⟩ := c30_decrypt h hk .debug (by simp) h4 (by decide) (h5 _ _ (1 : Nat) he (BfvP.msgRing_bdd (K := 3) (by dsimp only; decide)))
    (by dsimp only; rw [Ex.levelQ_mods0, show switchNoise 8 Ex.mods 0 = 8 * (1048609 + 1048721 + 1048897) by decide +kernel]; norm_num)
  exact ⟨P, sk, g, ct, p0, p1, pt, h, hk, h1, h3, h7, h8⟩

/-! ### C40: RGSW ciphertexts assembled from RLWE ciphertexts -/

/-- C40: the key assembled from RLWE ciphertexts of `m` times the Garner coefficients is a key-switching key from `m`. -/
theorem c40_assembled_ksk (h : IsParams N t l variance P) {s m : Rg N} {B : ℤ} {cts : List BfvCipherText} (hlen : cts.length = l.length)
    (hc : ∀ j ct, cts[j]? = some ct → ∃ f0 f1 : Rg N, IsCt P 0 [f0, f1] ct ∧ RlweGarner l 0 j s m B f0 f1) :
    ∃ k, Ksk.tryFromDecomposedRlwes P cts = .ok k ∧ IsKsk P l 0 s m B k := by
  obtain ⟨K, ext, rfl, hw, rfl, rfl, rfl⟩ := BfvP.params h
  obtain ⟨L, hL⟩ := hw.levels 0 (List.length_pos_iff.mpr hw.ne)
  have hl : L.qCtx.moduli64.length = cts.length := by rw [BfvP.len_level hL, hlen]; simp [levelModuli]
  have hc' : ∀ j, ∃ f0 f1 : Rg (2 ^ K), ∀ ct, cts[j]? = some ct → IsCt P 0 [f0, f1] ct ∧ RlweGarner P.ciphertextModuli 0 j s m B f0 f1 := by
    intro j
    cases hct : cts[j]? with
    | none => exact ⟨0, 0, fun ct h => by cases h⟩
    | some ct =>
      obtain ⟨f0, f1, h1, h2⟩ := hc j ct hct
      exact ⟨f0, f1, fun ct' h' => by cases h'; exact ⟨h1, h2⟩⟩
  choose b a hba using hc'
  obtain ⟨k, h1, -, h2⟩ := Ksk.tryFromDecomposed_enc hL hl.symm (s := s) (src := m) (B := B) (a := a) (b := b)
    (fun j ct hj => by
      obtain ⟨x1, x2, x3⟩ := (BfvP.isCt_iff hL _ _).mp (hba j ct hj).1
      exact ⟨x1, x3⟩)
    (fun j hj => (BfvP.rlwe_iff hL (by omega)).mp (hba j _ (List.getElem?_eq_getElem hj)).2)
  exact ⟨k, h1, BfvP.isKsk_of_holds hL h2⟩

/-- The products of `gs` with the ciphertexts, as in `Server::decode` (src/evaluations.rs:136-146). -/
def Spec.upperHalf (pr : Profile) (P : BfvParameters) (gs : RgswCt) (cts : List BfvCipherText) : Res (List BfvCipherText) :=
  mapR (fun ct => do
    let (c0, c1) ← gs.externalProduct pr ct
    .ok { params := P, cts := [c0, c1], level := 0 }) cts

/-- C40: from RLWE ciphertexts of `b` times the Garner coefficients and an RGSW ciphertext of the secret key, the assembled pair
of keys is an RGSW ciphertext of `b`; with `S` bounding the key, its errors are at most `N B S + N (Σ q_j) (B0 + B1)` and `B`.
`c39_external_product` applies to it. -/
theorem c40_assembled_rgsw (h : IsParams N t l variance P) (pr : Profile) {s b : Rg N} {B B0 B1 S : ℤ} {gs : RgswCt}
    (hg : IsRgsw P l 0 s s B0 B1 gs) (hS : Bdd S s) {cts : List BfvCipherText} (hlen : cts.length = l.length)
    (hc : ∀ j ct, cts[j]? = some ct → ∃ f0 f1 : Rg N, IsCt P 0 [f0, f1] ct ∧ RlweGarner l 0 j s b B f0 f1) :
    ∃ ups k0 k1, Spec.upperHalf pr P gs cts = .ok ups ∧ Ksk.tryFromDecomposedRlwes P ups = .ok k0 ∧
      Ksk.tryFromDecomposedRlwes P cts = .ok k1 ∧
      IsRgsw P l 0 s b (N * B * S + switchNoise N l 0 * (B0 + B1)) B (RgswCt.tryFromKsks k0 k1) := by
  obtain ⟨k1, h1, h2⟩ := c40_assembled_ksk h hlen hc
  have hN : 0 < N := by
    obtain ⟨K, ext, rfl, -⟩ := BfvP.params h
    positivity
  -- one product
  have hone : ∀ j ct, cts[j]? = some ct → ∃ ct', (do
      let (c0, c1) ← gs.externalProduct pr ct
      .ok { params := P, cts := [c0, c1], level := 0 } : Res BfvCipherText) = .ok ct' ∧
      ∃ f0 f1 : Rg N, IsCt P 0 [f0, f1] ct' ∧ RlweGarner l 0 j s (s * b) (N * B * S + switchNoise N l 0 * (B0 + B1)) f0 f1 := by
    intro j ct hj
    obtain ⟨f0, f1, hct, g, hg', e, he, hcong⟩ := hc j ct hj
    obtain ⟨p0, p1, r0, r1, E, y1, y2, y3, y4, -⟩ := c39_external_product h pr hg hct
    refine ⟨_, by rw [y1, res_ok_bind], r0, r1, y2, g, hg', e * s + E, (he.mul hN hS).add hN y3, ?_⟩
    rw [BfvP.phase_two, BfvP.phase_two] at y4
    obtain ⟨w, hw⟩ := y4
    obtain ⟨z, hz⟩ := hcong
    refine ⟨w + s * z, ?_⟩
    linear_combination hw + s * hz
  obtain ⟨ups, hu1, hu2, hu3⟩ : ∃ ups, Spec.upperHalf pr P gs cts = .ok ups ∧ ups.length = cts.length ∧
      ∀ j ct, ups[j]? = some ct → ∃ f0 f1 : Rg N, IsCt P 0 [f0, f1] ct ∧
        RlweGarner l 0 j s (s * b) (N * B * S + switchNoise N l 0 * (B0 + B1)) f0 f1 := by
    have gen : ∀ (cts : List BfvCipherText) (o : Nat),
        (∀ j ct, cts[j]? = some ct → ∃ ct', (do
          let (c0, c1) ← gs.externalProduct pr ct
          .ok { params := P, cts := [c0, c1], level := 0 } : Res BfvCipherText) = .ok ct' ∧
          ∃ f0 f1 : Rg N, IsCt P 0 [f0, f1] ct' ∧ RlweGarner l 0 (o + j) s (s * b) (N * B * S + switchNoise N l 0 * (B0 + B1)) f0 f1) →
        ∃ ups, Spec.upperHalf pr P gs cts = .ok ups ∧ ups.length = cts.length ∧
          ∀ j ct, ups[j]? = some ct → ∃ f0 f1 : Rg N, IsCt P 0 [f0, f1] ct ∧
            RlweGarner l 0 (o + j) s (s * b) (N * B * S + switchNoise N l 0 * (B0 + B1)) f0 f1 := by
      intro cts
      induction cts with
      | nil => exact fun o _ => ⟨[], rfl, rfl, fun j ct h => by simp at h⟩
      | cons ct cts ih =>
        intro o hh
        obtain ⟨ct', a1, a2⟩ := hh 0 ct rfl
        obtain ⟨ups, b1, b2, b3⟩ := ih (o + 1) (fun j ct hj => by
          rw [show o + 1 + j = o + (j + 1) by omega]
          exact hh (j + 1) ct (by simpa using hj))
        refine ⟨ct' :: ups, ?_, by simp [b2], ?_⟩
        · unfold Spec.upperHalf at b1 ⊢
          rw [mapR, a1, res_ok_bind, b1, res_ok_bind]
        · intro j ct'' hj
          cases j with
          | zero => simp at hj; subst hj; exact a2
          | succ j =>
            rw [show o + (j + 1) = o + 1 + j by omega]
            exact b3 j ct'' (by simpa using hj)
    obtain ⟨ups, b1, b2, b3⟩ := gen cts 0 (by simpa using hone)
    exact ⟨ups, b1, b2, by simpa using b3⟩
  obtain ⟨k0, h3, h4⟩ := c40_assembled_ksk h (hu2.trans hlen) hu3
  exact ⟨ups, k0, k1, hu1, h3, h1, h4, h2⟩

/-- RLWE ciphertexts as required by C40 come out of `encrypt_poly`. -/
theorem c40_rlwe (h : IsParams N t l variance P) {sk : SecretKey} (hk : IsKey P sk) (pr : Profile) (hv1 : 1 ≤ variance)
    (hv2 : variance ≤ 16) {b : Rg N} {j : Nat} {g : ℤ} (hg : IsGarner l 0 j g) {p : Poly} (hp : PolyAt P 0 (b * (g : Rg N)) p)
    {aTape : Nat → Nat → Nat} (ha : TapeAt l 0 aTape) {rng : Nat → Nat} (hr : ∀ i, rng i < 2 ^ 64) :
    ∃ ct, ∃ f0 f1 : Rg N, sk.encryptPoly pr p aTape rng = .ok ct ∧ IsCt P 0 [f0, f1] ct ∧
      RlweGarner l 0 j (keyRing N sk) b (2 * variance) f0 f1 := by
  obtain ⟨ct, f0, f1, e, h1, h2, h3, h4⟩ := c30_encrypt_poly h hk pr hv1 hv2 hp ha hr
  refine ⟨ct, f0, f1, h1, h2, g, hg, e, h3, ?_⟩
  rw [← BfvP.phase_two, h4]
  exact ⟨0, by ring⟩

/-- Garner coefficients exist for every level. -/
theorem c40_garner (h : IsParams N t l variance P) {i j : Nat} (hi : i < l.length) (hj : j < (levelModuli l i).length) :
    ∃ g, IsGarner l i j g := by
  obtain ⟨K, ext, rfl, hw, rfl, rfl, rfl⟩ := BfvP.params h
  obtain ⟨L, hL⟩ := hw.levels i hi
  exact ⟨_, BfvP.garner_isGarner hL (by rw [BfvP.len_level hL]; exact hj)⟩

/-- An RGSW ciphertext of `X` assembled from three actual encryptions and an actual RGSW encryption of the key, with all
hypotheses discharged; its product with an actual encryption has the noise stated. -/
example : ∃ P sk gs cts ups k0 k1 ct r, IsParams 8 17 Ex.mods 10 P ∧ IsKey P sk ∧ Spec.upperHalf .debug P gs cts = .ok ups ∧
    Ksk.tryFromDecomposedRlwes P ups = .ok k0 ∧ Ksk.tryFromDecomposedRlwes P cts = .ok k1 ∧
    IsRgsw P Ex.mods 0 (keyRing 8 sk) (msgRing 8 [0, 1])
      ((8 : Nat) * (2 * (10 : Nat)) * 20 + switchNoise 8 Ex.mods 0 * (2 * (10 : Nat) + 2 * (10 : Nat))) (2 * (10 : Nat)) (RgswCt.tryFromKsks k0 k1) ∧
    (RgswCt.tryFromKsks k0 k1).externalProduct .debug ct = .ok r := by
  obtain ⟨P, sk, ct0, f0, f1, h, hk, hb, hct0, -⟩ := Ex.setup
  have hs : ∃ p, PolyAt P 0 (keyRing 8 sk) p := c33_exists_poly h (by decide) _
  obtain ⟨sp, hsp⟩ := hs
  obtain ⟨gs, -, hgs⟩ := c39_encrypt_poly h hk .debug (by norm_num) (by norm_num) hsp Ex.tapes Ex.tapes (fun _ => Ex.wordTape) (fun _ => Ex.wordTape)
  have hj : ∀ j, j < 3 → ∃ ct, ∃ f0 f1 : Rg 8, IsCt P 0 [f0, f1] ct ∧
      RlweGarner Ex.mods 0 j (keyRing 8 sk) (msgRing 8 [0, 1]) (2 * (10 : Nat)) f0 f1 := by
    intro j hj
    obtain ⟨g, hg⟩ := c40_garner h (i := 0) (j := j) (by decide) (by simpa [levelModuli, Ex.mods] using hj)
    obtain ⟨p, hp⟩ := c33_exists_poly h (i := 0) (by decide) (msgRing 8 [0, 1] * (g : Rg 8))
    obtain ⟨ct, f0, f1, -, h1, h2⟩ := c40_rlwe h hk .debug (by norm_num) (by norm_num) hg hp (Ex.tape0 Ex.mods_gt) Ex.wordTape
    exact ⟨ct, f0, f1, h1, h2⟩
  obtain ⟨c0, h0⟩ := hj 0 (by norm_num)
  obtain ⟨c1, h1⟩ := hj 1 (by norm_num)
  obtain ⟨c2, h2⟩ := hj 2 (by norm_num)
  obtain ⟨ups, k0, k1, a1, a2, a3, a4⟩ := c40_assembled_rgsw h .debug hgs (S := 20) (by simpa using hb) (cts := [c0, c1, c2]) rfl
    (b := msgRing 8 [0, 1]) (B := 2 * (10 : Nat)) (by
      intro j ct hjc
      match j, hjc with
      | 0, hjc => cases hjc; exact h0
      | 1, hjc => cases hjc; exact h1
      | 2, hjc => cases hjc; exact h2)
  obtain ⟨p0, p1, -, -, -, b1, -⟩ := c39_external_product h .debug a4 hct0
  exact ⟨P, sk, gs, _, ups, k0, k1, ct0, _, h, hk, a1, a2, a3, a4, b1⟩

/-- C36: a polynomial in NTT form is rejected; the bound of the example parameters. -/
example : ∃ P sk p k, IsParams 8 17 Ex.mods 10 P ∧ IsKey P sk ∧ PolyAt P 1 (msgRing 8 [3, 1]) p ∧
    Ksk.new .debug sk p 1 1 (fun _ _ _ => 0) (fun _ i => i % 1000) = .ok k ∧ k.keySwitch .debug p = .error .assert ∧
    switchNoise 8 Ex.mods 1 * 20 ≤ (levelModuli Ex.mods 1).length * 8 * 1048897 * 20 := by
  obtain ⟨P, sk, h, hk, -⟩ := Ex.setup_key
  obtain ⟨p, hp⟩ := c33_exists_poly h (i := 1) (by decide) (msgRing 8 [3, 1])
  obtain ⟨k, h1, -, h2⟩ := c36_new h hk .debug (by norm_num) (by norm_num) hp Ex.tapes (fun _ => Ex.wordTape)
  refine ⟨P, sk, p, k, h, hk, hp, h1, c36_mismatch .debug k p (.inr ?_), c36_bound 8 Ex.mods 1 1048897 (by decide) 20⟩
  obtain ⟨c, -, -, h3, -⟩ := hp
  rw [h3]; simp

/-- C40: a key-switching key assembled from three actual encryptions of the multiples of `X` by the garner terms. -/
example : ∃ P sk cts k, IsParams 8 17 Ex.mods 10 P ∧ IsKey P sk ∧ Ksk.tryFromDecomposedRlwes P cts = .ok k ∧
    IsKsk P Ex.mods 0 (keyRing 8 sk) (msgRing 8 [0, 1]) (2 * (10 : Nat)) k := by
  obtain ⟨P, sk, ct0, f0, f1, h, hk, hb, hct0, -⟩ := Ex.setup
  have hj : ∀ j, j < 3 → ∃ ct, ∃ f0 f1 : Rg 8, IsCt P 0 [f0, f1] ct ∧
      RlweGarner Ex.mods 0 j (keyRing 8 sk) (msgRing 8 [0, 1]) (2 * (10 : Nat)) f0 f1 := by
    intro j hj
    obtain ⟨g, hg⟩ := c40_garner h (i := 0) (j := j) (by decide) (by simpa [levelModuli, Ex.mods] using hj)
    obtain ⟨p, hp⟩ := c33_exists_poly h (i := 0) (by decide) (msgRing 8 [0, 1] * (g : Rg 8))
    obtain ⟨ct, f0, f1, -, h1, h2⟩ := c40_rlwe h hk .debug (by norm_num) (by norm_num) hg hp (Ex.tape0 Ex.mods_gt) Ex.wordTape
    exact ⟨ct, f0, f1, h1, h2⟩
  obtain ⟨c0, h0⟩ := hj 0 (by norm_num)
  obtain ⟨c1, h1⟩ := hj 1 (by norm_num)
  obtain ⟨c2, h2⟩ := hj 2 (by norm_num)
  obtain ⟨k, a1, a2⟩ := c40_assembled_ksk h (cts := [c0, c1, c2]) rfl (m := msgRing 8 [0, 1]) (B := 2 * (10 : Nat)) (by
      intro j ct hjc
      match j, hjc with
      | 0, hjc => cases hjc; exact h0
      | 1, hjc => cases hjc; exact h1
      | 2, hjc => cases hjc; exact h2)
  exact ⟨P, sk, _, k, h, hk, a1, a2⟩

/-- C37: with a single modulus no Galois key can be made. -/
example : ∃ P, IsParams 8 17 [1048609] 10 P ∧ ∀ sub aTape rng, GaliosKey.new .debug ⟨P, [1, 1]⟩ sub 0 aTape rng = .error .assert := by
  obtain ⟨P, -, h⟩ := c51_new_succeeds .debug (K := 3) (by norm_num) (by norm_num) (t := 17) (by norm_num) (by norm_num) (by norm_num)
    (l := [1048609]) (by simp) (by simp) (by intro q hq; simp at hq; subst hq; norm_num) (by simp) (by simp)
    ⟨Ex.bigPrimes, by decide, by simp [Ex.bigPrimes], fun p hp => ⟨Ex.bigPrimes_prime p hp, by
      revert p; unfold Ex.bigPrimes; decide⟩⟩ Ex.goodSample_lt (fun q hq hc => ⟨0, by norm_num, Ex.goodSample_good hq (by rintro rfl; norm_num at hc)⟩) 10 ⟨1, 1⟩
  refine ⟨P, h, fun sub aTape rng => c37_single_modulus .debug _ sub 0 aTape rng ?_⟩
  exact congrArg List.length (c51_levels h).2.2.1

end OnionPIR
