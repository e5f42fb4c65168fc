import Verif.Proofs.BfvNoise
import Verif.Props.BfvParams
/-
Properties C30 to C34 and C48: encryption, decryption, linear operations and noise measurement.
Ciphertexts are described by ring elements (`IsCt`); a message is encoded in a phase up to a bounded noise (`Encodes`).
-/
namespace OnionPIR
open Rg Spec

variable {N t : Nat} {l : List Nat} {variance : Nat} {P : BfvParameters}

/-! ### Every stored ciphertext has ring components -/

/-- `IsCt` covers every ciphertext of level `i` whose components are stored canonically in NTT form. -/
theorem c30_components (h : IsParams N t l variance P) {ct : BfvCipherText} (hp : ct.params = P) {i : Nat} (hl : ct.level = i)
    {c : RqContext} (hc : P.qCtxs[i]? = some c)
    (hv : ∀ p ∈ ct.cts, p.context = c ∧ p.representation = .ntt ∧ ValidRows c p.coefficients) :
    ∃ fs : List (Rg N), IsCt P i fs ct ∧ fs.length = ct.cts.length := by
  obtain ⟨K, ext, rfl, hw, rfl, rfl, -⟩ := BfvP.params h
  have hlt : i < P.ciphertextModuli.length := by rw [← hw.nLevels]; exact (List.getElem?_eq_some_iff.mp hc).1
  obtain ⟨L, hL⟩ := hw.levels i hlt
  rw [hL.q] at hc
  cases hc
  have key : ∀ cts : List Poly, (∀ p ∈ cts, p.context = L.qCtx ∧ p.representation = .ntt ∧ ValidRows L.qCtx p.coefficients) →
      ∃ fs : List (Rg (2 ^ K)), cts = fs.map (enc L.qCtx .ntt) := by
    intro cts
    induction cts with
    | nil => exact fun _ => ⟨[], rfl⟩
    | cons p cts ih =>
      intro hv
      obtain ⟨fs, rfl⟩ := ih (fun q hq => hv q (by simp [hq]))
      obtain ⟨h1, h2, h3⟩ := hv p (by simp)
      obtain ⟨f, hf, -⟩ := exists_enc (p := p) (by rw [h1]; exact hL.wf.ctx) (by rw [h2]; simp) (by rw [← h1] at h3; exact h3)
      refine ⟨f :: fs, ?_⟩
      rw [List.map_cons, ← h1, ← h2, ← hf]
  obtain ⟨fs, hfs⟩ := key ct.cts hv
  exact ⟨fs, (BfvP.isCt_iff hL fs ct).mpr ⟨hp, hl, hfs⟩, by rw [hfs]; simp⟩

/-! ### C30: decryption -/

/-- C30: a ciphertext with any number of components whose phase encodes `m` with noise at most `Q/4` decrypts to `m` modulo `t`. -/
theorem c30_decrypt (h : IsParams N t l variance P) {sk : SecretKey} (hk : IsKey P sk) (pr : Profile) {ct : BfvCipherText} {i : Nat}
    {fs : List (Rg N)} (hne : fs ≠ []) (hct : IsCt P i fs ct) (h2t : 2 * t ≤ l.getD 0 0) {m : Rg N} {V : ℤ}
    (henc : Encodes t (levelQ l i) m (phase (keyRing N sk) fs) V) (hV : 4 * V ≤ levelQ l i) :
    ∃ pt, sk.decrypt pr ct = .ok pt ∧ pt.params = P ∧ pt.level = i ∧ pt.values = residues t m := by
  obtain ⟨K, ext, rfl, hw, rfl, rfl, -⟩ := BfvP.params h
  obtain ⟨L, hL⟩ := BfvP.isCt_level hw hne hct
  obtain ⟨h1, h2, h3⟩ := (BfvP.isCt_iff hL fs ct).mp hct
  have hsk := BfvP.key hw hk
  obtain ⟨v, w, hv, he⟩ := henc
  rw [← BfvP.levelQ_eq hL] at he hV
  subst h2
  have hp := hk.1
  subst hp
  rw [BfvP.phase_eq] at he
  exact ⟨_, SecretKey.decrypt_enc hsk pr hL hne h3 h2t hv hV he, rfl, rfl, rfl⟩

/-- C30: decryption never panics on a well-formed ciphertext, whatever its noise; its values are canonical. -/
theorem c30_decrypt_total (h : IsParams N t l variance P) {sk : SecretKey} (hk : IsKey P sk) (pr : Profile) {ct : BfvCipherText} {i : Nat}
    {fs : List (Rg N)} (hne : fs ≠ []) (hct : IsCt P i fs ct) :
    ∃ pt, sk.decrypt pr ct = .ok pt ∧ IsVec t N pt.values := by
  obtain ⟨K, ext, rfl, hw, rfl, rfl, -⟩ := BfvP.params h
  obtain ⟨L, hL⟩ := BfvP.isCt_level hw hne hct
  obtain ⟨h1, h2, h3⟩ := (BfvP.isCt_iff hL fs ct).mp hct
  have hsk := BfvP.key hw hk
  subst h2
  have hp := hk.1
  subst hp
  obtain ⟨x, y, -, hd⟩ := SecretKey.decrypt_general hsk pr hL hne h3
  refine ⟨_, hd, by simp, ?_⟩
  intro v hv
  rw [List.mem_map] at hv
  obtain ⟨k, -, rfl⟩ := hv
  exact Nat.mod_lt _ hw.t_prime.pos

/-- What encryption produces at any level: the components belong to the level of the plaintext, the `level` field is 0. -/
theorem c30_encrypt_components (h : IsParams N t l variance P) {sk : SecretKey} (hk : IsKey P sk) (pr : Profile) (hv1 : 1 ≤ variance)
    (hv2 : variance ≤ 16) {pt : Plaintext} (hp : pt.params = P) (hlev : pt.level < l.length) (hlen : pt.values.length ≤ N)
    (hv : ∀ x ∈ pt.values, x < 2 ^ 64) {aTape : Nat → Nat → Nat} (ha : TapeAt l pt.level aTape) {rng : Nat → Nat} (hr : ∀ i, rng i < 2 ^ 64) :
    ∃ ct, ∃ f0 f1 : Rg N, sk.encrypt pr pt aTape rng = .ok ct ∧ ct.params = P ∧ ct.level = 0 ∧
      IsCt P pt.level [f0, f1] { ct with level := pt.level } ∧
      Encodes t (levelQ l pt.level) (msgRing N pt.values) (phase (keyRing N sk) [f0, f1]) (2 * t * variance + 2 * t) := by
  obtain ⟨K, ext, rfl, hw, rfl, rfl, rfl⟩ := BfvP.params h
  obtain ⟨L, hL⟩ := hw.levels _ hlev
  have hN : 0 < 2 ^ K := by positivity
  have hsk := BfvP.key hw hk
  have hp' := hk.1
  subst hp'
  obtain ⟨M, hM, hMk⟩ := Plaintext.toPoly_enc (p := pt) (by rw [hp]; exact hw) (by rw [hp]; exact hL) pr hlen hv
  rw [hp] at hMk
  obtain ⟨a, e, he, hct⟩ := SecretKey.encryptPoly_enc hsk pr hL.wf.ctx hv1 hv2 M (BfvP.tape hL ha) hr
  refine ⟨⟨sk.params, [enc L.qCtx .ntt (e - a * sk.ring K + M), enc L.qCtx .ntt a], 0⟩, e - a * sk.ring K + M, a, ?_, rfl, rfl, ?_, ?_⟩
  · unfold SecretKey.encrypt
    rw [hM, res_ok_bind, hct]
  · rw [BfvP.isCt_iff hL]
    exact ⟨rfl, rfl, rfl⟩
  · rw [BfvP.phase_two, BfvP.keyRing_eq, ← BfvP.levelQ_eq hL]
    choose! r r0 r1 r2 using hMk
    set t := sk.params.plaintextModulus
    refine ⟨((t : ℤ) : Rg (2 ^ K)) * e - ofCoeffs (2 ^ K) r, 0, ?_, ?_⟩
    · have b1 := he.int_mul hN (t : ℤ)
      rw [abs_of_nonneg (by positivity)] at b1
      have b2 : Bdd (2 * t : ℤ) (ofCoeffs (2 ^ K) r) := by
        intro k hk
        rw [cf_ofCoeffs hN _ hk, abs_of_nonneg (r0 k hk)]
        exact (r1 k hk).le
      exact (b1.sub hN b2).mono (by linarith)
    · have hMr : ((t : ℤ) : Rg (2 ^ K)) * M = ((L.qCtx.Q : ℤ) : Rg (2 ^ K)) * msgRing (2 ^ K) pt.values - ofCoeffs (2 ^ K) r := by
        apply ext_cf hN
        intro k hk
        rw [cf_sub hN, cf_int_mul hN, cf_int_mul hN, cf_ofCoeffs hN _ hk, BfvP.cf_msgRing _ hk]
        exact r2 k hk
      rw [show e - a * sk.ring K + M + a * sk.ring K = e + M by ring, mul_add, hMr]; ring

/-- `encrypt_poly` on a polynomial of level 0: the phase of the result is the polynomial plus an error of at most `2 variance`. -/
theorem c30_encrypt_poly (h : IsParams N t l variance P) {sk : SecretKey} (hk : IsKey P sk) (pr : Profile) (hv1 : 1 ≤ variance)
    (hv2 : variance ≤ 16) {M : Rg N} {p : Poly} (hp : PolyAt P 0 M p) {aTape : Nat → Nat → Nat} (ha : TapeAt l 0 aTape) {rng : Nat → Nat}
    (hr : ∀ i, rng i < 2 ^ 64) :
    ∃ ct, ∃ f0 f1 e : Rg N, sk.encryptPoly pr p aTape rng = .ok ct ∧ IsCt P 0 [f0, f1] ct ∧ Bdd (2 * variance) e ∧
      phase (keyRing N sk) [f0, f1] = M + e := by
  obtain ⟨K, ext, rfl, hw, rfl, rfl, rfl⟩ := BfvP.params h
  obtain ⟨L, hL⟩ := hw.levels 0 (BfvP.level_lt hw hp)
  have hsk := BfvP.key hw hk
  have hp' := hk.1
  subst hp'
  rw [(BfvP.polyAt_iff hL _ _).mp hp]
  obtain ⟨a, e, he, hct⟩ := SecretKey.encryptPoly_enc hsk pr hL.wf.ctx hv1 hv2 M (BfvP.tape hL ha) hr
  refine ⟨_, e - a * sk.ring K + M, a, e, hct, (BfvP.isCt_iff hL _ _).mpr ⟨rfl, rfl, rfl⟩, he, ?_⟩
  rw [BfvP.phase_two, BfvP.keyRing_eq]
  ring

theorem residues_msgRing {K : Nat} (t : Nat) (v : List Nat) :
    residues t (msgRing (2 ^ K) v) = (List.range (2 ^ K)).map fun k => v.getD k 0 % t := by
  unfold residues
  apply List.map_congr_left
  intro k hk
  rw [BfvP.cf_msgRing v (List.mem_range.mp hk)]
  exact_mod_cast rfl

/-- C30: at level 0, encryption gives a two-component ciphertext that encodes the message with noise `2 t variance + 2 t`. -/
theorem c30_encrypt (h : IsParams N t l variance P) {sk : SecretKey} (hk : IsKey P sk) (pr : Profile) (hv1 : 1 ≤ variance)
    (hv2 : variance ≤ 16) {pt : Plaintext} (hp : pt.params = P) (hlev : pt.level = 0) (hlen : pt.values.length ≤ N)
    (hv : ∀ x ∈ pt.values, x < 2 ^ 64) {aTape : Nat → Nat → Nat} (ha : TapeAt l 0 aTape) {rng : Nat → Nat} (hr : ∀ i, rng i < 2 ^ 64) :
    ∃ ct, ∃ f0 f1 : Rg N, sk.encrypt pr pt aTape rng = .ok ct ∧ IsCt P 0 [f0, f1] ct ∧
      Encodes t (levelQ l 0) (msgRing N pt.values) (phase (keyRing N sk) [f0, f1]) (2 * t * variance + 2 * t) := by
  have hl0 : 0 < l.length := by
    obtain ⟨K, ext, -, hw, -, rfl, -⟩ := BfvP.params h
    exact List.length_pos_iff.mpr hw.ne
  obtain ⟨ct, f0, f1, h1, h2, h3, h4, h5⟩ := c30_encrypt_components h hk pr hv1 hv2 hp (by omega) hlen hv (by rw [hlev]; exact ha) hr
  rw [hlev] at h4 h5
  refine ⟨ct, f0, f1, h1, ?_, h5⟩
  rw [← h3] at h4
  rw [← h3]
  exact h4

/-- C30: decrypting an encryption returns the values modulo `t`, for every key and every outcome of the random choices. -/
theorem c30_encrypt_decrypt (h : IsParams N t l variance P) {sk : SecretKey} (hk : IsKey P sk) (pr pr' : Profile) (hv1 : 1 ≤ variance)
    (hv2 : variance ≤ 16) {pt : Plaintext} (hp : pt.params = P) (hlev : pt.level = 0) (hlen : pt.values.length ≤ N)
    (hv : ∀ x ∈ pt.values, x < 2 ^ 64) {aTape : Nat → Nat → Nat} (ha : TapeAt l 0 aTape) {rng : Nat → Nat} (hr : ∀ i, rng i < 2 ^ 64)
    (h2t : 2 * t ≤ l.getD 0 0) (hQ : 8 * t * (variance + 1) ≤ levelQ l 0) :
    ∃ ct pt', sk.encrypt pr pt aTape rng = .ok ct ∧ sk.decrypt pr' ct = .ok pt' ∧
      pt'.values = (List.range N).map fun k => pt.values.getD k 0 % t := by
  obtain ⟨ct, f0, f1, h1, h2, h3⟩ := c30_encrypt h hk pr hv1 hv2 hp hlev hlen hv ha hr
  have hQ' : (8 * t * (variance + 1) : ℤ) ≤ levelQ l 0 := by exact_mod_cast hQ
  obtain ⟨pt', h4, -, -, h5⟩ := c30_decrypt h hk pr' (by simp) h2 h2t h3 (by linarith)
  refine ⟨ct, pt', h1, h4, ?_⟩
  obtain ⟨K, ext, rfl, -⟩ := BfvP.params h
  rw [h5, residues_msgRing]

/-- C30: keys from `generate` are keys; the number of coefficients is the degree and they are at most `2 variance`. -/
theorem c30_generate (h : IsParams N t l variance P) (pr : Profile) (hv1 : 1 ≤ variance) (hv2 : variance ≤ 16) {rng : Nat → Nat}
    (hr : ∀ i, rng i < 2 ^ 64) :
    ∃ sk, SecretKey.generate pr P rng = .ok sk ∧ IsKey P sk ∧ Bdd (2 * variance) (keyRing N sk) := by
  obtain ⟨K, ext, rfl, hw, rfl, rfl, rfl⟩ := BfvP.params h
  have hb : ∀ x ∈ (List.range P.degree).map (cbdValue rng P.variance), |x| ≤ 2 * P.variance := by
    intro x hx
    rw [List.mem_map] at hx
    obtain ⟨i, -, rfl⟩ := hx
    exact abs_le.mpr (cbdValue_bound rng P.variance i)
  refine ⟨⟨P, (List.range P.degree).map (cbdValue rng P.variance)⟩, ?_, ⟨rfl, by simp, ?_⟩, ?_⟩
  · unfold SecretKey.generate
    rw [sampleVecCbd_ok pr hr hv1 hv2, res_ok_bind]
  · intro x hx
    have := abs_le.mp (hb x hx)
    omega
  · exact ofList_bdd (by positivity) hb

/-- Closed decidable goals, after reducing projections of structure literals. -/
local macro "dec" : tactic => `(tactic| first | decide | (dsimp only; decide))

namespace Ex

theorem tape0 {l : List Nat} {i : Nat} (hl : ∀ q ∈ l, 1 < q) : TapeAt l i fun _ _ => 0 := by
  intro k j hk
  rw [List.getD_eq_getElem _ _ hk]
  exact Nat.lt_trans Nat.zero_lt_one (hl _ (List.mem_of_mem_take (List.getElem_mem hk)))

theorem mods_gt : ∀ q ∈ mods, 1 < q := by decide

theorem wordTape : ∀ i : Nat, (i % 1000 : Nat) < 2 ^ 64 := fun i => by omega

/-- A key, a message and an encryption for the example parameters. -/
theorem setup : ∃ P sk ct, ∃ f0 f1 : Rg 8, IsParams 8 17 mods 10 P ∧ IsKey P sk ∧ Bdd (2 * (10 : Nat)) (keyRing 8 sk) ∧ IsCt P 0 [f0, f1] ct ∧
    Encodes 17 (levelQ mods 0) (msgRing 8 [3, 1, 16, 0, 2, 0, 0, 9]) (phase (keyRing 8 sk) [f0, f1])
      (2 * (17 : Nat) * (10 : Nat) + 2 * (17 : Nat)) := by
  obtain ⟨P, h⟩ := exists_params
  obtain ⟨sk, -, hk, hb⟩ := c30_generate h .release (by norm_num) (by norm_num) wordTape
  obtain ⟨ct, f0, f1, -, h1, h2⟩ := c30_encrypt h hk .release (by norm_num) (by norm_num) (pt := ⟨P, 0, .poly, [3, 1, 16, 0, 2, 0, 0, 9]⟩)
    rfl rfl (by norm_num) (by dec) (tape0 mods_gt) wordTape
  exact ⟨P, sk, ct, f0, f1, h, hk, hb, h1, h2⟩

theorem levelQ_mods0 : levelQ mods 0 = 1048609 * 1048721 * 1048897 := by decide +kernel

end Ex

/-- The hypotheses of `c30_decrypt` hold for an actual encryption. -/
example : ∃ P sk ct pt, IsParams 8 17 Ex.mods 10 P ∧ IsKey P sk ∧ sk.decrypt .debug ct = .ok pt ∧ pt.values = [3, 1, 16, 0, 2, 0, 0, 9] := by
  obtain ⟨P, sk, ct, f0, f1, h, hk, -, hct, he⟩ := Ex.setup
  obtain ⟨pt, h1, -, -, h2⟩ := c30_decrypt h hk .debug (by simp) hct (by dec) he (by rw [Ex.levelQ_mods0]; norm_num)
  refine ⟨P, sk, ct, pt, h, hk, h1, ?_⟩
  rw [h2]
  exact (residues_msgRing (K := 3) 17 _).trans (by dec)

/-- Encryption followed by decryption on the example parameters, with all hypotheses discharged. -/
example : ∃ P sk ct pt, IsParams 8 17 Ex.mods 10 P ∧ IsKey P sk ∧
    sk.encrypt .debug ⟨P, 0, .poly, [1, 2, 3]⟩ (fun _ _ => 5) (fun i => i % 1000) = .ok ct ∧ sk.decrypt .release ct = .ok pt ∧
    pt.values = [1, 2, 3, 0, 0, 0, 0, 0] := by
  obtain ⟨P, h⟩ := Ex.exists_params
  obtain ⟨sk, -, hk, hb⟩ := c30_generate h .release (by norm_num) (by norm_num) Ex.wordTape
  obtain ⟨ct, pt, h1, h2, h3⟩ := c30_encrypt_decrypt h hk .debug .release (by norm_num) (by norm_num) (pt := ⟨P, 0, .poly, [1, 2, 3]⟩)
    rfl rfl (by norm_num) (by dec) (aTape := fun _ _ => 5)
    (fun k j hk => by
      have : ∀ k, k < (levelModuli Ex.mods 0).length → 5 < (levelModuli Ex.mods 0).getD k 1 := by decide
      exact this k hk) Ex.wordTape (by dec)
    (by rw [Ex.levelQ_mods0]; norm_num)
  exact ⟨P, sk, ct, pt, h, hk, h1, h2, h3.trans (by dec)⟩

/-! ### C31: encryption at a lower level

`encrypt_poly` stores `level: 0` (src/bfv.rs:326) whatever the level of the plaintext, so C31 is false. -/

/-- C31 is violated: at every level above 0 encryption succeeds and decrypting its result panics, for every key and randomness. -/
theorem c31_lower_level_fails (h : IsParams N t l variance P) {sk : SecretKey} (hk : IsKey P sk) (pr pr' : Profile) (hv1 : 1 ≤ variance)
    (hv2 : variance ≤ 16) {pt : Plaintext} (hp : pt.params = P) (h0 : 0 < pt.level) (hlev : pt.level < l.length)
    (hlen : pt.values.length ≤ N) (hv : ∀ x ∈ pt.values, x < 2 ^ 64) {aTape : Nat → Nat → Nat} (ha : TapeAt l pt.level aTape)
    {rng : Nat → Nat} (hr : ∀ i, rng i < 2 ^ 64) :
    ∃ ct, sk.encrypt pr pt aTape rng = .ok ct ∧ sk.decrypt pr' ct = .error .assert := by
  obtain ⟨ct, f0, f1, h1, h2, h3, h4, -⟩ := c30_encrypt_components h hk pr hv1 hv2 hp hlev hlen hv ha hr
  refine ⟨ct, h1, ?_⟩
  obtain ⟨K, ext, rfl, hw, rfl, rfl, rfl⟩ := BfvP.params h
  obtain ⟨L, hL⟩ := hw.levels _ hlev
  obtain ⟨L0, hL0⟩ := hw.levels 0 (by omega)
  obtain ⟨-, -, h5⟩ := (BfvP.isCt_iff hL _ _).mp h4
  have hsk := BfvP.key hw hk
  have hp' := hk.1
  subst hp'
  exact SecretKey.decrypt_wrong_level hsk pr' hL hL0 (by simp) h5 h3 (by omega)

/-- The part of C31 that holds: the components are a correct encryption at the plaintext's level, so after putting the level
right decryption returns the message. -/
theorem c31_lower_level_partial (h : IsParams N t l variance P) {sk : SecretKey} (hk : IsKey P sk) (pr pr' : Profile) (hv1 : 1 ≤ variance)
    (hv2 : variance ≤ 16) {pt : Plaintext} (hp : pt.params = P) (hlev : pt.level < l.length)
    (hlen : pt.values.length ≤ N) (hv : ∀ x ∈ pt.values, x < 2 ^ 64) {aTape : Nat → Nat → Nat} (ha : TapeAt l pt.level aTape)
    {rng : Nat → Nat} (hr : ∀ i, rng i < 2 ^ 64) (h2t : 2 * t ≤ l.getD 0 0) (hQ : 8 * t * (variance + 1) ≤ levelQ l pt.level) :
    ∃ ct pt', sk.encrypt pr pt aTape rng = .ok ct ∧ sk.decrypt pr' { ct with level := pt.level } = .ok pt' ∧
      pt'.values = (List.range N).map fun k => pt.values.getD k 0 % t := by
  obtain ⟨ct, f0, f1, h1, h2, h3, h4, h5⟩ := c30_encrypt_components h hk pr hv1 hv2 hp hlev hlen hv ha hr
  have hQ' : (8 * t * (variance + 1) : ℤ) ≤ levelQ l pt.level := by exact_mod_cast hQ
  obtain ⟨pt', h6, -, -, h7⟩ := c30_decrypt h hk pr' (by simp) h4 h2t h5 (by linarith)
  refine ⟨ct, pt', h1, h6, ?_⟩
  obtain ⟨K, ext, rfl, -⟩ := BfvP.params h
  rw [h7, residues_msgRing]

/-- Both C31 theorems apply at level 1 of the example parameters. -/
example : ∃ P sk ct pt, IsParams 8 17 Ex.mods 10 P ∧ IsKey P sk ∧
    sk.encrypt .debug ⟨P, 1, .poly, [1, 2, 3]⟩ (fun _ _ => 0) (fun i => i % 1000) = .ok ct ∧ sk.decrypt .release ct = .error .assert ∧
    sk.decrypt .release { ct with level := 1 } = .ok pt ∧ pt.values = [1, 2, 3, 0, 0, 0, 0, 0] := by
  obtain ⟨P, h⟩ := Ex.exists_params
  obtain ⟨sk, -, hk, hb⟩ := c30_generate h .release (by norm_num) (by norm_num) Ex.wordTape
  obtain ⟨ct, h1, h2⟩ := c31_lower_level_fails h hk .debug .release (by norm_num) (by norm_num) (pt := ⟨P, 1, .poly, [1, 2, 3]⟩)
    rfl (by dec) (by dec) (by norm_num) (by dec) (Ex.tape0 Ex.mods_gt) Ex.wordTape
  obtain ⟨ct', pt, h3, h4, h5⟩ := c31_lower_level_partial h hk .debug .release (by norm_num) (by norm_num) (pt := ⟨P, 1, .poly, [1, 2, 3]⟩)
    rfl (by dec) (by norm_num) (by dec) (Ex.tape0 Ex.mods_gt) Ex.wordTape (by dec)
    (by rw [show levelQ Ex.mods 1 = 1048609 * 1048721 by decide +kernel]; norm_num)
  rw [h1] at h3
  cases h3
  exact ⟨P, sk, ct, pt, h, hk, h1, h2, h4, h5.trans (by dec)⟩

/-! ### C32: addition and subtraction -/

/-- C32: the sum has the component-wise sums as components, hence the sum of the phases; noise adds up. -/
theorem c32_add (h : IsParams N t l variance P) (pr : Profile) {x y : BfvCipherText} {i : Nat} {f0 f1 g0 g1 : Rg N}
    (hx : IsCt P i [f0, f1] x) (hy : IsCt P i [g0, g1] y) (s : Rg N) :
    ∃ z, x.add pr y = .ok z ∧ IsCt P i [f0 + g0, f1 + g1] z ∧ phase s [f0 + g0, f1 + g1] = phase s [f0, f1] + phase s [g0, g1] ∧
      ∀ m1 m2 V1 V2, Encodes t (levelQ l i) m1 (phase s [f0, f1]) V1 → Encodes t (levelQ l i) m2 (phase s [g0, g1]) V2 →
        Encodes t (levelQ l i) (m1 + m2) (phase s [f0 + g0, f1 + g1]) (V1 + V2) := by
  obtain ⟨K, ext, rfl, hw, rfl, rfl, -⟩ := BfvP.params h
  obtain ⟨L, hL⟩ := BfvP.isCt_level hw (by simp) hx
  have hph : phase s [f0 + g0, f1 + g1] = phase s [f0, f1] + phase s [g0, g1] := by simp only [BfvP.phase_two]; ring
  obtain ⟨x1, x2, x3⟩ := (BfvP.isCt_iff hL _ _).mp hx
  obtain ⟨y1, y2, y3⟩ := (BfvP.isCt_iff hL _ _).mp hy
  refine ⟨_, BfvCipherText.add_enc2 hL.wf.ctx pr (x1.trans y1.symm) (x2.trans y2.symm) x3 y3,
    (BfvP.isCt_iff hL _ _).mpr ⟨x1, x2, rfl⟩, hph, fun m1 m2 V1 V2 h1 h2 => ?_⟩
  rw [hph]
  exact BfvP.Encodes.add (by positivity) h1 h2

/-- C32: the difference has the component-wise differences as components; noise adds up. -/
theorem c32_sub (h : IsParams N t l variance P) (pr : Profile) {x y : BfvCipherText} {i : Nat} {f0 f1 g0 g1 : Rg N}
    (hx : IsCt P i [f0, f1] x) (hy : IsCt P i [g0, g1] y) (s : Rg N) :
    ∃ z, x.sub pr y = .ok z ∧ IsCt P i [f0 - g0, f1 - g1] z ∧ phase s [f0 - g0, f1 - g1] = phase s [f0, f1] - phase s [g0, g1] ∧
      ∀ m1 m2 V1 V2, Encodes t (levelQ l i) m1 (phase s [f0, f1]) V1 → Encodes t (levelQ l i) m2 (phase s [g0, g1]) V2 →
        Encodes t (levelQ l i) (m1 - m2) (phase s [f0 - g0, f1 - g1]) (V1 + V2) := by
  obtain ⟨K, ext, rfl, hw, rfl, rfl, -⟩ := BfvP.params h
  obtain ⟨L, hL⟩ := BfvP.isCt_level hw (by simp) hx
  have hph : phase s [f0 - g0, f1 - g1] = phase s [f0, f1] - phase s [g0, g1] := by simp only [BfvP.phase_two]; ring
  obtain ⟨x1, x2, x3⟩ := (BfvP.isCt_iff hL _ _).mp hx
  obtain ⟨y1, y2, y3⟩ := (BfvP.isCt_iff hL _ _).mp hy
  refine ⟨_, BfvCipherText.sub_enc2 hL.wf.ctx pr (x1.trans y1.symm) (x2.trans y2.symm) x3 y3,
    (BfvP.isCt_iff hL _ _).mpr ⟨x1, x2, rfl⟩, hph, fun m1 m2 V1 V2 h1 h2 => ?_⟩
  rw [hph]
  exact BfvP.Encodes.sub (by positivity) h1 h2

/-- C32: sums and differences of ciphertexts within the noise budget decrypt to sums and differences. -/
theorem c32_decrypts (h : IsParams N t l variance P) {sk : SecretKey} (hk : IsKey P sk) (pr : Profile) {x y : BfvCipherText} {i : Nat}
    {f0 f1 g0 g1 m1 m2 : Rg N} (hx : IsCt P i [f0, f1] x) (hy : IsCt P i [g0, g1] y) (h2t : 2 * t ≤ l.getD 0 0) {V1 V2 : ℤ}
    (e1 : Encodes t (levelQ l i) m1 (phase (keyRing N sk) [f0, f1]) V1) (e2 : Encodes t (levelQ l i) m2 (phase (keyRing N sk) [g0, g1]) V2)
    (hV : 4 * (V1 + V2) ≤ levelQ l i) :
    ∃ z z' pt pt', x.add pr y = .ok z ∧ x.sub pr y = .ok z' ∧ sk.decrypt pr z = .ok pt ∧ sk.decrypt pr z' = .ok pt' ∧
      pt.values = residues t (m1 + m2) ∧ pt'.values = residues t (m1 - m2) := by
  obtain ⟨z, h1, h2, -, h3⟩ := c32_add h pr hx hy (keyRing N sk)
  obtain ⟨z', h1', h2', -, h3'⟩ := c32_sub h pr hx hy (keyRing N sk)
  obtain ⟨pt, h4, -, -, h5⟩ := c30_decrypt h hk pr (by simp) h2 h2t (h3 _ _ _ _ e1 e2) hV
  obtain ⟨pt', h4', -, -, h5'⟩ := c30_decrypt h hk pr (by simp) h2' h2t (h3' _ _ _ _ e1 e2) hV
  exact ⟨z, z', pt, pt', h1, h1', h4, h4', h5, h5'⟩

/-- C32: operands of different parameters or levels panic. -/
theorem c32_mismatch (pr : Profile) (x y : BfvCipherText) (h : x.params ≠ y.params ∨ x.level ≠ y.level) :
    x.add pr y = .error .assert ∧ x.sub pr y = .error .assert := by
  unfold BfvCipherText.add BfvCipherText.sub
  by_cases h1 : x.params = y.params
  · have h2 : x.level ≠ y.level := by tauto
    rw [rassert_ok h1, rassert_fail h2]
    exact ⟨rfl, rfl⟩
  · rw [rassert_fail h1]
    exact ⟨rfl, rfl⟩

/-- Adding an actual encryption to itself. -/
example : ∃ P sk ct z pt, IsParams 8 17 Ex.mods 10 P ∧ IsKey P sk ∧ BfvCipherText.add .debug ct ct = .ok z ∧ sk.decrypt .debug z = .ok pt ∧
    pt.values = residues 17 (msgRing 8 [3, 1, 16, 0, 2, 0, 0, 9] + msgRing 8 [3, 1, 16, 0, 2, 0, 0, 9]) := by
  obtain ⟨P, sk, ct, f0, f1, h, hk, -, hct, he⟩ := Ex.setup
  obtain ⟨z, -, pt, -, h1, -, h2, -, h3, -⟩ := c32_decrypts h hk .debug hct hct (by dec) he he (by rw [Ex.levelQ_mods0]; norm_num)
  exact ⟨P, sk, ct, z, pt, h, hk, h1, h2, h3⟩

/-! ### C33: adding a polynomial

`Add<&Poly>` (src/bfv.rs:441-455) adds the polynomial to both components, so C33 is false. -/

/-- What `ct + poly` computes: the phase changes by `g + g s`, not by `g`. -/
theorem c33_add_poly_partial (h : IsParams N t l variance P) (pr : Profile) {x : BfvCipherText} {p : Poly} {i : Nat} {f0 f1 g : Rg N}
    (hx : IsCt P i [f0, f1] x) (hp : PolyAt P i g p) (s : Rg N) :
    ∃ z, x.addPoly pr p = .ok z ∧ IsCt P i [f0 + g, f1 + g] z ∧
      phase s [f0 + g, f1 + g] = phase s [f0, f1] + g + g * s ∧
      (Cong (levelQ l i) (phase s [f0 + g, f1 + g]) (phase s [f0, f1] + g) ↔ Cong (levelQ l i) (g * s) 0) := by
  obtain ⟨K, ext, rfl, hw, rfl, rfl, -⟩ := BfvP.params h
  obtain ⟨L, hL⟩ := BfvP.isCt_level hw (by simp) hx
  have hph : phase s [f0 + g, f1 + g] = phase s [f0, f1] + g + g * s := by simp only [BfvP.phase_two]; ring
  obtain ⟨x1, x2, x3⟩ := (BfvP.isCt_iff hL _ _).mp hx
  rw [(BfvP.polyAt_iff hL _ _).mp hp]
  refine ⟨_, BfvCipherText.addPoly_enc2 hL.wf.ctx pr x3, (BfvP.isCt_iff hL _ _).mpr ⟨x1, x2, rfl⟩, hph, ?_⟩
  rw [hph]
  unfold Cong
  rw [show phase s [f0, f1] + g + g * s - (phase s [f0, f1] + g) = g * s - 0 by ring]

/-- C33 is violated: for every nonzero key (modulo `Q`) and every ciphertext, adding the constant 1 does not add 1 to the phase. -/
theorem c33_add_poly_wrong (h : IsParams N t l variance P) {sk : SecretKey} (pr : Profile) {x : BfvCipherText} {p : Poly}
    {i : Nat} {f0 f1 : Rg N} (hx : IsCt P i [f0, f1] x) (hp : PolyAt P i (1 : Rg N) p) (hs : ¬ Cong (levelQ l i) (keyRing N sk) 0) :
    ∃ z, ∃ g0 g1 : Rg N, x.addPoly pr p = .ok z ∧ IsCt P i [g0, g1] z ∧
      ¬ Cong (levelQ l i) (phase (keyRing N sk) [g0, g1]) (phase (keyRing N sk) [f0, f1] + 1) := by
  obtain ⟨z, h1, h2, -, h3⟩ := c33_add_poly_partial h pr hx hp (keyRing N sk)
  refine ⟨z, _, _, h1, h2, ?_⟩
  rw [h3, one_mul]
  exact hs

/-- Every ring element is held by some polynomial of every level. -/
theorem c33_exists_poly (h : IsParams N t l variance P) {i : Nat} (hi : i < l.length) (g : Rg N) : ∃ p, PolyAt P i g p := by
  obtain ⟨K, ext, rfl, hw, rfl, rfl, -⟩ := BfvP.params h
  obtain ⟨L, hL⟩ := hw.levels i hi
  exact ⟨_, (BfvP.polyAt_iff hL _ _).mpr rfl⟩

theorem Ex.not_cong_of_cf {Q : Nat} {N : Nat} (hN : 0 < N) {f g : Rg N} {k : Nat} (h : ¬ (Q : ℤ) ∣ cf f k - cf g k) : ¬ Cong Q f g := by
  rintro ⟨w, hw⟩
  apply h
  rw [← cf_sub hN, hw, cf_int_mul hN]
  exact Dvd.intro _ rfl

/-- A witness for the violation of C33: key 1, an actual encryption of `[3]`, polynomial 1. -/
example : ∃ P sk x p z, ∃ f0 f1 g0 g1 : Rg 8, IsParams 8 17 Ex.mods 10 P ∧ IsKey P sk ∧ IsCt P 0 [f0, f1] x ∧
    sk.encrypt .debug ⟨P, 0, .poly, [3]⟩ (fun _ _ => 0) (fun i => i % 1000) = .ok x ∧ PolyAt P 0 (1 : Rg 8) p ∧
    x.addPoly .debug p = .ok z ∧ IsCt P 0 [g0, g1] z ∧
    ¬ Cong (levelQ Ex.mods 0) (phase (keyRing 8 sk) [g0, g1]) (phase (keyRing 8 sk) [f0, f1] + 1) := by
  obtain ⟨P, h⟩ := Ex.exists_params
  have hd : P.degree = 8 := by
    obtain ⟨K, ext, e, hw, -⟩ := BfvP.params h
    rw [hw.deg, e]
  have hk : IsKey P ⟨P, [1]⟩ := ⟨rfl, by rw [hd]; dec, by dec⟩
  obtain ⟨ct, f0, f1, h1, h2, -⟩ := c30_encrypt h hk .debug (by norm_num) (by norm_num) (pt := ⟨P, 0, .poly, [3]⟩)
    rfl rfl (by norm_num) (by dec) (Ex.tape0 Ex.mods_gt) Ex.wordTape
  obtain ⟨p, hp⟩ := c33_exists_poly h (i := 0) (by dec) 1
  obtain ⟨z, g0, g1, h3, h4, h5⟩ := c33_add_poly_wrong h (sk := ⟨P, [1]⟩) .debug h2 hp (by
    apply Ex.not_cong_of_cf (k := 0) (by norm_num)
    unfold keyRing
    rw [cf_ofCoeffs (by norm_num) _ (by norm_num), cf_zero (by norm_num), Ex.levelQ_mods0]
    norm_num)
  exact ⟨P, _, ct, p, z, f0, f1, g0, g1, h, hk, h2, h1, hp, h3, h4, h5⟩

/-! ### C34: multiplication by plaintexts -/

/-- C34: multiplication by a polynomial multiplies the phase by it; a factor with coefficients at most `B` multiplies the noise by `N B`. -/
theorem c34_mul_poly (h : IsParams N t l variance P) (pr : Profile) {x : BfvCipherText} {p : Poly} {i : Nat} {f0 f1 g : Rg N}
    (hx : IsCt P i [f0, f1] x) (hp : PolyAt P i g p) (s : Rg N) :
    ∃ z, x.mulPoly pr p = .ok z ∧ IsCt P i [f0 * g, f1 * g] z ∧ phase s [f0 * g, f1 * g] = phase s [f0, f1] * g ∧
      ∀ m V B, Encodes t (levelQ l i) m (phase s [f0, f1]) V → Bdd B g →
        Encodes t (levelQ l i) (m * g) (phase s [f0 * g, f1 * g]) (N * V * B) := by
  obtain ⟨K, ext, rfl, hw, rfl, rfl, -⟩ := BfvP.params h
  obtain ⟨L, hL⟩ := BfvP.isCt_level hw (by simp) hx
  have hph : phase s [f0 * g, f1 * g] = phase s [f0, f1] * g := by simp only [BfvP.phase_two]; ring
  obtain ⟨x1, x2, x3⟩ := (BfvP.isCt_iff hL _ _).mp hx
  rw [(BfvP.polyAt_iff hL _ _).mp hp]
  refine ⟨_, BfvCipherText.mulPoly_enc2 hL.wf.ctx pr x3, (BfvP.isCt_iff hL _ _).mpr ⟨x1, x2, rfl⟩, hph, fun m V B h1 h2 => ?_⟩
  rw [hph]
  exact BfvP.Encodes.mul (by positivity) h1 h2

/-- C34: multiplication by a plaintext of the same level multiplies the phase by its values. -/
theorem c34_mul_plain (h : IsParams N t l variance P) (pr : Profile) {x : BfvCipherText} {p : Plaintext} {i : Nat} {f0 f1 : Rg N}
    (hx : IsCt P i [f0, f1] x) (hl : p.level = i) (hlen : p.values.length ≤ N) (hv : ∀ a ∈ p.values, a < 2 ^ 64) (s : Rg N) :
    ∃ z, x.mulPlain pr p = .ok z ∧ IsCt P i [f0 * msgRing N p.values, f1 * msgRing N p.values] z ∧
      phase s [f0 * msgRing N p.values, f1 * msgRing N p.values] = phase s [f0, f1] * msgRing N p.values ∧
      ∀ m V, ∀ B : Nat, Encodes t (levelQ l i) m (phase s [f0, f1]) V → (∀ a ∈ p.values, a ≤ B) →
        Encodes t (levelQ l i) (m * msgRing N p.values) (phase s [f0 * msgRing N p.values, f1 * msgRing N p.values]) (N * V * B) := by
  obtain ⟨K, ext, rfl, hw, rfl, rfl, -⟩ := BfvP.params h
  obtain ⟨L, hL⟩ := BfvP.isCt_level hw (by simp) hx
  set g := msgRing (2 ^ K) p.values with hg
  have hph : phase s [f0 * g, f1 * g] = phase s [f0, f1] * g := by simp only [BfvP.phase_two]; ring
  obtain ⟨x1, x2, x3⟩ := (BfvP.isCt_iff hL _ _).mp hx
  refine ⟨_, BfvCipherText.mulPlain_enc2 hL.wf.ctx pr (x2.trans hl.symm) (by rw [x1, x2]; exact hL.q) hlen hv x3,
    (BfvP.isCt_iff hL _ _).mpr ⟨x1, x2, ?_⟩, hph, fun m V B h1 h2 => ?_⟩
  · rw [hg, BfvP.msgRing_eq]; rfl
  · rw [hph]
    exact BfvP.Encodes.mul (by positivity) h1 (BfvP.msgRing_bdd h2)

/-- C34: a plaintext of another level panics. -/
theorem c34_mul_plain_level (pr : Profile) (x : BfvCipherText) (p : Plaintext) (h : x.level ≠ p.level) :
    x.mulPlain pr p = .error .assert := by
  unfold BfvCipherText.mulPlain
  rw [rassert_fail h]
  rfl

/-- C34: multiplication by a big integer multiplies the phase and the noise by it. -/
theorem c34_mul_big (h : IsParams N t l variance P) (pr : Profile) {x : BfvCipherText} (n : Nat) {i : Nat} {f0 f1 : Rg N}
    (hx : IsCt P i [f0, f1] x) (s : Rg N) :
    ∃ z, x.mulBig pr n = .ok z ∧ IsCt P i [f0 * ((n : ℤ) : Rg N), f1 * ((n : ℤ) : Rg N)] z ∧
      phase s [f0 * ((n : ℤ) : Rg N), f1 * ((n : ℤ) : Rg N)] = phase s [f0, f1] * ((n : ℤ) : Rg N) ∧
      ∀ m V, Encodes t (levelQ l i) m (phase s [f0, f1]) V →
        Encodes t (levelQ l i) (m * ((n : ℤ) : Rg N)) (phase s [f0 * ((n : ℤ) : Rg N), f1 * ((n : ℤ) : Rg N)]) (n * V) := by
  obtain ⟨K, ext, rfl, hw, rfl, rfl, -⟩ := BfvP.params h
  obtain ⟨L, hL⟩ := BfvP.isCt_level hw (by simp) hx
  set g := ((n : ℤ) : Rg (2 ^ K)) with hg
  have hph : phase s [f0 * g, f1 * g] = phase s [f0, f1] * g := by simp only [BfvP.phase_two]; ring
  obtain ⟨x1, x2, x3⟩ := (BfvP.isCt_iff hL _ _).mp hx
  refine ⟨_, BfvCipherText.mulBig_enc2 hL.wf.ctx pr n x3, (BfvP.isCt_iff hL _ _).mpr ⟨x1, x2, rfl⟩, hph, ?_⟩
  rintro m V ⟨v, w, hv, he⟩
  have hb := hv.int_mul (by positivity) (n : ℤ)
  rw [abs_of_nonneg (by positivity)] at hb
  refine ⟨g * v, w * g, hb, ?_⟩
  rw [hph, ← mul_assoc, he]
  ring

/-- Multiplying an actual encryption by `2 + X`. -/
example : ∃ P sk ct z pt, IsParams 8 17 Ex.mods 10 P ∧ IsKey P sk ∧ BfvCipherText.mulPlain .debug ct ⟨P, 0, .poly, [2, 1]⟩ = .ok z ∧
    sk.decrypt .debug z = .ok pt ∧ pt.values = residues 17 (msgRing 8 [3, 1, 16, 0, 2, 0, 0, 9] * msgRing 8 [2, 1]) := by
  obtain ⟨P, sk, ct, f0, f1, h, hk, -, hct, he⟩ := Ex.setup
  obtain ⟨z, h1, h2, -, h3⟩ := c34_mul_plain h .debug (p := ⟨P, 0, .poly, [2, 1]⟩) hct rfl (by dec) (by dec) (keyRing 8 sk)
  obtain ⟨pt, h4, -, -, h5⟩ := c30_decrypt h hk .debug (by simp) h2 (by dec) (h3 _ _ 2 he (by dec))
    (by rw [Ex.levelQ_mods0]; norm_num)
  exact ⟨P, sk, ct, z, pt, h, hk, h1, h4, h5⟩

/-! ### C48: noise measurement -/

/-- C48: `measure_noise` succeeds; it is the bit length of the largest coefficient, in absolute value, of the centered residue `D`
of phase minus ideal scaled message. -/
theorem c48_measure_noise (h : IsParams N t l variance P) {sk : SecretKey} (hk : IsKey P sk) (pr : Profile) {ct : BfvCipherText} {i : Nat}
    {f0 f1 : Rg N} (hct : IsCt P i [f0, f1] ct) :
    ∃ (pt : Plaintext) (ideal : Poly) (M D : Rg N) (noise : Nat), sk.decrypt pr ct = .ok pt ∧ pt.toPoly pr = .ok ideal ∧ PolyAt P i M ideal ∧
      sk.measureNoise pr ct = .ok noise ∧ Cong (levelQ l i) D (phase (keyRing N sk) [f0, f1] - M) ∧
      (∀ k, k < N → 2 * |cf D k| ≤ levelQ l i ∧ |cf D k| < 2 ^ noise) ∧
      (noise = 0 ∨ ∃ k, k < N ∧ 2 ^ (noise - 1) ≤ |cf D k|) := by
  obtain ⟨K, ext, rfl, hw, rfl, rfl, -⟩ := BfvP.params h
  obtain ⟨L, hL⟩ := BfvP.isCt_level hw (by simp) hct
  obtain ⟨x1, x2, x3⟩ := (BfvP.isCt_iff hL _ _).mp hct
  have hsk := BfvP.key hw hk
  subst x2
  have hp := hk.1
  subst hp
  obtain ⟨pt, M, D, noise, h1, h2, h3, h4, h5, h6⟩ := SecretKey.measureNoise_enc hsk pr hL x3
  rw [← BfvP.levelQ_eq hL, BfvP.phase_two]
  exact ⟨pt, _, M, D, noise, h1, h2, (BfvP.polyAt_iff hL _ _).mpr rfl, h3, h4, h5, h6⟩

example : ∃ P sk ct noise, IsParams 8 17 Ex.mods 10 P ∧ IsKey P sk ∧ SecretKey.measureNoise .debug sk ct = .ok noise := by
  obtain ⟨P, sk, ct, f0, f1, h, hk, -, hct, he⟩ := Ex.setup
  obtain ⟨-, -, -, -, noise, -, -, -, h1, -⟩ := c48_measure_noise h hk .debug hct
  exact ⟨P, sk, ct, noise, h, hk, h1⟩

/-- C30 for the components of an actual encryption, for a plaintext at level 1, and for a polynomial. -/
example : ∃ P sk ct ct1 ct2 p, ∃ f0 f1 g0 g1 : Rg 8, IsParams 8 17 Ex.mods 10 P ∧ IsKey P sk ∧ (∃ fs : List (Rg 8), IsCt P 0 fs ct ∧ fs.length = 2) ∧
    (∃ pt, SecretKey.decrypt .release sk ct = .ok pt ∧ IsVec 17 8 pt.values) ∧
    sk.encrypt .debug ⟨P, 1, .poly, [1, 2, 3]⟩ (fun _ _ => 0) (fun i => i % 1000) = .ok ct1 ∧ IsCt P 1 [f0, f1] { ct1 with level := 1 } ∧
    Encodes 17 (levelQ Ex.mods 1) (msgRing 8 [1, 2, 3]) (phase (keyRing 8 sk) [f0, f1]) 374 ∧
    PolyAt P 0 (msgRing 8 [5, 6]) p ∧ sk.encryptPoly .debug p (fun _ _ => 0) (fun i => i % 1000) = .ok ct2 ∧ IsCt P 0 [g0, g1] ct2 ∧
    Bdd 20 (phase (keyRing 8 sk) [g0, g1] - msgRing 8 [5, 6]) := by
  obtain ⟨P, sk, ct, f0, f1, h, hk, -, hct, he⟩ := Ex.setup
  obtain ⟨ct1, e0, e1, h1, -, -, h2, h3⟩ := c30_encrypt_components h hk .debug (by norm_num) (by norm_num) (pt := ⟨P, 1, .poly, [1, 2, 3]⟩)
    rfl (by dec) (by norm_num) (by dec) (Ex.tape0 Ex.mods_gt) Ex.wordTape
  obtain ⟨p, hp⟩ := c33_exists_poly h (i := 0) (by dec) (msgRing 8 [5, 6])
  obtain ⟨ct2, g0, g1, e, h4, h5, h6, h7⟩ := c30_encrypt_poly h hk .debug (by norm_num) (by norm_num) hp (Ex.tape0 Ex.mods_gt) Ex.wordTape
  have hc : ∃ c, P.qCtxs[0]? = some c ∧ ∀ p ∈ ct.cts, p.context = c ∧ p.representation = .ntt ∧ ValidRows c p.coefficients := by
    obtain ⟨-, -, h3⟩ := hct
    obtain ⟨a, b, ha, hb, hab⟩ : ∃ a b, PolyAt P 0 f0 a ∧ PolyAt P 0 f1 b ∧ ct.cts = [a, b] := by
      revert h3
      generalize ct.cts = cts
      intro h3
      cases h3 with
      | cons x xs =>
        cases xs with
        | cons y ys =>
          cases ys
          exact ⟨_, _, x, y, rfl⟩
    obtain ⟨c, c1, c2, c3, c4, -⟩ := ha
    obtain ⟨d, d1, d2, d3, d4, -⟩ := hb
    rw [c1] at d1
    cases d1
    refine ⟨c, c1, fun p hp => ?_⟩
    rw [hab] at hp
    simp only [List.mem_cons, List.not_mem_nil, or_false] at hp
    rcases hp with rfl | rfl
    · exact ⟨c2, c3, c4⟩
    · exact ⟨d2, d3, d4⟩
  obtain ⟨c, hc1, hc2⟩ := hc
  obtain ⟨fs, h8, h9⟩ := c30_components h hct.1 hct.2.1 hc1 hc2
  obtain ⟨pt, h10, h11⟩ := c30_decrypt_total h hk .release (by simp) hct
  refine ⟨P, sk, ct, ct1, ct2, p, e0, e1, g0, g1, h, hk, ⟨fs, h8, by rw [h9, ← hct.2.2.length_eq]; rfl⟩, ⟨pt, h10, h11⟩, h1, h2,
    by simpa using h3, hp, h4, h5, ?_⟩
  rw [h7, add_sub_cancel_left]
  exact h6

/-- C32 and C34: difference, product by a polynomial and by an integer, and the level checks, for an actual encryption. -/
example : ∃ P sk ct z1 z2 z3 p pt1 pt2 pt3, IsParams 8 17 Ex.mods 10 P ∧ IsKey P sk ∧ PolyAt P 0 (msgRing 8 [0, 2]) p ∧
    BfvCipherText.sub .debug ct ct = .ok z1 ∧ ct.mulPoly .debug p = .ok z2 ∧ ct.mulBig .debug 6 = .ok z3 ∧
    sk.decrypt .debug z1 = .ok pt1 ∧ pt1.values = residues 17 (msgRing 8 [3, 1, 16, 0, 2, 0, 0, 9] - msgRing 8 [3, 1, 16, 0, 2, 0, 0, 9]) ∧
    sk.decrypt .debug z2 = .ok pt2 ∧ pt2.values = residues 17 (msgRing 8 [3, 1, 16, 0, 2, 0, 0, 9] * msgRing 8 [0, 2]) ∧
    sk.decrypt .debug z3 = .ok pt3 ∧ pt3.values = residues 17 (msgRing 8 [3, 1, 16, 0, 2, 0, 0, 9] * (((6 : Nat) : ℤ) : Rg 8)) ∧
    ct.add .debug { ct with level := 1 } = .error .assert ∧ ct.mulPlain .debug ⟨P, 1, .poly, [1]⟩ = .error .assert := by
  obtain ⟨P, sk, ct, f0, f1, h, hk, -, hct, he⟩ := Ex.setup
  obtain ⟨p, hp⟩ := c33_exists_poly h (i := 0) (by dec) (msgRing 8 [0, 2])
  obtain ⟨z1, a1, a2, -, a3⟩ := c32_sub h .debug hct hct (keyRing 8 sk)
  obtain ⟨z2, b1, b2, -, b3⟩ := c34_mul_poly h .debug hct hp (keyRing 8 sk)
  obtain ⟨z3, c1, c2, -, c3⟩ := c34_mul_big h .debug 6 hct (keyRing 8 sk)
  obtain ⟨pt1, d1, -, -, d2⟩ := c30_decrypt h hk .debug (by simp) a2 (by dec) (a3 _ _ _ _ he he) (by rw [Ex.levelQ_mods0]; norm_num)
  obtain ⟨pt2, e1, -, -, e2⟩ := c30_decrypt h hk .debug (by simp) b2 (by dec) (b3 _ _ _ he (BfvP.msgRing_bdd (K := 3) (B := 3) (by dec)))
    (by rw [Ex.levelQ_mods0]; norm_num)
  obtain ⟨pt3, g1, -, -, g2⟩ := c30_decrypt h hk .debug (by simp) c2 (by dec) (c3 _ _ he) (by rw [Ex.levelQ_mods0]; norm_num)
  exact ⟨P, sk, ct, z1, z2, z3, p, pt1, pt2, pt3, h, hk, hp, a1, b1, c1, d1, d2, e1, e2, g1, g2,
    (c32_mismatch .debug ct { ct with level := 1 } (.inr (by rw [hct.2.1]; simp))).1,
    c34_mul_plain_level .debug ct ⟨P, 1, .poly, [1]⟩ (by rw [hct.2.1]; simp)⟩

end OnionPIR
