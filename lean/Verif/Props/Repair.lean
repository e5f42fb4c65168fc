import Verif.Model.Repair
import Verif.Props.BfvMul
import Verif.Props.Pir
import Verif.Props.Modulus
/-
C80: the claims that fail on single lines of the code hold in full once those lines are corrected. The definitions of `Repair` are not code of
the repository (see Verif/Model/Repair.lean).
-/
namespace OnionPIR
open Rg Poly Spec

variable {N t : Nat} {l : List Nat} {variance : Nat} {P : BfvParameters}

/-- C80, for C07: the corrected `bits` is the number of bits of the modulus. -/
theorem c80_bits {p : Nat} {m : Modulus} (h : Modulus.new p = .ok m) (pr : Profile) : Repair.bits pr m = .ok (Nat.size p) := by
  obtain ⟨h2, hlt, rfl, hw⟩ := Modulus.new_inv h
  have hs : Nat.size m.p = m.p.log2 + 1 := by
    apply le_antisymm
    · exact Nat.size_le.mpr Nat.lt_log2_self
    · exact Nat.lt_size.mpr (Nat.log2_self_le (by omega))
  have hlog : m.p.log2 < 62 := (Nat.log2_lt (by omega)).mpr hlt
  unfold Repair.bits leadingZeros
  rw [if_neg (by omega), subW_ok (by omega), hs]
  congr 1; omega

/-- The modulus of the smallest plaintext space of the tests has eleven bits. -/
example : ∃ m, Modulus.new 1153 = .ok m ∧ Repair.bits .debug m = .ok 11 ∧ m.bits .debug ≠ .ok 11 := by
  obtain ⟨m, hm⟩ : ∃ m, Modulus.new 1153 = .ok m := ⟨_, rfl⟩
  have hs : Nat.size 1153 = 11 := by decide +kernel
  refine ⟨m, hm, ?_, ?_⟩
  · rw [c80_bits hm, hs]
  · rw [← hs]; exact c07_bits_wrong hm .debug

/-- C80, for C31: the corrected encryption makes a ciphertext of the level of the plaintext. -/
theorem c80_encrypt (h : IsParams N t l variance P) {sk : SecretKey} (hk : IsKey P sk) (pr : Profile) (hv1 : 1 ≤ variance)
    (hv2 : variance ≤ 16) {pt : Plaintext} (hp : pt.params = P) (hlev : pt.level < l.length) (hlen : pt.values.length ≤ N)
    (hv : ∀ x ∈ pt.values, x < 2 ^ 64) {aTape : Nat → Nat → Nat} (ha : TapeAt l pt.level aTape) {rng : Nat → Nat} (hr : ∀ i, rng i < 2 ^ 64) :
    ∃ ct, ∃ f0 f1 : Rg N, Repair.encrypt pr sk pt aTape rng = .ok ct ∧ IsCt P pt.level [f0, f1] ct ∧
      Encodes t (levelQ l pt.level) (msgRing N pt.values) (phase (keyRing N sk) [f0, f1]) (2 * t * variance + 2 * t) := by
  obtain ⟨ct, f0, f1, h1, h2, h3, h4, h5⟩ := c30_encrypt_components h hk pr hv1 hv2 hp hlev hlen hv ha hr
  obtain ⟨K, ext, rfl, hw, rfl, rfl, rfl⟩ := BfvP.params h
  obtain ⟨L, hL⟩ := hw.levels _ hlev
  have hsk := BfvP.key hw hk
  have hp' := hk.1
  subst hp'
  obtain ⟨M, hM, -⟩ := Plaintext.toPoly_enc (p := pt) (by rw [hp]; exact hw) (by rw [hp]; exact hL) pr hlen hv
  refine ⟨{ ct with level := pt.level }, f0, f1, ?_, h4, h5⟩
  unfold SecretKey.encrypt SecretKey.encryptPoly at h1
  unfold Repair.encrypt Repair.encryptPoly
  rw [hM] at h1 ⊢
  obtain ⟨a, ha'⟩ := random_enc hL.wf.ctx (BfvP.tape hL ha)
  obtain ⟨e, he, -⟩ := randomSmall_enc hL.wf.ctx pr hv1 hv2 hr
  simp only [show (enc L.qCtx .ntt M).context = L.qCtx from rfl, SecretKey.polyNtt_enc hsk pr hL.wf.ctx, res_ok_bind, ha', mul_enc hL.wf.ctx, he,
    sub_enc hL.wf.ctx, add_enc hL.wf.ctx, BfvParameters.ctxLevel_at hw hL, show ∀ x : Nat, unwrapR (some x) = .ok x from fun _ => rfl] at h1 ⊢
  cases h1
  rfl

/-- C80, for C31: the corrected encryption is inverted by decryption at every level. -/
theorem c80_round_trip (h : IsParams N t l variance P) {sk : SecretKey} (hk : IsKey P sk) (pr pr' : Profile) (hv1 : 1 ≤ variance)
    (hv2 : variance ≤ 16) {pt : Plaintext} (hp : pt.params = P) (hlev : pt.level < l.length)
    (hlen : pt.values.length ≤ N) (hv : ∀ x ∈ pt.values, x < 2 ^ 64) {aTape : Nat → Nat → Nat} (ha : TapeAt l pt.level aTape)
    {rng : Nat → Nat} (hr : ∀ i, rng i < 2 ^ 64) (h2t : 2 * t ≤ l.getD 0 0) (hQ : 8 * t * (variance + 1) ≤ levelQ l pt.level) :
    ∃ ct pt', Repair.encrypt pr sk pt aTape rng = .ok ct ∧ sk.decrypt pr' ct = .ok pt' ∧ pt'.params = P ∧ pt'.level = pt.level ∧
      pt'.values = (List.range N).map fun k => pt.values.getD k 0 % t := by
  obtain ⟨ct, f0, f1, h1, h4, h5⟩ := c80_encrypt h hk pr hv1 hv2 hp hlev hlen hv ha hr
  have hQ' : (8 * t * (variance + 1) : ℤ) ≤ levelQ l pt.level := by exact_mod_cast hQ
  obtain ⟨pt', h6, h8, h9, h7⟩ := c30_decrypt h hk pr' (by simp) h4 h2t h5 (by linarith)
  refine ⟨ct, pt', h1, h6, h8, h9, ?_⟩
  obtain ⟨K, ext, rfl, -⟩ := BfvP.params h
  rw [h7, residues_msgRing]

/-- Encryption and decryption at level 1, which fails for the code (`c31_lower_level_fails`). -/
example : ∃ P sk ct pt, IsParams 8 17 Ex.mods 10 P ∧ IsKey P sk ∧
    Repair.encrypt .debug sk ⟨P, 1, .poly, [1, 2, 3]⟩ (fun _ _ => 0) (fun i => i % 1000) = .ok ct ∧ sk.decrypt .release ct = .ok pt ∧
    pt.values = [1, 2, 3, 0, 0, 0, 0, 0] := by
  obtain ⟨P, h⟩ := Ex.exists_params
  obtain ⟨sk, -, hk, hb⟩ := c30_generate h .release (by norm_num) (by norm_num) Ex.wordTape
  obtain ⟨ct, pt, h1, h2, -, -, h3⟩ := c80_round_trip h hk .debug .release (by norm_num) (by norm_num) (pt := ⟨P, 1, .poly, [1, 2, 3]⟩)
    rfl (show 1 < Ex.mods.length by decide) (by norm_num) (by simp) (Ex.tape0 Ex.mods_gt) Ex.wordTape (by decide)
    (show 8 * 17 * (10 + 1) ≤ levelQ Ex.mods 1 by decide +kernel)
  exact ⟨P, sk, ct, pt, h, hk, h1, h2, h3⟩

/-- C80, for C33: the corrected addition of a polynomial adds it to the phase. -/
theorem c80_add_poly (h : IsParams N t l variance P) (pr : Profile) {x : BfvCipherText} {p : Poly} {i : Nat} {f0 f1 g : Rg N}
    (hx : IsCt P i [f0, f1] x) (hp : PolyAt P i g p) (s : Rg N) :
    ∃ z, Repair.addPoly pr x p = .ok z ∧ IsCt P i [f0 + g, f1] z ∧ phase s [f0 + g, f1] = phase s [f0, f1] + g := by
  obtain ⟨K, ext, rfl, hw, rfl, rfl, -⟩ := BfvP.params h
  obtain ⟨L, hL⟩ := BfvP.isCt_level hw (by simp) hx
  obtain ⟨x1, x2, x3⟩ := (BfvP.isCt_iff hL _ _).mp hx
  rw [(BfvP.polyAt_iff hL _ _).mp hp]
  refine ⟨⟨x.params, [enc L.qCtx .ntt (f0 + g), enc L.qCtx .ntt f1], x.level⟩, ?_, (BfvP.isCt_iff hL _ _).mpr ⟨x1, x2, rfl⟩,
    by simp only [BfvP.phase_two]; ring⟩
  unfold Repair.addPoly
  rw [x3]
  simp only [List.map_cons, List.map_nil, show ∀ a b : Poly, idx [a, b] 0 = .ok a from fun _ _ => rfl,
    show ∀ a b : Poly, idx [a, b] 1 = .ok b from fun _ _ => rfl, res_ok_bind, add_enc hL.wf.ctx]
  rw [rassert_ok (show (enc L.qCtx .ntt f0).context = (enc L.qCtx .ntt g).context from rfl), res_ok_bind]

/-- C80, for C35: the corrected product of two ciphertexts has three components and encodes the product of the messages, with the noise of
`multiply_with_strategy` without its relinearization. -/
theorem c80_mul (h : IsParams N t l variance P) (hNn : N * 2 ^ l.length ≤ 2 ^ 57) (pr : Profile) {i : Nat} {x y : BfvCipherText}
    {f0 f1 g0 g1 : Rg N} (hx : IsCt P i [f0, f1] x) (hy : IsCt P i [g0, g1] y) {s m1 m2 : Rg N} {S V1 V2 : ℤ} (hS : Bdd S s)
    (e1 : Encodes t (levelQ l i) m1 (phase s [f0, f1]) V1) (e2 : Encodes t (levelQ l i) m2 (phase s [g0, g1]) V2)
    (hm1 : Bdd t m1) (hm2 : Bdd t m2) (hV1 : 4 * V1 ≤ levelQ l i) (hV2 : 4 * V2 ≤ levelQ l i) :
    ∃ z, ∃ r0 r1 r2 : Rg N, Repair.mul pr x y = .ok z ∧ IsCt P i [r0, r1, r2] z ∧
      Encodes t (levelQ l i) (m1 * m2) (phase s [r0, r1, r2]) (productNoise N t l i S V1 V2 0) := by
  obtain ⟨K, ext, rfl, hw, rfl, rfl, rfl⟩ := BfvP.params h
  obtain ⟨L, hL⟩ := BfvP.isCt_level hw (by simp) hx
  obtain ⟨x1, x2, x3⟩ := (BfvP.isCt_iff hL _ _).mp hx
  obtain ⟨y1, y2, y3⟩ := (BfvP.isCt_iff hL _ _).mp hy
  have hKn : K + P.ciphertextModuli.length ≤ 57 := by
    rw [← pow_add] at hNn
    exact (Nat.pow_le_pow_iff_right (by norm_num)).mp hNn
  have he := hL.wf.ectx
  rw [← BfvP.levelQ_eq hL] at e1 e2 hV1 hV2 ⊢
  obtain ⟨F0, F1, G0, G1, D0, D1, D2, u0, u1, v0, v1, d0, d1, d2, henc⟩ := BfvMul.tensor hw hL hKn pr hS e1 e2 hm1 hm2 hV1 hV2
  refine ⟨⟨P, [enc L.qCtx .ntt D0, enc L.qCtx .ntt D1, enc L.qCtx .ntt D2], i⟩, D0, D1, D2, ?_, (BfvP.isCt_iff hL _ _).mpr ⟨rfl, rfl, rfl⟩, ?_⟩
  · unfold Repair.mul
    rw [rassert_ok (y2.trans x2.symm), res_ok_bind, x1, x2, idx_of hL.mp, res_ok_bind, x3, y3]
    simp only [List.map_cons, List.map_nil, mapR, u0, u1, v0, v1, res_ok_bind, List.length_cons, List.length_nil,
      addW_ok (show 0 + 1 + 1 + (0 + 1 + 1) < 2 ^ 64 by norm_num), subW_ok (show 1 ≤ 0 + 1 + 1 + (0 + 1 + 1) by norm_num)]
    rw [hL.wf.dst, show (0 + 1 + 1 : Nat) = 2 from rfl, BfvMul.mulPairs_two, zero_enc he]
    simp only [foldR_cons, foldR_nil, Repair.mulStep, show ∀ a b : Poly, idx [a, b] 0 = .ok a from fun _ _ => rfl,
      show ∀ a b : Poly, idx [a, b] 1 = .ok b from fun _ _ => rfl, res_ok_bind, mul_enc he]
    rw [show 2 + 2 - 1 = 3 from rfl]
    simp only [List.replicate, setR, List.length_cons, List.length_nil, List.set, Nat.add_zero, Nat.reduceAdd, Nat.reduceLT,
      if_true, res_ok_bind, show ∀ a b c : Poly, idx [a, b, c] 0 = .ok a from fun _ _ _ => rfl,
      show ∀ a b c : Poly, idx [a, b, c] 1 = .ok b from fun _ _ _ => rfl, show ∀ a b c : Poly, idx [a, b, c] 2 = .ok c from fun _ _ _ => rfl,
      add_enc he, zero_add, show F0 * G1 + F1 * G0 = F0 * G1 + G0 * F1 by ring, mapR, d0, d1, d2]
  · have h3 : phase s [D0, D1, D2] = D0 + D1 * s + D2 * s ^ 2 := by
      simp only [phase]; ring
    rw [h3]
    unfold productNoise
    rw [mul_zero, mul_zero, add_zero]
    exact henc

/-- The corrected product of an actual encryption with itself, decrypted with the three-component formula. -/
example : ∃ P sk ct z pt, IsParams 8 17 Ex.mods 10 P ∧ IsKey P sk ∧ Repair.mul .debug ct ct = .ok z ∧ sk.decrypt .debug z = .ok pt ∧
    pt.values = residues 17 (msgRing 8 [3, 1, 16, 0, 2, 0, 0, 9] * msgRing 8 [3, 1, 16, 0, 2, 0, 0, 9]) := by
  obtain ⟨P, sk, ct, f0, f1, h, hk, hb, hct, he⟩ := Ex.setup
  have hm : Bdd ((17 : Nat) : ℤ) (msgRing 8 [3, 1, 16, 0, 2, 0, 0, 9]) := BfvP.msgRing_bdd (K := 3) (by decide)
  obtain ⟨z, r0, r1, r2, h1, h2, h3⟩ := c80_mul h (by norm_num [Ex.mods]) .debug hct hct hb he he hm hm
    (by rw [Ex.levelQ_mods0]; norm_num) (by rw [Ex.levelQ_mods0]; norm_num)
  obtain ⟨pt, h4, -, -, h5⟩ := c30_decrypt h hk .debug (by simp) h2 (by decide) h3 (by
    unfold productNoise
    rw [Ex.levelQ_mods0]; norm_num)
  exact ⟨P, sk, ct, z, pt, h, hk, h1, h4, h5⟩

/-- The corrected addition of a polynomial to an actual encryption. -/
example : ∃ P ct p z, ∃ f0 f1 : Rg 8, IsParams 8 17 Ex.mods 10 P ∧ PolyAt P 0 (xx : Rg 8) p ∧ Repair.addPoly .debug ct p = .ok z ∧
    IsCt P 0 [f0, f1] ct ∧ IsCt P 0 [f0 + xx, f1] z := by
  obtain ⟨P, sk, ct, f0, f1, h, hk, hb, hct, he⟩ := Ex.setup
  obtain ⟨p, hp⟩ := c33_exists_poly h (i := 0) (by decide) (xx : Rg 8)
  obtain ⟨z, h1, h2, -⟩ := c80_add_poly h .debug hct hp 0
  exact ⟨P, ct, p, z, f0, f1, h, hp, h1, hct, h2⟩

/-! ### The client and the number of dimensions -/

/-- C80, for C42: with the corrected size test, a query is accepted exactly if the coordinates are in range and the database has
`first_dim · dim^(d-1)` rows. -/
theorem c80_accepts (pr : Profile) (c : Client) {i0 : Nat} {rest : List Nat} (hp : c.firstDim * c.dim ^ rest.length < 2 ^ 64)
    (hl : rest.length < 2 ^ 32) (dbRows : Nat) :
    (∃ v, Repair.encode pr c (i0 :: rest) dbRows = .ok v) ↔
      i0 < c.firstDim ∧ (∀ i ∈ rest, i < c.dim) ∧ dbRows = c.firstDim * c.dim ^ rest.length := by
  unfold Repair.encode
  rw [idx_ok (by simp), res_ok_bind]
  simp only [List.getElem_cons_zero, List.length_cons, Nat.add_sub_cancel, List.drop_succ_cons, List.drop_zero, powW]
  rw [Nat.mod_eq_of_lt hl]
  by_cases h0 : i0 < c.firstDim
  · rw [rassert_ok h0, res_ok_bind, fit_ok (lt_of_le_of_lt (Nat.le_mul_of_pos_left _ (by omega)) hp), res_ok_bind, mulW_ok hp, res_ok_bind]
    by_cases h1 : dbRows = c.firstDim * c.dim ^ rest.length
    · rw [rassert_ok h1, res_ok_bind]
      by_cases hr : ∀ i ∈ rest, i < c.dim
      · rw [Client.selectors_ok hr]
        exact ⟨fun _ => ⟨h0, hr, h1⟩, fun _ => ⟨_, rfl⟩⟩
      · rw [Client.selectors_fail hr]
        constructor
        · rintro ⟨v, hv⟩; simp [bind, Except.bind] at hv
        · rintro ⟨-, h, -⟩; exact absurd h hr
    · rw [rassert_fail h1]
      constructor
      · rintro ⟨v, hv⟩; simp [bind, Except.bind] at hv
      · rintro ⟨-, -, h⟩; exact absurd h h1
  · rw [rassert_fail h0]
    constructor
    · rintro ⟨v, hv⟩; simp [bind, Except.bind] at hv
    · rintro ⟨h, -⟩; exact absurd h h0

/-- C80, for C42: an accepted query is encoded as before. -/
theorem c80_encode (pr : Profile) (c : Client) {i0 : Nat} {rest : List Nat} (hp : c.firstDim * c.dim ^ rest.length < 2 ^ 64)
    (hl : rest.length < 2 ^ 32) {dbRows : Nat} {v : List Nat} (hv : Repair.encode pr c (i0 :: rest) dbRows = .ok v) :
    c.encode pr (i0 :: rest) dbRows = .ok v := by
  obtain ⟨h0, hr, h1⟩ := (c80_accepts pr c hp hl dbRows).mp ⟨v, hv⟩
  have hp' := lt_of_le_of_lt (Nat.le_mul_of_pos_left (c.dim ^ rest.length) (show 0 < c.firstDim by omega)) hp
  have hd : 0 < c.dim ^ rest.length := by
    rcases Nat.eq_zero_or_pos rest.length with hz | hz
    · rw [hz]; norm_num
    · exact Nat.pow_pos (Nat.lt_of_le_of_lt (Nat.zero_le _) (hr rest[0] (List.getElem_mem hz)))
  rw [← hv]
  unfold Repair.encode Client.encode
  rw [idx_ok (by simp), res_ok_bind, res_ok_bind]
  simp only [List.getElem_cons_zero, List.length_cons, Nat.add_sub_cancel, List.drop_succ_cons, List.drop_zero, powW]
  rw [Nat.mod_eq_of_lt hl, rassert_ok h0, res_ok_bind, res_ok_bind, fit_ok hp', res_ok_bind, mulW_ok hp, res_ok_bind, rassert_ok h1,
    divR_ok (by omega), res_ok_bind, res_ok_bind, divR_ok hd.ne', res_ok_bind, h1, Nat.mul_div_cancel_left _ (by omega), Nat.div_self hd,
    rassert_ok rfl]

/-- 16 rows are accepted for sizes 4, 2 and 2, and 17 are not. -/
example : (∃ v, Repair.encode .release ⟨4, 2⟩ [3, 1, 1] 16 = .ok v) ∧ ¬ ∃ v, Repair.encode .release ⟨4, 2⟩ [3, 1, 1] 17 = .ok v := by
  rw [c80_accepts .release ⟨4, 2⟩ (by norm_num) (by norm_num), c80_accepts .release ⟨4, 2⟩ (by norm_num) (by norm_num)]
  exact ⟨⟨by norm_num, by simp, by norm_num⟩, fun h => absurd h.2.2 (by norm_num)⟩

theorem Repair.dimensionsLoop_ok (pr : Profile) {dim : Nat} (hd : 2 ≤ dim) : ∀ (k fuel count : Nat), k ≤ fuel → count + k < 2 ^ 64 →
    Repair.dimensionsLoop pr dim fuel (dim ^ k) count = .ok (count + k)
  | 0, fuel, count, _, _ => by cases fuel <;> unfold Repair.dimensionsLoop <;> simp
  | k + 1, 0, count, h, _ => by omega
  | k + 1, fuel + 1, count, h, hc => by
    have h1 : 1 < dim ^ (k + 1) := Nat.one_lt_pow (by omega) (by omega)
    unfold Repair.dimensionsLoop
    rw [if_pos h1, divR_ok (by omega), res_ok_bind, addW_ok (by omega), res_ok_bind, pow_succ, Nat.mul_div_cancel _ (by omega),
      Repair.dimensionsLoop_ok pr hd k fuel (count + 1) (by omega) (by omega)]
    congr 1; omega

/-- C80, for C53: the corrected count of dimensions is right for every `dim ≥ 2`. -/
theorem c80_dimensions (pr : Profile) (s : Server) (hf : 0 < s.firstDim) (hd : 2 ≤ s.dim) {k : Nat}
    (hdb : s.db.length = s.firstDim * s.dim ^ k) (hlen : s.db.length < 2 ^ 64) : Repair.dimensions pr s 64 = .ok (k + 1) := by
  have hk : k < 64 := by
    by_contra hc
    have h1 : 2 ^ 64 ≤ 2 ^ k := Nat.pow_le_pow_right (by norm_num) (by omega)
    have h2 : 2 ^ k ≤ s.dim ^ k := Nat.pow_le_pow_left hd k
    have h3 : s.dim ^ k ≤ s.firstDim * s.dim ^ k := Nat.le_mul_of_pos_left _ hf
    omega
  unfold Repair.dimensions
  rw [divR_ok hf.ne', res_ok_bind, hdb, Nat.mul_div_cancel_left _ hf, Repair.dimensionsLoop_ok pr hd k 64 1 (by omega) (by omega), Nat.add_comm]

/-- Eighteen rows in three dimensions of sizes 2, 3 and 3, which the code counts as four. -/
example (p : Plaintext) : Repair.dimensions .release (Server.mk 2 3 (List.replicate 18 p) []) 64 = .ok 3 ∧
    (Server.mk 2 3 (List.replicate 18 p) []).dimensions .release = .ok 4 :=
  ⟨c80_dimensions .release (Server.mk 2 3 (List.replicate 18 p) []) (by norm_num) (by norm_num) (k := 2) (List.length_replicate.trans rfl)
      (by rw [List.length_replicate]; norm_num),
    c53_dimensions_wrong .release (Server.mk 2 3 (List.replicate 18 p) []) (by norm_num) rfl (List.length_replicate.trans rfl)⟩

/-- What the corrected encoder accepts the code accepts too, with the same result. -/
example : ∃ v, Repair.encode .release ⟨4, 2⟩ [3, 1, 1] 16 = .ok v ∧ (Client.mk 4 2).encode .release [3, 1, 1] 16 = .ok v := by
  obtain ⟨v, hv⟩ := (c80_accepts .release ⟨4, 2⟩ (i0 := 3) (rest := [1, 1]) (by norm_num) (by norm_num) 16).mpr ⟨by norm_num, by simp, by norm_num⟩
  exact ⟨v, hv, c80_encode .release ⟨4, 2⟩ (by norm_num) (by norm_num) hv⟩

/-- A vector of three values at level 1. -/
example : ∃ P sk ct, ∃ f0 f1 : Rg 8, IsParams 8 17 Ex.mods 10 P ∧ IsKey P sk ∧
    Repair.encrypt .release sk ⟨P, 1, .poly, [3, 16, 100]⟩ (fun _ _ => 0) (fun i => i % 1000) = .ok ct ∧ IsCt P 1 [f0, f1] ct ∧
    Encodes 17 (levelQ Ex.mods 1) (msgRing 8 [3, 16, 100]) (phase (keyRing 8 sk) [f0, f1]) (2 * 17 * 10 + 2 * 17) := by
  obtain ⟨P, sk, h, hk, -⟩ := Ex.setup_key
  obtain ⟨ct, f0, f1, h1, h2, h3⟩ := c80_encrypt h hk .release (by norm_num) (by norm_num) (pt := ⟨P, 1, .poly, [3, 16, 100]⟩) rfl
    (show 1 < Ex.mods.length by decide) (by simp) (by simp) (aTape := fun _ _ => 0) (Ex.tape0 Ex.mods_gt) (rng := fun i => i % 1000) Ex.wordTape
  exact ⟨P, sk, ct, f0, f1, h, hk, h1, h2, h3⟩

end OnionPIR
