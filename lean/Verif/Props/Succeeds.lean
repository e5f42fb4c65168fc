import Verif.Props.Sizes

/-! C106: exactly when the generation of keys and the encryption return. `BfvParameters::new` accepts any variance, and the check that it is
between 1 and 16 is only made by `sample_vec_cbd` (utils.rs:37-81); the check that there is more than one modulus is only made by
`GaliosKey::new` (bfv.rs:707-723). -/

namespace OnionPIR

open Rg Poly Spec

variable {N t variance : Nat} {l : List Nat} {P : BfvParameters}

theorem sampleVecCbd_variance {pr : Profile} {rng : Nat → Nat} {n v : Nat} {r : List ℤ} (h : sampleVecCbd pr rng n v = .ok r) :
    1 ≤ v ∧ v ≤ 16 := by
  by_contra hc
  rw [c09_panics pr rng (by omega) n] at h
  cases h

theorem Poly.randomSmall_variance {pr : Profile} {c : RqContext} {rep : Representation} {v : Nat} {rng : Nat → Nat} {p : Poly}
    (h : Poly.randomSmall pr c rep v rng = .ok p) : 1 ≤ v ∧ v ≤ 16 := by
  unfold Poly.randomSmall at h
  obtain ⟨r, hr, -⟩ := bind_eq_ok.mp h
  exact sampleVecCbd_variance hr

theorem SecretKey.encryptPoly_variance {pr : Profile} {sk : SecretKey} {p : Poly} {a : Nat → Nat → Nat} {rng : Nat → Nat} {ct : BfvCipherText}
    (h : sk.encryptPoly pr p a rng = .ok ct) : 1 ≤ sk.params.variance ∧ sk.params.variance ≤ 16 := by
  unfold SecretKey.encryptPoly at h
  obtain ⟨s, -, h⟩ := bind_eq_ok.mp h
  obtain ⟨as, -, h⟩ := bind_eq_ok.mp h
  obtain ⟨b, hb, -⟩ := bind_eq_ok.mp h
  exact Poly.randomSmall_variance hb

theorem Ksk.new_variance (h : IsParams N t l variance P) {sk : SecretKey} (hk : sk.params = P) {pr : Profile} {src : Poly} {i j : Nat}
    {a : Nat → Nat → Nat → Nat} {rng : Nat → Nat → Nat} {k : Ksk} (hn : Ksk.new pr sk src i j a rng = .ok k) :
    i < l.length ∧ 1 ≤ variance ∧ variance ≤ 16 := by
  obtain ⟨K, ext, rfl, hw, rfl, rfl, rfl⟩ := BfvP.params h
  subst hk
  unfold Ksk.new at hn
  obtain ⟨kc, -, hn⟩ := bind_eq_ok.mp hn
  obtain ⟨cc, hc, hn⟩ := bind_eq_ok.mp hn
  obtain ⟨s, -, hn⟩ := bind_eq_ok.mp hn
  obtain ⟨c0, h0, -⟩ := bind_eq_ok.mp hn
  have hi : i < sk.params.ciphertextModuli.length := by
    rw [← hw.nLevels]
    by_contra hge
    unfold idx at hc
    rw [List.getElem?_eq_none (by omega)] at hc
    cases hc
  refine ⟨hi, ?_⟩
  obtain ⟨L, hL⟩ := hw.levels i hi
  rw [idx_of hL.q] at hc
  obtain rfl := Except.ok.inj hc
  have hlen := Ksk.moduli_len hL.wf.ctx
  have hg : L.qCtx.rns.garner.length = L.qCtx.moduli64.length := by rw [hL.wf.ctx.core.rns.g_len, hL.wf.ctx.core.m64]
  have hpos : 0 < L.qCtx.rns.moduli.length := by rw [hlen, BfvP.len_level hL]; simp [levelModuli]; omega
  obtain ⟨-, hm⟩ := mapR_inv h0
  obtain ⟨x, hx⟩ : ∃ x, ((List.range L.qCtx.rns.moduli.length).zip
      (((List.range L.qCtx.rns.moduli.length).map fun k => Poly.random kc (a k) .ntt).zip L.qCtx.rns.garner))[0]? = some x :=
    ⟨_, List.getElem?_eq_getElem (by simp; omega)⟩
  obtain ⟨b, -, hb⟩ := hm 0 x hx
  unfold Ksk.newC0 at hb
  obtain ⟨as, -, hb⟩ := bind_eq_ok.mp hb
  obtain ⟨e, he, -⟩ := bind_eq_ok.mp hb
  exact Poly.randomSmall_variance he

theorem GaliosKey.new_needs (h : IsParams N t l variance P) {sk : SecretKey} (hk : sk.params = P) {pr : Profile} {sub : Substitution} {i : Nat}
    {a : Nat → Nat → Nat → Nat} {rng : Nat → Nat → Nat} {g : GaliosKey} (hn : GaliosKey.new pr sk sub i a rng = .ok g) :
    l.length ≠ 1 ∧ i < l.length ∧ 1 ≤ variance ∧ variance ≤ 16 := by
  have hne : l.length ≠ 1 := by
    intro h1
    have hl : sk.params.ciphertextModuli.length = 1 := by
      obtain ⟨K, ext, rfl, hw, rfl, rfl, rfl⟩ := BfvP.params h
      rw [hk]; exact h1
    rw [c37_single_modulus pr sk sub i a rng hl] at hn
    cases hn
  unfold GaliosKey.new at hn
  obtain ⟨-, -, hn⟩ := bind_eq_ok.mp hn
  obtain ⟨c, -, hn⟩ := bind_eq_ok.mp hn
  obtain ⟨s, -, hn⟩ := bind_eq_ok.mp hn
  obtain ⟨si, -, hn⟩ := bind_eq_ok.mp hn
  obtain ⟨si', -, hn⟩ := bind_eq_ok.mp hn
  obtain ⟨gk, hg, -⟩ := bind_eq_ok.mp hn
  exact ⟨hne, Ksk.new_variance h hk hg⟩

/-- C106: `generate` returns just if the variance is between 1 and 16. -/
theorem c106_generate (h : IsParams N t l variance P) (pr : Profile) {rng : Nat → Nat} (hr : ∀ i, rng i < 2 ^ 64) :
    (∃ sk, SecretKey.generate pr P rng = .ok sk) ↔ 1 ≤ variance ∧ variance ≤ 16 := by
  constructor
  · rintro ⟨sk, hs⟩
    obtain ⟨K, ext, rfl, hw, rfl, rfl, rfl⟩ := BfvP.params h
    unfold SecretKey.generate at hs
    obtain ⟨r, hr, -⟩ := bind_eq_ok.mp hs
    exact sampleVecCbd_variance hr
  · rintro ⟨h1, h2⟩
    obtain ⟨sk, hs, -⟩ := c30_generate h pr h1 h2 hr
    exact ⟨sk, hs⟩

/-- C106: `to_poly` returns just if the level exists and the plaintext is not longer than the degree. -/
theorem c106_to_poly (h : IsParams N t l variance P) (pr : Profile) {pt : Plaintext} (hp : pt.params = P) (hv : ∀ x ∈ pt.values, x < 2 ^ 64) :
    (∃ p, pt.toPoly pr = .ok p) ↔ pt.level < l.length ∧ pt.values.length ≤ N := by
  obtain ⟨K, ext, rfl, hw, rfl, rfl, rfl⟩ := BfvP.params h
  subst hp
  constructor
  · rintro ⟨p, hq⟩
    unfold Plaintext.toPoly at hq
    obtain ⟨qt, hqt, hq⟩ := bind_eq_ok.mp hq
    obtain ⟨c, hc, hq⟩ := bind_eq_ok.mp hq
    obtain ⟨d, -, hq⟩ := bind_eq_ok.mp hq
    obtain ⟨tm, htm, hq⟩ := bind_eq_ok.mp hq
    obtain ⟨vs, hvs, hq⟩ := bind_eq_ok.mp hq
    obtain ⟨q, hq', -⟩ := bind_eq_ok.mp hq
    have hi : pt.level < pt.params.ciphertextModuli.length := by
      rw [← hw.nLevels]
      by_contra hge
      unfold idx at hc
      rw [List.getElem?_eq_none (by omega)] at hc
      cases hc
    refine ⟨hi, ?_⟩
    obtain ⟨L, hL⟩ := hw.levels _ hi
    rw [idx_of hL.q] at hc
    obtain rfl := Except.ok.inj hc
    rw [idx_of hL.qmt] at hqt
    obtain rfl := Except.ok.inj hqt
    obtain ⟨tm', htm', htp, htw⟩ := Modulus.new_ok (p := pt.params.plaintextModulus) hw.t_prime.two_le hw.t_lt
    obtain rfl := Except.ok.inj (htm.symm.trans htm')
    obtain ⟨r, r1, r2, r3⟩ := Plaintext.scalarMulVec_ok (b := L.qModT) htw pr (by rw [hL.wf.qModT, htp]; exact Nat.mod_lt _ hw.t_prime.pos) pt.values hv
    obtain rfl := Except.ok.inj (hvs.symm.trans r1)
    by_contra hlong
    have hr64 : ∀ x ∈ vs, x < 2 ^ 64 := by
      intro x hx
      obtain ⟨k, hk, rfl⟩ := List.getElem_of_mem hx
      have := (r3 k (by omega)).1
      rw [List.getD_eq_getElem _ _ hk] at this
      have := hw.t_lt
      omega
    have : Poly.tryFromVecU64 pr L.qCtx vs = .error .bounds := by
      refine Poly.fromRows_long hL.wf.ctx (by omega) (fun m x => x % m.p) fun m hm => ?_
      exact mapR_ok fun x hx => Modulus.reduce_ok (hL.wf.ctx.core.mod_wf hm) pr (hr64 x hx)
    rw [this] at hq'
    cases hq'
  · rintro ⟨h1, h2⟩
    obtain ⟨L, hL⟩ := hw.levels _ h1
    obtain ⟨M, hM, -⟩ := Plaintext.toPoly_enc hw hL pr h2 hv
    exact ⟨_, hM⟩

/-- C106: `encrypt` returns just if the level of the plaintext exists, the plaintext is not longer than the degree and the variance is between
1 and 16. -/
theorem c106_encrypt (h : IsParams N t l variance P) {sk : SecretKey} (hk : IsKey P sk) (pr : Profile) {pt : Plaintext} (hp : pt.params = P)
    (hv : ∀ x ∈ pt.values, x < 2 ^ 64) {aTape : Nat → Nat → Nat} (ha : TapeAt l pt.level aTape) {rng : Nat → Nat} (hr : ∀ i, rng i < 2 ^ 64) :
    (∃ ct, sk.encrypt pr pt aTape rng = .ok ct) ↔ pt.level < l.length ∧ pt.values.length ≤ N ∧ 1 ≤ variance ∧ variance ≤ 16 := by
  constructor
  · rintro ⟨ct, hc⟩
    unfold SecretKey.encrypt at hc
    obtain ⟨p, h1, h2⟩ := bind_eq_ok.mp hc
    obtain ⟨h3, h4⟩ := (c106_to_poly h pr hp hv).mp ⟨p, h1⟩
    have := SecretKey.encryptPoly_variance h2
    obtain ⟨K, ext, rfl, hw, rfl, rfl, rfl⟩ := BfvP.params h
    rw [hk.1] at this
    exact ⟨h3, h4, this⟩
  · rintro ⟨h1, h2, h3, h4⟩
    obtain ⟨ct, -, -, hc, -⟩ := c30_encrypt_components h hk pr h3 h4 hp h1 h2 hv ha hr
    exact ⟨ct, hc⟩

/-- C106: `Ksk::new` at a level returns just if the variance is between 1 and 16. -/
theorem c106_ksk (h : IsParams N t l variance P) {sk : SecretKey} (hk : IsKey P sk) (pr : Profile) {i : Nat} {src : Rg N} {p : Poly}
    (hp : PolyAt P i src p) {aTape : Nat → Nat → Nat → Nat} (ha : ∀ j, TapeAt l i (aTape j)) {rng : Nat → Nat → Nat}
    (hr : ∀ j i, rng j i < 2 ^ 64) : (∃ k, Ksk.new pr sk p i i aTape rng = .ok k) ↔ 1 ≤ variance ∧ variance ≤ 16 := by
  constructor
  · rintro ⟨k, hn⟩
    exact (Ksk.new_variance h hk.1 hn).2
  · rintro ⟨h1, h2⟩
    obtain ⟨k, hn, -⟩ := c36_new h hk pr h1 h2 hp ha hr
    exact ⟨k, hn⟩

/-- C106: `RelinearizationKey::new` returns just if the level exists and the variance is between 1 and 16. -/
theorem c106_relinearization (h : IsParams N t l variance P) {sk : SecretKey} (hk : IsKey P sk) (pr : Profile) {i : Nat}
    {aTape : Nat → Nat → Nat → Nat} (ha : ∀ j, TapeAt l i (aTape j)) {rng : Nat → Nat → Nat} (hr : ∀ j i, rng j i < 2 ^ 64) :
    (∃ k, RelinearizationKey.new pr sk i aTape rng = .ok k) ↔ i < l.length ∧ 1 ≤ variance ∧ variance ≤ 16 := by
  constructor
  · rintro ⟨k, hn⟩
    unfold RelinearizationKey.new at hn
    obtain ⟨c, -, hn⟩ := bind_eq_ok.mp hn
    obtain ⟨s, -, hn⟩ := bind_eq_ok.mp hn
    obtain ⟨s2, -, hn⟩ := bind_eq_ok.mp hn
    obtain ⟨k', hk', -⟩ := bind_eq_ok.mp hn
    exact Ksk.new_variance h hk.1 hk'
  · rintro ⟨h0, h1, h2⟩
    obtain ⟨k, hn, -⟩ := c38_relinearize h hk pr pr h1 h2 h0 ha hr
    exact ⟨k, hn⟩

/-- C106: `GaliosKey::new` for a substitution returns just if there is more than one modulus and the variance is between 1 and 16. -/
theorem c106_galois (h : IsParams N t l variance P) {sk : SecretKey} (hk : IsKey P sk) (pr : Profile) (hN : N ≤ 2 ^ 31) {i : Nat} {c : RqContext}
    (hi : P.qCtxs[i]? = some c) {e : Nat} (he : Odd e) {aTape : Nat → Nat → Nat → Nat} (ha : ∀ j, TapeAt l i (aTape j))
    {rng : Nat → Nat → Nat} (hr : ∀ j i, rng j i < 2 ^ 64) :
    ∃ sub, Substitution.new pr c e = .ok sub ∧
      ((∃ g, GaliosKey.new pr sk sub i aTape rng = .ok g) ↔ l.length ≠ 1 ∧ 1 ≤ variance ∧ variance ≤ 16) := by
  obtain ⟨sub, hs⟩ : ∃ sub, Substitution.new pr c e = .ok sub := by
    obtain ⟨K, ext, rfl, hw, rfl, rfl, rfl⟩ := BfvP.params h
    obtain ⟨L, hL⟩ := hw.levels i (by rw [← hw.nLevels]; exact (List.getElem?_eq_some_iff.mp hi).1)
    obtain rfl := Option.some.inj (hi.symm.trans hL.q)
    exact ⟨_, Poly.substitution_new_ok hL.wf.ctx pr ((Nat.pow_le_pow_iff_right (by norm_num)).mp hN) he⟩
  refine ⟨sub, hs, ?_⟩
  constructor
  · rintro ⟨g, hg⟩
    obtain ⟨h1, -, h2⟩ := GaliosKey.new_needs h hk.1 hg
    exact ⟨h1, h2⟩
  · rintro ⟨h0, h1, h2⟩
    obtain ⟨sub', g, e1, e2, -⟩ := c37_galois h hk pr pr h1 h2 h0 hN hi he ha hr
    obtain rfl := Except.ok.inj (hs.symm.trans e1)
    exact ⟨g, e2⟩

/-- C106: RGSW encryption of a polynomial of a level returns just if the variance is between 1 and 16. -/
theorem c106_rgsw (h : IsParams N t l variance P) {sk : SecretKey} (hk : IsKey P sk) (pr : Profile) {i : Nat} {m : Rg N} {p : Poly}
    (hp : PolyAt P i m p) {a0 a1 : Nat → Nat → Nat → Nat} (ha0 : ∀ j, TapeAt l i (a0 j)) (ha1 : ∀ j, TapeAt l i (a1 j))
    {r0 r1 : Nat → Nat → Nat} (hr0 : ∀ j i, r0 j i < 2 ^ 64) (hr1 : ∀ j i, r1 j i < 2 ^ 64) :
    (∃ g, RgswCt.encryptPoly pr sk p a0 a1 r0 r1 = .ok g) ↔ 1 ≤ variance ∧ variance ≤ 16 := by
  constructor
  · rintro ⟨g, hg⟩
    unfold RgswCt.encryptPoly at hg
    obtain ⟨-, -, hg⟩ := bind_eq_ok.mp hg
    obtain ⟨lev, -, hg⟩ := bind_eq_ok.mp hg
    obtain ⟨s, -, hg⟩ := bind_eq_ok.mp hg
    obtain ⟨sm, -, hg⟩ := bind_eq_ok.mp hg
    obtain ⟨k0, hk0, -⟩ := bind_eq_ok.mp hg
    exact (Ksk.new_variance h hk.1 hk0).2
  · rintro ⟨h1, h2⟩
    obtain ⟨g, hg, -⟩ := c39_encrypt_poly h hk pr h1 h2 hp ha0 ha1 hr0 hr1
    exact ⟨g, hg⟩

/-- C106: `Evaluation::build` returns just if there is more than one modulus and the variance is between 1 and 16. -/
theorem c106_build (h : IsParams N t l variance P) {sk : SecretKey} (hk : IsKey P sk) (pr : Profile) (hN : N ≤ 2 ^ 31)
    {aTape : Nat → Nat → Nat → Nat → Nat} (ha : ∀ k j, TapeAt l 0 (aTape k j)) {rng : Nat → Nat → Nat → Nat}
    (hr : ∀ k j i, rng k j i < 2 ^ 64) {a0 a1 : Nat → Nat → Nat → Nat} (ha0 : ∀ j, TapeAt l 0 (a0 j)) (ha1 : ∀ j, TapeAt l 0 (a1 j))
    {r0 r1 : Nat → Nat → Nat} (hr0 : ∀ j i, r0 j i < 2 ^ 64) (hr1 : ∀ j i, r1 j i < 2 ^ 64) :
    (∃ ev, Evaluation.build pr sk P aTape rng a0 a1 r0 r1 = .ok ev) ↔ l.length ≠ 1 ∧ 1 ≤ variance ∧ variance ≤ 16 := by
  constructor
  · rintro ⟨ev, hev⟩
    obtain ⟨K, ext, hNK, hw, -⟩ := BfvP.params h
    unfold Evaluation.build at hev
    obtain ⟨lg, h1, hev⟩ := bind_eq_ok.mp hev
    obtain ⟨gk, h2, -⟩ := bind_eq_ok.mp hev
    rw [hw.deg] at h1
    rw [RnsScaler.ilog2_two_pow pr (by have := hw.K_le; omega)] at h1
    obtain rfl := Except.ok.inj h1
    have hlg := hw.three
    obtain ⟨k, rfl⟩ : ∃ k, K = k + 1 := ⟨K - 1, by omega⟩
    rw [List.range_succ_eq_map, foldR_cons] at h2
    obtain ⟨m, h3, -⟩ := bind_eq_ok.mp h2
    unfold Evaluation.buildStep at h3
    obtain ⟨p, -, h3⟩ := bind_eq_ok.mp h3
    obtain ⟨d, -, h3⟩ := bind_eq_ok.mp h3
    obtain ⟨k', -, h3⟩ := bind_eq_ok.mp h3
    obtain ⟨ctx, -, h3⟩ := bind_eq_ok.mp h3
    obtain ⟨sub, -, h3⟩ := bind_eq_ok.mp h3
    obtain ⟨g, hg, -⟩ := bind_eq_ok.mp h3
    obtain ⟨h4, -, h5⟩ := GaliosKey.new_needs h hk.1 hg
    exact ⟨h4, h5⟩
  · rintro ⟨h0, h1, h2⟩
    obtain ⟨ev, hev, -⟩ := c41_build h hk pr h1 h2 h0 hN ha hr ha0 ha1 hr0 hr1
    exact ⟨ev, hev⟩

/-- Parameters with the variance 20 are accepted, but no key can be generated for them. -/
example : ∃ P, IsParams 8 17 Ex.mods 20 P ∧ ¬∃ sk, SecretKey.generate .debug P (fun i => i % 1000) = .ok sk := by
  obtain ⟨P, -, h⟩ := c51_new_succeeds .debug (K := 3) (by norm_num) (by norm_num) (t := 17) (by norm_num) (by norm_num) (by norm_num)
    (l := Ex.mods) (by simp [Ex.mods]) (by decide)
    (by
      unfold Ex.mods
      simp only [List.mem_cons, List.not_mem_nil, or_false]
      rintro q (rfl | rfl | rfl) <;> norm_num)
    (by unfold Ex.mods; simp) (by simp [Ex.mods])
    ⟨Ex.bigPrimes, by decide, by simp [Ex.mods, Ex.bigPrimes], fun p hp => ⟨Ex.bigPrimes_prime p hp, by
      revert p; unfold Ex.bigPrimes Ex.mods; decide⟩⟩
    Ex.goodSample_lt (fun q hq hc => ⟨0, by norm_num, Ex.goodSample_good hq (by rintro rfl; norm_num at hc)⟩) 20 ⟨1, 1⟩
  exact ⟨P, h, fun hs => by have := (c106_generate h .debug Ex.wordTape).mp hs; omega⟩

/-- With one modulus a relinearization key is made, but no evaluation keys. -/
example : ∃ P sk, IsParams 8 17 [1048609] 10 P ∧ IsKey P sk ∧
    (∃ k, RelinearizationKey.new .debug sk 0 (fun _ _ _ => 0) (fun _ i => i % 1000) = .ok k) ∧
    ¬∃ ev, Evaluation.build .debug sk P (fun _ _ _ _ => 0) (fun _ _ i => i % 1000) (fun _ _ _ => 0) (fun _ _ _ => 0) (fun _ i => i % 1000)
      (fun _ i => i % 1000) = .ok ev := by
  obtain ⟨P, -, h⟩ := c51_new_succeeds .debug (K := 3) (by norm_num) (by norm_num) (t := 17) (by norm_num) (by norm_num) (by norm_num)
    (l := [1048609]) (by simp) (by decide)
    (by
      simp only [List.mem_cons, List.not_mem_nil, or_false]
      rintro q rfl; norm_num)
    (by simp) (by simp)
    ⟨Ex.bigPrimes, by decide, by simp [Ex.bigPrimes], fun p hp => ⟨Ex.bigPrimes_prime p hp, by
      revert p; unfold Ex.bigPrimes; decide⟩⟩
    Ex.goodSample_lt (fun q hq hc => ⟨0, by norm_num, Ex.goodSample_good hq (by rintro rfl; norm_num at hc)⟩) 10 ⟨1, 1⟩
  obtain ⟨sk, -, hk, -⟩ := c30_generate h .debug (by norm_num) (by norm_num) Ex.wordTape
  have ht : TapeAt [1048609] 0 fun _ _ => 0 := Ex.tape0 (by simp)
  refine ⟨P, sk, h, hk, (c106_relinearization h hk .debug (fun _ => ht) (fun _ => Ex.wordTape)).mpr (by simp), fun hb => ?_⟩
  have := (c106_build h hk .debug (by norm_num) (fun _ _ => ht) (fun _ _ => Ex.wordTape) (fun _ => ht) (fun _ => ht) (fun _ => Ex.wordTape)
    (fun _ => Ex.wordTape)).mp hb
  simp at this

/-- A plaintext with more values than the degree is not encrypted. -/
example : ∃ P sk, IsParams 8 17 Ex.mods 10 P ∧ IsKey P sk ∧
    (∃ ct, sk.encrypt .debug ⟨P, 2, .poly, [1, 2]⟩ (fun _ _ => 0) (fun i => i % 1000) = .ok ct) ∧
    ¬∃ ct, sk.encrypt .debug ⟨P, 0, .poly, List.replicate 9 1⟩ (fun _ _ => 0) (fun i => i % 1000) = .ok ct := by
  obtain ⟨P, h⟩ := Ex.exists_params
  obtain ⟨sk, -, hk, -⟩ := c30_generate h .debug (by norm_num) (by norm_num) Ex.wordTape
  refine ⟨P, sk, h, hk, (c106_encrypt h hk .debug rfl (by simp) (Ex.tape0 Ex.mods_gt) Ex.wordTape).mpr (by simp [Ex.mods]), fun hc => ?_⟩
  have := (c106_encrypt h hk .debug rfl (by simp) (Ex.tape0 Ex.mods_gt) Ex.wordTape).mp hc
  simp at this

/-- C106: the corrected `unpack` returns as many ciphertexts as the degree says. -/
theorem Repair.unpack_length {pr : Profile} {ev : Evaluation} {ct : BfvCipherText} {u : List BfvCipherText} (h : Repair.unpack pr ev ct = .ok u) :
    u.length = ct.params.degree := by
  unfold Repair.unpack at h
  obtain ⟨ctx, _, h⟩ := bind_eq_ok.mp h
  obtain ⟨xs, _, h⟩ := bind_eq_ok.mp h
  obtain ⟨_, _, h⟩ := bind_eq_ok.mp h
  unfold Evaluation.unpackWith at h
  obtain ⟨_, _, h⟩ := bind_eq_ok.mp h
  obtain ⟨_, _, h⟩ := bind_eq_ok.mp h
  obtain ⟨_, _, h⟩ := bind_eq_ok.mp h
  obtain ⟨_, _, h⟩ := bind_eq_ok.mp h
  obtain ⟨bits, _, h⟩ := bind_eq_ok.mp h
  by_cases hb : bits.length = ct.params.degree
  · rw [rassert_ok hb, res_ok_bind] at h
    rw [← Except.ok.inj h, hb]
  · rw [rassert_fail hb] at h
    cases h

/-- C106: exactly when the corrected `decode` returns. The database has `rows` rows and `k` is the number of further dimensions: the selectors
of the first dimension have to fit one ciphertext, those of the further dimensions another, and the query needs one ciphertext more than
there are moduli. What the ciphertexts and the keys hold does not matter. -/
theorem c106_decode (h : IsParams N t l variance P) (hN : N ≤ 2 ^ 31) (pr : Profile) {ev : Evaluation} (hev : ShapedEval N P ev)
    {fd dim : Nat} {db : List Plaintext} (hdb : ∀ p ∈ db, p.values.length ≤ N) (hv : ∀ p ∈ db, ∀ a ∈ p.values, a < 2 ^ 64)
    (hmem : db.length < 2 ^ 64) {srv : Server}
    {pr2 : Profile} (hsrv : Server.new pr2 fd dim db P = .ok srv) (hd : 2 ≤ dim) (hd2 : dim < 2 ^ 64)
    {q : List BfvCipherText} (hq : ∀ ct ∈ q, ShapedCt P 0 2 ct) :
    (∃ out, Repair.decode pr srv q ev P = .ok out) ↔
      0 < fd ∧ fd ≤ N ∧ (∃ k, db.length / fd < 2 * dim ^ k ∧ (∀ j, j < k → 2 * dim ^ j ≤ db.length / fd) ∧ dim * k ≤ N) ∧ q.length = l.length + 1 := by
  obtain ⟨srv', s1, s2, s3, s4, -⟩ := c43_new h pr2 fd dim hdb hv
  obtain rfl := Except.ok.inj (hsrv.symm.trans s1)
  have hdeg : P.degree = N := by
    obtain ⟨K, ext, hNK, hw, -⟩ := BfvP.params h
    rw [hw.deg, hNK]
  have huniq : ∀ k k', db.length / fd < 2 * dim ^ k → (∀ j, j < k → 2 * dim ^ j ≤ db.length / fd) → db.length / fd < 2 * dim ^ k' →
      (∀ j, j < k' → 2 * dim ^ j ≤ db.length / fd) → k = k' := by
    intro k k' a1 a2 b1 b2
    rcases Nat.lt_trichotomy k k' with hlt | heq | hlt
    · have := b2 k hlt; omega
    · exact heq
    · have := a2 k' hlt; omega
  by_cases hf : 0 < fd
  · obtain ⟨k, k1, k2, k3⟩ := c99_dimensions pr srv (by rw [s2]; exact hf) (by rw [s3]; exact hd) (by rw [s4]; exact hmem)
    rw [s2, s3, s4] at k2 k3
    constructor
    · rintro ⟨out, ho⟩
      obtain ⟨ctx, g1, g2⟩ := c67_decode ho
      have hql : q.length = l.length + 1 ∧ 0 < l.length := by
        obtain ⟨K, ext, rfl, hw, rfl, rfl, -⟩ := BfvP.params h
        obtain ⟨L, hL⟩ := hw.levels 0 (List.length_pos_iff.mpr hw.ne)
        obtain rfl := Option.some.inj (hL.q.symm.trans g1)
        refine ⟨?_, List.length_pos_iff.mpr hw.ne⟩
        rw [g2, hL.wf.ctx.core.mods, Ksk.moduli_len hL.wf.ctx, BfvP.len_level hL]
        simp [levelModuli]
      unfold Repair.decode Server.decodeBy at ho
      obtain ⟨_, _, ho⟩ := bind_eq_ok.mp ho
      obtain ⟨_, _, ho⟩ := bind_eq_ok.mp ho
      obtain ⟨q0, e0, ho⟩ := bind_eq_ok.mp ho
      obtain ⟨u, e1, ho⟩ := bind_eq_ok.mp ho
      obtain ⟨u', e2, ho⟩ := bind_eq_ok.mp ho
      rw [k1, res_ok_bind, subW_ok (by omega), res_ok_bind, Nat.add_sub_cancel, s3] at ho
      obtain ⟨count, e3, ho⟩ := bind_eq_ok.mp ho
      obtain ⟨vals, e4, -⟩ := bind_eq_ok.mp ho
      have hfit : k * dim < 2 ^ 64 := by
        rcases Nat.lt_or_ge k 2 with hk | hk
        · have : k * dim ≤ 1 * dim := Nat.mul_le_mul_right _ (by omega)
          omega
        · have h1 := k3 (k - 1) (by omega)
          have h2 : k ≤ 2 * dim ^ (k - 2) := by
            have : k - 2 < 2 ^ (k - 2) := Nat.lt_two_pow_self
            have h3 : 2 ^ (k - 2) ≤ dim ^ (k - 2) := Nat.pow_le_pow_left hd _
            omega
          have h3 : dim ^ (k - 1) = dim ^ (k - 2) * dim := by rw [← pow_succ]; congr 1; omega
          have h4 : db.length / fd ≤ db.length := Nat.div_le_self _ _
          have h5 : k * dim ≤ 2 * dim ^ (k - 2) * dim := Nat.mul_le_mul_right _ h2
          rw [h3] at h1
          have : 2 * (dim ^ (k - 2) * dim) = 2 * dim ^ (k - 2) * dim := by ring
          omega
      rw [mulW_ok hfit] at e3
      obtain rfl := Except.ok.inj e3
      have hp : ∀ ct ∈ q, ct.params.degree = N := fun ct hct => by rw [(hq ct hct).1, hdeg]
      have hfN : fd ≤ N := by
        have h1 := (takeR_inv e2).1
        rw [Repair.unpack_length e1, s2] at h1
        have hmem0 : q0 ∈ q := by
          unfold idx at e0
          split at e0
          · rename_i x hx
            rw [← Except.ok.inj e0]
            exact List.mem_of_getElem? hx
          · cases e0
        rwa [hp _ hmem0] at h1
      have hkN : dim * k ≤ N := by
        have hq1 : 1 < q.length := by omega
        obtain ⟨-, e5⟩ := mapR_inv e4
        obtain ⟨b, -, e6⟩ := e5 0 q[1] (by rw [List.getElem?_drop]; exact List.getElem?_eq_getElem hq1)
        obtain ⟨w, e7, e8⟩ := bind_eq_ok.mp e6
        have h1 := (takeR_inv e8).1
        rw [Repair.unpack_length e7, hp _ (List.getElem_mem hq1)] at h1
        rwa [Nat.mul_comm]
      exact ⟨hf, hfN, ⟨k, k2, k3, hkN⟩, hql.1⟩
    · rintro ⟨-, hfN, ⟨k', j1, j2, j3⟩, hql⟩
      obtain rfl := huniq k k' k2 k3 j1 j2
      exact (c99_decode h hN pr hev hdb hv hsrv hf hfN (by omega) k1 j3 hq).1.mpr hql
  · refine ⟨fun ⟨out, ho⟩ => ?_, fun h0 => absurd h0.1 hf⟩
    obtain rfl : fd = 0 := by omega
    unfold Repair.decode Server.decodeBy at ho
    obtain ⟨_, _, ho⟩ := bind_eq_ok.mp ho
    obtain ⟨_, _, ho⟩ := bind_eq_ok.mp ho
    obtain ⟨_, _, ho⟩ := bind_eq_ok.mp ho
    obtain ⟨_, _, ho⟩ := bind_eq_ok.mp ho
    obtain ⟨_, _, ho⟩ := bind_eq_ok.mp ho
    obtain ⟨dims, e, -⟩ := bind_eq_ok.mp ho
    unfold Repair.dimensions at e
    rw [s2] at e
    cases e

/-- 27 rows in three dimensions of size 3 need 9 selectors, more than the degree 8: no query is answered. Nine rows need 6: every query of four
ciphertexts is answered. -/
example : ∃ P ev, ∃ p : Poly, ∃ srv srv', IsParams 8 17 Ex.mods 10 P ∧ ShapedEval 8 P ev ∧ Shaped P 0 p ∧
    Server.new .debug 1 3 (List.replicate 27 ⟨P, 0, .poly, [5]⟩) P = .ok srv ∧ Server.new .debug 1 3 (List.replicate 9 ⟨P, 0, .poly, [5]⟩) P = .ok srv' ∧
    (¬ ∃ out, Repair.decode .debug srv (List.replicate 4 ⟨P, [p, p], 0⟩) ev P = .ok out) ∧
    ∃ out, Repair.decode .debug srv' (List.replicate 4 ⟨P, [p, p], 0⟩) ev P = .ok out := by
  obtain ⟨P, h⟩ := Ex.exists_params
  obtain ⟨p, hp⟩ := c33_exists_poly h (i := 0) (by decide) (xx : Rg 8)
  have hs := Shape.of_polyAt h hp
  obtain ⟨ev, hev⟩ := c99_exists_eval h (by norm_num) hs
  have hlen : ∀ n, ∀ r ∈ List.replicate n (⟨P, 0, .poly, [5]⟩ : Plaintext), r.values.length ≤ 8 := by
    intro n r hr
    rw [List.eq_of_mem_replicate hr]; norm_num
  have hval : ∀ n, ∀ r ∈ List.replicate n (⟨P, 0, .poly, [5]⟩ : Plaintext), ∀ a ∈ r.values, a < 2 ^ 64 := by
    intro n r hr
    rw [List.eq_of_mem_replicate hr]; simp
  obtain ⟨srv, s1, -⟩ := c43_new h .debug 1 3 (hlen 27) (hval 27)
  obtain ⟨srv', s1', -⟩ := c43_new h .debug 1 3 (hlen 9) (hval 9)
  have hq : ∀ ct ∈ List.replicate 4 (⟨P, [p, p], 0⟩ : BfvCipherText), ShapedCt P 0 2 ct := by
    intro ct hct
    rw [List.eq_of_mem_replicate hct]
    exact ⟨rfl, rfl, rfl, by simpa using hs⟩
  refine ⟨P, ev, p, srv, srv', h, hev, hs, s1, s1', ?_, ?_⟩
  · rw [c106_decode h (by norm_num) .debug hev (hlen 27) (hval 27) (by simp) s1 (by norm_num) (by norm_num) hq]
    rintro ⟨-, -, ⟨k, k1, k2, k3⟩, -⟩
    rw [List.length_replicate] at k1
    have : 3 ≤ k := by
      by_contra hk
      have : 3 ^ k ≤ 3 ^ 2 := Nat.pow_le_pow_right (by norm_num) (by omega)
      omega
    omega
  · rw [c106_decode h (by norm_num) .debug hev (hlen 9) (hval 9) (by simp) s1' (by norm_num) (by norm_num) hq]
    refine ⟨by norm_num, by norm_num, ⟨2, by simp, fun j hj => ?_, by norm_num⟩, by simp [Ex.mods]⟩
    rw [List.length_replicate]
    interval_cases j <;> norm_num

/-- A plaintext with too many values or at a level that does not exist has no polynomial; keys and RGSW ciphertexts with the variance 10. -/
example : ∃ P sk p c, IsParams 8 17 Ex.mods 10 P ∧ IsKey P sk ∧ PolyAt P 1 (msgRing 8 [4, 2] : Rg 8) p ∧ P.qCtxs[1]? = some c ∧
    (∃ q, (⟨P, 2, .poly, [5, 6]⟩ : Plaintext).toPoly .debug = .ok q) ∧ (¬ ∃ q, (⟨P, 3, .poly, [5, 6]⟩ : Plaintext).toPoly .debug = .ok q) ∧
    (¬ ∃ q, (⟨P, 0, .poly, List.replicate 9 1⟩ : Plaintext).toPoly .release = .ok q) ∧
    (∃ k, Ksk.new .debug sk p 1 1 (fun _ _ _ => 0) (fun _ i => i % 1000) = .ok k) ∧
    (∃ sub g, Substitution.new .debug c 5 = .ok sub ∧ GaliosKey.new .debug sk sub 1 (fun _ _ _ => 0) (fun _ i => i % 1000) = .ok g) ∧
    ∃ g, RgswCt.encryptPoly .debug sk p (fun _ _ _ => 0) (fun _ _ _ => 0) (fun _ i => i % 1000) (fun _ i => i % 1000) = .ok g := by
  obtain ⟨P, sk, h, hk, -⟩ := Ex.setup_key
  obtain ⟨p, hp⟩ := c33_exists_poly h (i := 1) (by decide) (msgRing 8 [4, 2])
  obtain ⟨c, hc, -⟩ := id hp
  have ht : TapeAt Ex.mods 1 fun _ _ => 0 := Ex.tape0 Ex.mods_gt
  refine ⟨P, sk, p, c, h, hk, hp, hc, (c106_to_poly h .debug rfl (by simp)).mpr (by simp [Ex.mods]), ?_, ?_, ?_, ?_, ?_⟩
  · rw [c106_to_poly h .debug rfl (by simp)]; simp [Ex.mods]
  · rw [c106_to_poly h .release rfl (by simp)]; simp
  · exact (c106_ksk h hk .debug (i := 1) hp (fun _ => ht) (fun _ => Ex.wordTape)).mpr (by norm_num)
  · obtain ⟨sub, h1, h2⟩ := c106_galois h hk .debug (by norm_num) hc (e := 5) (by decide) (aTape := fun _ _ _ => 0) (fun _ => ht)
      (rng := fun _ i => i % 1000) (fun _ => Ex.wordTape)
    obtain ⟨g, hg⟩ := h2.mpr ⟨by decide, by norm_num, by norm_num⟩
    exact ⟨sub, g, h1, hg⟩
  · exact (c106_rgsw h hk .debug (i := 1) hp (fun _ => ht) (fun _ => ht) (fun _ => Ex.wordTape) (fun _ => Ex.wordTape)).mpr (by norm_num)

end OnionPIR
