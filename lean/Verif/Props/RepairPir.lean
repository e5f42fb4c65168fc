import Verif.Model.Repair
import Verif.Props.Repair
import Verif.Props.Protocol
import Verif.Props.Tests
/-
C80, continued: expansion, the server and the whole test `query` with the corrected lines of Verif/Model/Repair.lean.
-/
namespace OnionPIR
open Rg Poly Spec

variable {N t : Nat} {l : List Nat} {variance : Nat} {P : BfvParameters}

namespace Repair

/-- The list with a one in place `e` is the monomial `X^e`. -/
theorem ofList_set {K e : Nat} (he : e < 2 ^ K) :
    ofList K (((List.replicate (2 ^ K) 0).set e 1).map (fun x : Nat => (x : ℤ))) = (xx ^ e : Rg (2 ^ K)) := by
  have hN : 0 < 2 ^ K := by positivity
  refine ext_cf hN fun k hk => ?_
  unfold ofList
  rw [cf_ofCoeffs hN _ hk, cf_xx_pow hN he]
  simp only [List.getD, List.getElem?_map, List.getElem?_set, List.length_replicate, he, if_true, List.getElem?_replicate, hk]
  split_ifs <;> simp

theorem xPow_ok {K : Nat} {ext : List Nat} {L : BfvLevel} (hL : P.At K ext 0 L) (pr : Profile) {i : Nat} (hi : i < K) (hK : K ≤ 62) :
    xPow pr (2 ^ K) L.qCtx i = .ok (enc L.qCtx .powerBasis (-(xx ^ (2 ^ K - 2 ^ i)) : Rg (2 ^ K))) := by
  have h1 : 2 ^ i < 2 ^ K := Nat.pow_lt_pow_right (by norm_num) hi
  have h2 : 2 ^ K < 2 ^ 64 := Nat.pow_lt_pow_right (by norm_num) (by omega)
  have h3 : 0 < 2 ^ i := by positivity
  unfold xPow powW
  rw [Nat.mod_eq_of_lt (by omega), fit_ok (by omega), res_ok_bind, subW_ok h1.le, res_ok_bind, setR_ok (by simp), res_ok_bind,
    tryFromVecU64_ok hL.wf.ctx pr (by simp) (fun x hx => by
      rcases List.mem_or_eq_of_mem_set hx with hx | rfl
      · rw [(List.mem_replicate.mp hx).2]; norm_num
      · norm_num), res_ok_bind, ofList_set (by omega), neg_enc hL.wf.ctx]

theorem genXPows_ok {K : Nat} {ext : List Nat} {L : BfvLevel} (hL : P.At K ext 0 L) (pr : Profile) :
    ∃ xs, genXPows pr (2 ^ K) L.qCtx = .ok xs ∧ xs.length = K ∧ IsMonomials (2 ^ K) P xs := by
  have hK : K ≤ 62 := hL.wf.ctx.core.K_le
  unfold genXPows
  rw [RnsScaler.ilog2_two_pow pr (by omega), res_ok_bind, mapR_ok fun i hi => xPow_ok hL pr (List.mem_range.mp hi) hK]
  refine ⟨_, rfl, by simp, fun i hi => ?_⟩
  have hi' : i < K := (Nat.pow_lt_pow_iff_right (by norm_num)).mp hi
  exact ⟨_, by simp only [List.getElem?_map, List.getElem?_range hi', Option.map_some], (BfvP.powerAt_iff hL _ _).mpr rfl⟩

/-- The corrected `unpack` is the expansion with the monomials that the loop of expansion needs. -/
theorem unpack_eq (h : IsParams N t l variance P) (pr : Profile) : ∃ xs, IsMonomials N P xs ∧ ∀ (ev : Evaluation) (ct : BfvCipherText),
    ct.params = P → ct.level = 0 → unpack pr ev ct = ev.unpackWith pr xs ct := by
  obtain ⟨K, -, hNK, -⟩ := BfvP.params h
  subst hNK
  obtain ⟨ext, L, hw, hL, -, hml, -⟩ := Evaluation.level_zero h
  have hK : K ≤ 62 := hL.wf.ctx.core.K_le
  obtain ⟨xs, h1, h2, h3⟩ := genXPows_ok hL pr
  refine ⟨xs, h3, fun ev ct hp hl => ?_⟩
  have hd : dassertEqR pr xs.length (ilog2 64 pr (2 ^ K)) = .ok () := by
    rw [RnsScaler.ilog2_two_pow pr (by omega), h2]
    cases pr
    · unfold dassertEqR
      simp only [res_ok_bind]
      exact dassert_ok trivial
    · rfl
  unfold unpack
  rw [hp, hl, idx_of hL.q, res_ok_bind, hw.deg, h1, res_ok_bind, hd, res_ok_bind]

theorem decodeBy_congr (pr : Profile) (dims : Res Nat) {u u' : BfvCipherText → Res (List BfvCipherText)} (s : Server)
    {q : List BfvCipherText} (hu : ∀ ct ∈ q, u ct = u' ct) (ev : Evaluation) (P : BfvParameters) :
    Server.decodeBy pr dims u s q ev P = Server.decodeBy pr dims u' s q ev P := by
  have hm : ∀ (c : Nat) (xs : List BfvCipherText), (∀ ct ∈ xs, u ct = u' ct) →
      mapR (fun q => do let u ← u q; takeR u c) xs = mapR (fun q => do let u ← u' q; takeR u c) xs := by
    intro c xs
    induction xs with
    | nil => intro _; rfl
    | cons x xs ih =>
      intro hx
      unfold mapR
      rw [hx x (by simp), ih fun ct hc => hx ct (by simp [hc])]
  cases q with
  | nil => rfl
  | cons q0 qs =>
    unfold Server.decodeBy
    simp only [show idx (q0 :: qs) 0 = .ok q0 from rfl, res_ok_bind, hu q0 (by simp), List.drop_one, List.tail_cons,
      hm _ qs fun ct hc => hu ct (by simp [hc])]

end Repair

/-- C80, for C41: the corrected expansion of an encryption of `m` succeeds and gives `N` ciphertexts, encrypting the coefficients of `m`. -/
theorem c80_unpack (h : IsParams N t l variance P) (pr : Profile) {s : Rg N} {B B0 B1 : ℤ} {ev : Evaluation}
    (hev : IsEval P l s B B0 B1 ev) {ct : BfvCipherText} {f0 f1 : Rg N} (hct : IsCt P 0 [f0, f1] ct) :
    ∃ bits, Repair.unpack pr ev ct = .ok bits ∧ bits.length = N ∧
      ∀ j, j < N → ∃ c, ∃ g0 g1 E : Rg N, bits[j]? = some c ∧ IsCt P 0 [g0, g1] c ∧ Bdd ((N - 1) * B) E ∧
        Cong (levelQ l 0) (phase s [g0, g1]) (((cf (phase s [f0, f1]) j : ℤ) : Rg N) + E) ∧
        ∀ m V, Encodes t (levelQ l 0) m (phase s [f0, f1]) V →
          Encodes t (levelQ l 0) ((cf m j : ℤ) : Rg N) (phase s [g0, g1]) (V + t * ((N - 1) * B)) := by
  obtain ⟨xs, hx, hu⟩ := Repair.unpack_eq h pr
  rw [hu ev ct hct.1 hct.2.1]
  exact c41_unpack_partial h pr hev hx hct

/-- The ciphertexts of a query are ciphertexts of level zero. -/
theorem Spec.IsQuery.level (h : IsParams N t l variance P) {sk : SecretKey} (hk : IsKey P sk) (hv1 : 1 ≤ variance) (hv2 : variance ≤ 16)
    {fd : Nat} {v : List Nat} (hlen : v.length ≤ N) (hv : ∀ x ∈ v, x < 2 ^ 64) {q0 : BfvCipherText} {qs : List BfvCipherText}
    (hq : IsQuery N P l sk fd v q0 qs) : ∀ ct ∈ q0 :: qs, ct.params = P ∧ ct.level = 0 := by
  obtain ⟨⟨pr, tape, rng, t1, t2, t3⟩, -, hr⟩ := hq
  intro ct hct
  rcases List.mem_cons.mp hct with rfl | hct
  · obtain ⟨ct', f0, f1, c1, c2, -⟩ := c30_encrypt h hk pr hv1 hv2 (pt := ⟨P, 0, .poly, v⟩) rfl rfl hlen hv t1 t2
    obtain rfl := Except.ok.inj (t3.symm.trans c1)
    exact ⟨c2.1, c2.2.1⟩
  · obtain ⟨j, hj⟩ := List.mem_iff_getElem?.mp hct
    obtain ⟨pr, g, p, tape, rng, -, hp, t1, t2, t3⟩ := hr j ct hj
    obtain ⟨ct', f0, f1, e, c1, c2, -⟩ := c30_encrypt_poly h hk pr hv1 hv2 hp t1 t2
    obtain rfl := Except.ok.inj (t3.symm.trans c1)
    exact ⟨c2.1, c2.2.1⟩

/-- C80, for C44 and C53: with the corrected lines the answer of `decode` decrypts to the addressed row, for every dimension of at least two
rows and without an assumption on the count of dimensions or on the monomials. The query may be padded with zeros. -/
theorem c80_answer (h : IsParams N t l variance P) {sk : SecretKey} (hk : IsKey P sk) (pr pd : Profile) (hv1 : 1 ≤ variance)
    (hv2 : variance ≤ 16) (hl : l.length ≠ 1) (hN : N ≤ 2 ^ 31) {S : ℤ} (hS : Bdd S (keyRing N sk))
    {aTape : Nat → Nat → Nat → Nat → Nat} (ha : ∀ k j, TapeAt l 0 (aTape k j))
    {rng : Nat → Nat → Nat → Nat} (hr : ∀ k j i, rng k j i < 2 ^ 64) {a0 a1 : Nat → Nat → Nat → Nat} (ha0 : ∀ j, TapeAt l 0 (a0 j))
    (ha1 : ∀ j, TapeAt l 0 (a1 j)) {r0 r1 : Nat → Nat → Nat} (hr0 : ∀ j i, r0 j i < 2 ^ 64) (hr1 : ∀ j i, r1 j i < 2 ^ 64)
    {ev : Evaluation} {pr1 : Profile} (hev : Evaluation.build pr1 sk P aTape rng a0 a1 r0 r1 = .ok ev)
    {fd dim : Nat} {db : List Plaintext} (hdb : ∀ p ∈ db, p.values.length ≤ N) (hv : ∀ p ∈ db, ∀ a ∈ p.values, a < t) {srv : Server}
    {pr2 : Profile} (hsrv : Server.new pr2 fd dim db P = .ok srv)
    {i0 : Nat} {is : List Nat} (h0 : i0 < fd) (his : ∀ i ∈ is, i < dim) (hd : 2 ≤ dim) (hrows : db.length = fd * dim ^ is.length)
    (hfit : fd + dim * is.length ≤ N) (hmem : db.length < 2 ^ 64) {v : List Nat} {pr3 : Profile}
    (hv' : (Client.mk fd dim).encode pr3 (i0 :: is) db.length = .ok v) {q0 : BfvCipherText} {qs : List BfvCipherText}
    {z : Nat} (hz : v.length + z ≤ N) (hq : IsQuery N P l sk fd (v ++ List.replicate z 0) q0 qs) (h2t : 2 * t ≤ l.getD 0 0)
    (hnoise : 4 * answerNoise N t l fd dim is.length (2 * t * variance + 2 * t) (2 * variance) t S (switchNoise N l 0 * (2 * variance))
      (2 * variance) (2 * variance) ≤ levelQ l 0) :
    ∃ ct pt row, db[i0 + fd * address dim is]? = some row ∧ Repair.decode pr srv (q0 :: qs) ev P = .ok [ct] ∧
      sk.decrypt pd ct = .ok pt ∧ pt.values = (List.range N).map fun k => row.values.getD k 0 := by
  have hfd : 0 < fd := by omega
  have hpow : dim ^ is.length < 2 ^ 64 := by
    refine lt_of_le_of_lt ?_ hmem
    rw [hrows]
    exact Nat.le_mul_of_pos_left _ hfd
  have ht64 : t < 2 ^ 64 := by
    obtain ⟨_, _, _, hw, rfl, -⟩ := BfvP.params h
    exact hw.t_lt.trans (by norm_num)
  obtain ⟨srv', s1, s2, s3, s4, -⟩ := c43_new h pr2 fd dim hdb (fun p hp x hx => (hv p hp x hx).trans ht64)
  obtain rfl := Except.ok.inj (hsrv.symm.trans s1)
  have hlen : is.length < 2 ^ 32 := by
    have : is.length ≤ dim * is.length := Nat.le_mul_of_pos_left _ (by omega)
    omega
  obtain ⟨v', v1, v2, v3, v4⟩ := c42_encode pr3 (Client.mk fd dim) h0 his hpow hlen hrows
  obtain rfl := Except.ok.inj (hv'.symm.trans v1)
  have hvb := Client.bits (by dsimp only; omega) v2 v3 v4
  obtain ⟨xs, hx, hu⟩ := Repair.unpack_eq h pr
  have hdim := c80_dimensions pr srv (by rw [s2]; exact hfd) (by rw [s3]; exact hd) (k := is.length) (by rw [s2, s3, s4, hrows]) (by rw [s4]; exact hmem)
  have hlev := hq.level h hk hv1 hv2 (by simp; omega) (fun x hx => by
    rcases List.mem_append.mp hx with hx | hx
    · exact hvb x hx
    · rw [(List.mem_replicate.mp hx).2]; norm_num)
  unfold Repair.decode
  rw [Repair.decodeBy_congr pr _ srv (fun ct hct => hu ev ct (hlev ct hct).1 (hlev ct hct).2) ev P]
  exact Server.answer h hk pr pd hv1 hv2 hl hN hS ha hr ha0 ha1 hr0 hr1 hev hx hdb hv hsrv h0 his (by omega) hrows hfit hpow hv' hz hq hdim h2t hnoise

/-- C80, for C64: the whole protocol with the corrected lines, for every database, coordinates and randomness. -/
theorem c80_protocol (h : IsParams N t l variance P) (hv1 : 1 ≤ variance) (hv2 : variance ≤ 16)
    (hN2 : N ≤ 2 ^ 12) (ht : t ≤ 2 ^ 21) (hl : 4 ≤ l.length) (hq : ∀ q ∈ l, 2 ^ 61 ≤ q ∧ q < 2 ^ 62)
    -- profiles of client and server
    (pc ps : Profile)
    -- randomness of the keys
    {krng : Nat → Nat} (hkr : ∀ i, krng i < 2 ^ 64)
    {aTape : Nat → Nat → Nat → Nat → Nat} (ha : ∀ k j, TapeAt l 0 (aTape k j))
    {rng : Nat → Nat → Nat → Nat} (hr : ∀ k j i, rng k j i < 2 ^ 64) {a0 a1 : Nat → Nat → Nat → Nat} (ha0 : ∀ j, TapeAt l 0 (a0 j))
    (ha1 : ∀ j, TapeAt l 0 (a1 j)) {r0 r1 : Nat → Nat → Nat} (hr0 : ∀ j i, r0 j i < 2 ^ 64) (hr1 : ∀ j i, r1 j i < 2 ^ 64)
    -- database and coordinates
    {fd dim : Nat} (hd2 : 2 ≤ dim) {db : List Plaintext} (hdb : ∀ p ∈ db, p.values.length ≤ N) (hv : ∀ p ∈ db, ∀ x ∈ p.values, x < t)
    {i0 : Nat} {is : List Nat} (h0 : i0 < fd) (his : ∀ i ∈ is, i < dim) (hrows : db.length = fd * dim ^ is.length)
    (hfit : fd + dim * is.length ≤ N) (hmem : db.length < 2 ^ 64) :
    ∃ sk ev srv v, SecretKey.generate pc P krng = .ok sk ∧ Evaluation.build pc sk P aTape rng a0 a1 r0 r1 = .ok ev ∧
      Server.new ps fd dim db P = .ok srv ∧ (Client.mk fd dim).encode pc (i0 :: is) db.length = .ok v ∧
      (∃ q0 qs, IsQuery N P l sk fd v q0 qs) ∧
      ∀ q0 qs, IsQuery N P l sk fd v q0 qs → ∃ ct pt row, db[i0 + fd * address dim is]? = some row ∧
        Repair.decode ps srv (q0 :: qs) ev P = .ok [ct] ∧ sk.decrypt pc ct = .ok pt ∧
        pt.values = (List.range N).map fun k => row.values.getD k 0 := by
  have hN : 1 ≤ N := by
    obtain ⟨K, ext, rfl, -⟩ := BfvP.params h
    exact Nat.one_le_two_pow
  have hfd : 0 < fd := by omega
  have hpow : dim ^ is.length < 2 ^ 64 := by
    refine lt_of_le_of_lt ?_ hmem
    rw [hrows]
    exact Nat.le_mul_of_pos_left _ hfd
  obtain ⟨sk, k1, hk, hb⟩ := c30_generate h pc hv1 hv2 hkr
  obtain ⟨ev, e1, -⟩ := c41_build h hk pc hv1 hv2 (by omega) (by omega) ha hr ha0 ha1 hr0 hr1
  obtain ⟨srv, s1, s2, s3, s4, -⟩ := c43_new h ps fd dim hdb (fun p hp x hx => (hv p hp x hx).trans_le (by omega))
  have hlen : is.length < 2 ^ 32 := by
    have : is.length ≤ dim * is.length := Nat.le_mul_of_pos_left _ (by omega)
    omega
  obtain ⟨v, v1, v2, v3, v4⟩ := c42_encode pc (Client.mk fd dim) h0 his hpow hlen hrows
  have hvb := Client.bits (by dsimp only; omega) v2 v3 v4
  obtain ⟨q0, qs, hq0⟩ := c44_query h hk hv1 hv2 (v := v) (by dsimp only at v2; omega) hvb fd
  refine ⟨sk, ev, srv, v, k1, e1, s1, v1, ⟨q0, qs, hq0⟩, fun q0 qs hq' => ?_⟩
  have hlq : 2 ^ 61 ≤ l.getD 0 0 := by
    rw [List.getD_eq_getElem _ _ (by omega)]
    exact (hq _ (List.getElem_mem _)).1
  exact c80_answer h hk ps pc hv1 hv2 (by omega) (by omega) hb ha hr ha0 ha1 hr0 hr1 e1 hdb hv s1 h0 his hd2 hrows
    hfit hmem v1 (z := 0) (by dsimp only at v2; omega) (by simpa using hq') (by omega) (c64_noise_fits hN hN2 ht hl hq hv2 hfit (by omega) (by
      have : (variance : ℤ) ≤ 16 := by exact_mod_cast hv2
      linarith))

/-- The ciphertexts that the test `query` builds (src/evaluations.rs:444-453) are a query for the padded vector. -/
theorem Spec.query_of_test (h : TestParams N t l P) (pr : Profile) {sk : SecretKey} (hk : IsKey P sk) {v : List Nat}
    (hv : v.length ≤ N) (hv4 : 4 ≤ v.length) (hb : ∀ x ∈ v, x < 2 ^ 64) {aq : Nat → Nat → Nat} (haq : TapeAt l 0 aq) {rq : Nat → Nat}
    (hrq : ∀ i, rq i < 2 ^ 64) {a : Nat → Nat → Nat → Nat} (ha : ∀ j, TapeAt l 0 (a j)) {r : Nat → Nat → Nat} (hr : ∀ j i, r j i < 2 ^ 64) :
    ∃ q0 qs, Tests.queryCts pr P sk v aq rq a r = .ok (q0 :: qs) ∧ IsQuery N P l sk 4 (v ++ List.replicate (N - v.length) 0) q0 qs := by
  obtain ⟨c, hc, hci⟩ := h.ctx0
  obtain ⟨ct, f0, f1, c1, c2, -⟩ := h.enc pr hk (v := v ++ List.replicate (N - v.length) 0) (by simp; omega) (fun x hx => by
    rcases List.mem_append.mp hx with hx | hx
    · exact hb x hx
    · rw [(List.mem_replicate.mp hx).2]; norm_num) haq hrq .poly
  obtain ⟨p, p', p1, -, p3, p4⟩ := h.import_words pr hc (v := v.drop 4) (by simp; omega) (fun x hx => hb x (List.mem_of_mem_drop hx))
  obtain ⟨K, -, hNK, -⟩ := BfvP.params h.params
  subst hNK
  obtain ⟨ext, L, hw, hL, -, hml, -⟩ := Evaluation.level_zero h.params
  obtain rfl : c = L.qCtx := Option.some.inj (hc.symm.trans hL.q)
  have hg : L.qCtx.rns.garner.length = l.length := by
    obtain ⟨K, -, hw, h7⟩ := RqP.ctx hci
    rw [hw.core.rns.g_len, ← hw.core.m64, h7]
  have hlen : L.qCtx.moduli64.length = l.length := by rw [BfvP.len_level hL]; simp [levelModuli, hml]
  have hp' := (BfvP.polyAt_iff hL _ _).mp p4
  have hdrop : msgRing (2 ^ K) ((v ++ List.replicate (2 ^ K - v.length) 0).drop 4) = msgRing (2 ^ K) (v.drop 4) := by
    rw [List.drop_append_of_le_length hv4, TestParams.msgRing_pad]
  have hcts : ∀ j, ∃ ct q, j < l.length → p'.mulBig pr (Ksk.garnerAt L.qCtx j) = .ok q ∧ sk.encryptPoly pr q (a j) (r j) = .ok ct ∧
      PolyAt P 0 (msgRing (2 ^ K) (v.drop 4) * (((Ksk.garnerAt L.qCtx j : ℤ)) : Rg (2 ^ K))) q := by
    intro j
    have hq : PolyAt P 0 (msgRing (2 ^ K) (v.drop 4) * (((Ksk.garnerAt L.qCtx j : ℤ)) : Rg (2 ^ K)))
        (enc L.qCtx .ntt (msgRing (2 ^ K) (v.drop 4) * (((Ksk.garnerAt L.qCtx j : ℤ)) : Rg (2 ^ K)))) := (BfvP.polyAt_iff hL _ _).mpr rfl
    obtain ⟨ct, g0, g1, e, d1, -⟩ := c30_encrypt_poly h.params hk pr (by norm_num) (by norm_num) hq (ha j) (hr j)
    exact ⟨ct, _, fun _ => ⟨by rw [hp', mulBig_enc hL.wf.ctx], d1, hq⟩⟩
  choose cts qq hq using hcts
  have hm : Tests.garnerCts pr L.qCtx sk p' a r = .ok ((L.qCtx.rns.garner.zipIdx).map fun x => cts x.2) := by
    unfold Tests.garnerCts
    apply mapR_ok
    rintro ⟨x, j⟩ hx
    obtain ⟨hx1, hx2⟩ := List.mem_zipIdx' hx
    dsimp only at hx1 hx2 ⊢
    obtain ⟨d1, d2, -⟩ := hq j (by omega)
    have hgx : Ksk.garnerAt L.qCtx j = x := by
      unfold Ksk.garnerAt
      rw [getD_eq_getElem' _ _ _ hx1, hx2]
    rw [hgx] at d1
    rw [d1, res_ok_bind, d2]
  refine ⟨ct, (L.qCtx.rns.garner.zipIdx).map fun x => cts x.2, ?_, ⟨pr, aq, rq, haq, hrq, c1⟩, by simp [hg], fun j y hj => ?_⟩
  · unfold Tests.queryCts
    rw [h.plain pr hv, res_ok_bind, c1, res_ok_bind, idx_of hc, res_ok_bind, if_pos hv4, res_ok_bind]
    dsimp only
    rw [p1, res_ok_bind, p3, res_ok_bind, hm, res_ok_bind]
  · have hjl : j < l.length := by
      have := (List.getElem?_eq_some_iff.mp hj).1
      simpa [hg] using this
    have hy : y = cts j := by
      rw [List.getElem?_map, List.getElem?_zipIdx, List.getElem?_eq_getElem (by omega)] at hj
      simpa using hj.symm
    obtain ⟨-, d2, d3⟩ := hq j hjl
    refine ⟨pr, (Ksk.garnerAt L.qCtx j : ℤ), qq j, a j, r j, ?_, ?_, ha j, hr j, hy ▸ d2⟩
    · rw [← hml]
      exact BfvP.garner_isGarner hL (by omega)
    · rw [hdrop]
      exact d3

variable {aTape : Nat → Nat → Nat → Nat → Nat} {rng : Nat → Nat → Nat → Nat} {a0 a1 : Nat → Nat → Nat → Nat} {r0 r1 : Nat → Nat → Nat}

/-- C80, for C71: the test `query` of evaluations.rs with the corrected lines returns the addressed row, for every database and coordinates
that fit and all randomness. The test reads the selectors of the first dimension with the literal range `[4..]`, so the first dimension is 4. -/
theorem c80_query (h : TestParams N t l P) (hl : 4 ≤ l.length) (hb : ∀ q ∈ l, 2 ^ 61 ≤ q ∧ q < 2 ^ 62) (pr : Profile) {db : List (List Nat)}
    (hdb : ∀ v ∈ db, v.length ≤ N ∧ ∀ x ∈ v, x < t) {skRng : Nat → Nat} (hs : ∀ i, skRng i < 2 ^ 64) {dim i0 : Nat} {is : List Nat}
    (hd : 2 ≤ dim) (h0 : i0 < 4) (his : ∀ i ∈ is, i < dim) (hrows : db.length = 4 * dim ^ is.length)
    (hfit : 4 + dim * is.length ≤ N) (hmem : db.length < 2 ^ 64)
    (ht : EvalTapes l aTape rng a0 a1 r0 r1) {aq : Nat → Nat → Nat} (haq : TapeAt l 0 aq) {rq : Nat → Nat} (hrq : ∀ i, rq i < 2 ^ 64)
    {a : Nat → Nat → Nat → Nat} (ha : ∀ j, TapeAt l 0 (a j)) {r : Nat → Nat → Nat} (hr : ∀ j i, r j i < 2 ^ 64) :
    ∃ row, db[i0 + 4 * address dim is]? = some row ∧
      Repair.query pr P db skRng (i0 :: is) 4 dim aTape rng a0 a1 r0 r1 aq rq a r = .ok ((List.range N).map fun k => row.getD k 0) := by
  obtain ⟨sk, k1, k2, k3⟩ := h.key pr hs
  obtain ⟨ev, e1⟩ := h.build pr k2 ht
  have hN := h.deg
  have ht21 := h.pt
  have hmap : mapR (fun v => Plaintext.new pr P v 0 .poly) db =
      .ok (db.map fun v => (⟨P, 0, .poly, v ++ List.replicate (N - v.length) 0⟩ : Plaintext)) :=
    mapR_ok fun v hv => h.plain pr (hdb v hv).1
  generalize hdb' : db.map (fun v => (⟨P, 0, .poly, v ++ List.replicate (N - v.length) 0⟩ : Plaintext)) = db' at hmap
  have ht0 : 0 < t := by
    obtain ⟨_, _, _, hw, rfl, -⟩ := BfvP.params h.params
    exact hw.t_prime.pos
  have hlen' : db'.length = db.length := by rw [← hdb', List.length_map]
  have hl1 : ∀ p ∈ db', p.values.length ≤ N := fun p hp => by
    rw [← hdb'] at hp
    obtain ⟨v, hv, rfl⟩ := List.mem_map.mp hp
    have := (hdb v hv).1
    simp; omega
  have hv1 : ∀ p ∈ db', ∀ x ∈ p.values, x < t := fun p hp x hx => by
    rw [← hdb'] at hp
    obtain ⟨v, hv, rfl⟩ := List.mem_map.mp hp
    rcases List.mem_append.mp hx with hx | hx
    · exact (hdb v hv).2 x hx
    · rw [(List.mem_replicate.mp hx).2]; exact ht0
  obtain ⟨srv, s1, -⟩ := c43_new h.params pr 4 dim hl1 (fun p hp x hx => (hv1 p hp x hx).trans (by omega))
  have hpow : dim ^ is.length < 2 ^ 64 := by omega
  have hlen : is.length < 2 ^ 32 := by
    have : is.length ≤ dim * is.length := Nat.le_mul_of_pos_left _ (by omega)
    omega
  obtain ⟨v, v1, v2, v3, v4⟩ := c42_encode pr (Client.mk 4 dim) h0 his hpow hlen (dbRows := db'.length) (by rw [hlen', hrows])
  have hvb := Client.bits (by dsimp only; omega) v2 v3 v4
  dsimp only at v2
  obtain ⟨q0, qs, q1, q2⟩ := Spec.query_of_test h pr k2 (v := v) (by omega) (by omega) hvb haq hrq ha hr
  have hlq : 2 ^ 61 ≤ l.getD 0 0 := by
    rw [List.getD_eq_getElem _ _ (by omega)]
    exact (hb _ (List.getElem_mem _)).1
  obtain ⟨ct, pt, row, w1, w2, w3, w4⟩ := c80_answer h.params k2 pr pr (by norm_num) (by norm_num) (by omega) (by omega) k3 ht.a ht.r ht.a0 ht.a1
    ht.r0 ht.r1 e1 hl1 hv1 s1 h0 his hd (by rw [hlen', hrows]) hfit (by rw [hlen']; exact hmem) v1 (z := N - v.length) (by omega) q2 (by omega)
    (c64_noise_fits h.N_pos (by omega) (by omega) hl hb (by norm_num) hfit (by norm_num) (by norm_num))
  rw [← hdb', List.getElem?_map, Option.map_eq_some_iff] at w1
  obtain ⟨row', y1, rfl⟩ := w1
  refine ⟨row', y1, ?_⟩
  unfold Repair.query
  rw [hmap, res_ok_bind, k1, res_ok_bind, v1, res_ok_bind, q1, res_ok_bind, e1, res_ok_bind, s1, res_ok_bind, w2, res_ok_bind,
    show idx [ct] 0 = .ok ct from rfl, res_ok_bind, w3, res_ok_bind, w4]
  congr 1
  apply List.map_congr_left
  intro k hk
  dsimp only
  by_cases hkl : k < row'.length
  · simp [List.getD, List.getElem?_append_left hkl]
  · rw [not_lt] at hkl
    simp only [List.getD, List.getElem?_append_right hkl, List.getElem?_replicate, List.getElem?_eq_none hkl]
    split_ifs <;> simp

/-- The test with its own database and coordinates, which panics as written, prints row 15. -/
example : ∃ P, Repair.query .release P ((List.range 16).map fun i => [i, i, i, i]) (fun i => i % 1000) [3, 1, 1] 4 2 (fun _ _ _ _ => 0)
      (fun _ _ i => i % 1000) (fun _ _ _ => 0) (fun _ _ _ => 0) (fun _ i => i % 1000) (fun _ i => i % 1000) (fun _ _ => 0) (fun i => i % 1000)
      (fun _ _ _ => 0) (fun _ i => i % 1000) = .ok ([15, 15, 15, 15] ++ List.replicate 60 0) := by
  obtain ⟨P, l, h, hl, hb⟩ := Ex.test_eval
  have ht := Ex.tape0 (i := 0) (Ex.test_gt h)
  obtain ⟨row, h1, h2⟩ := c80_query h (by omega) hb .release (db := (List.range 16).map fun i => [i, i, i, i]) (by decide +kernel) Ex.wordTape
    (dim := 2) (i0 := 3) (is := [1, 1]) (by norm_num) (by norm_num) (by simp) (by decide) (by norm_num) (by decide)
    (Ex.test_tapes h) ht Ex.wordTape (fun _ => ht) (fun _ => Ex.wordTape)
  obtain rfl : row = [15, 15, 15, 15] := (Option.some.inj h1).symm
  exact ⟨P, h2⟩

/-- A database of three dimensions of three rows, where the code counts the dimensions wrong (`c53_dimensions_iff`): 108 rows. -/
example : ∃ P, Repair.query .release P ((List.range 108).map fun i => [i]) (fun i => i % 1000) [2, 0, 2, 1] 4 3 (fun _ _ _ _ => 0)
      (fun _ _ i => i % 1000) (fun _ _ _ => 0) (fun _ _ _ => 0) (fun _ i => i % 1000) (fun _ i => i % 1000) (fun _ _ => 0) (fun i => i % 1000)
      (fun _ _ _ => 0) (fun _ i => i % 1000) = .ok (62 :: List.replicate 63 0) := by
  obtain ⟨P, l, h, hl, hb⟩ := Ex.test_eval
  have ht := Ex.tape0 (i := 0) (Ex.test_gt h)
  obtain ⟨row, h1, h2⟩ := c80_query h (by omega) hb .release (db := (List.range 108).map fun i => [i]) (by decide +kernel) Ex.wordTape
    (dim := 3) (i0 := 2) (is := [0, 2, 1]) (by norm_num) (by norm_num) (by simp) (by decide) (by norm_num) (by decide)
    (Ex.test_tapes h) ht Ex.wordTape (fun _ => ht) (fun _ => Ex.wordTape)
  obtain rfl : row = [62] := (Option.some.inj h1).symm
  exact ⟨P, h2⟩

/-- `c80_protocol` on eight rows: the hypotheses are met, and every query for row 5 is answered by it. -/
example : ∃ P l sk ev srv v, TestParams 64 1785857 l P ∧ SecretKey.generate .debug P (fun i => i % 1000) = .ok sk ∧
    Evaluation.build .debug sk P (fun _ _ _ _ => 0) (fun _ _ i => i % 1000) (fun _ _ _ => 0) (fun _ _ _ => 0) (fun _ i => i % 1000)
      (fun _ i => i % 1000) = .ok ev ∧
    Server.new .release 4 2 ((List.range 8).map fun i => (⟨P, 0, .poly, [i, 100]⟩ : Plaintext)) P = .ok srv ∧
    (Client.mk 4 2).encode .debug [1, 1] 8 = .ok v ∧ (∃ q0 qs, IsQuery 64 P l sk 4 v q0 qs) ∧
    ∀ q0 qs, IsQuery 64 P l sk 4 v q0 qs → ∃ ct pt, Repair.decode .release srv (q0 :: qs) ev P = .ok [ct] ∧ sk.decrypt .debug ct = .ok pt ∧
      pt.values = 5 :: 100 :: List.replicate 62 0 := by
  obtain ⟨P, l, h, hl, hb⟩ := Ex.test_eval
  have ht := Ex.test_tapes h
  obtain ⟨sk, ev, srv, v, h1, h2, h3, h4, h5, h6⟩ := c80_protocol h.params (by norm_num) (by norm_num) (by norm_num) (by norm_num) (by omega) hb
    .debug .release Ex.wordTape ht.a ht.r ht.a0 ht.a1 ht.r0 ht.r1 (fd := 4) (dim := 2) (by norm_num)
    (db := (List.range 8).map fun i => (⟨P, 0, .poly, [i, 100]⟩ : Plaintext)) (fun p hp => by
      obtain ⟨i, -, rfl⟩ := List.mem_map.mp hp
      simp) (fun p hp x hx => by
      obtain ⟨i, hi, rfl⟩ := List.mem_map.mp hp
      have := List.mem_range.mp hi
      simp only [List.mem_cons, List.not_mem_nil, or_false] at hx
      rcases hx with rfl | rfl <;> omega) (i0 := 1) (is := [1]) (by norm_num) (by simp) (by simp) (by norm_num) (by simp)
  refine ⟨P, l, sk, ev, srv, v, h, h1, h2, h3, by simpa using h4, h5, fun q0 qs hq => ?_⟩
  obtain ⟨ct, pt, row, r1, r2, r3, r4⟩ := h6 q0 qs hq
  obtain rfl : row = ⟨P, 0, .poly, [5, 100]⟩ := (Option.some.inj r1).symm
  exact ⟨ct, pt, r2, r3, r4.trans (by dsimp only; decide)⟩

/-- `c80_unpack` on an actual encryption of `[3, 1, 16, 0, 2, 0, 0, 9]`, with actual evaluation keys: the phases of the eight ciphertexts. -/
example : ∃ P sk ev ct bits, IsParams 8 17 Ex.mods 10 P ∧ IsKey P sk ∧ Repair.unpack .debug ev ct = .ok bits ∧ bits.length = 8 ∧
    ∃ c, ∃ g0 g1 : Rg 8, bits[7]? = some c ∧ IsCt P 0 [g0, g1] c ∧
      Encodes 17 (levelQ Ex.mods 0) ((9 : ℤ) : Rg 8) (phase (keyRing 8 sk) [g0, g1]) (374 + 17 * (7 * (switchNoise 8 Ex.mods 0 * 20))) := by
  obtain ⟨P, sk, ct, f0, f1, h, hk, -, hct, he⟩ := Ex.setup
  obtain ⟨ev, h1, h2⟩ := c41_build h hk .debug (by norm_num) (by norm_num) (by decide) (by norm_num) (aTape := fun _ _ _ _ => 0) (fun _ => Ex.tapes)
    (rng := fun _ _ i => i % 1000) (fun _ _ => Ex.wordTape) Ex.tapes Ex.tapes (fun _ => Ex.wordTape) (fun _ => Ex.wordTape)
  obtain ⟨bits, b1, b2, b3⟩ := c80_unpack h .debug h2 hct
  obtain ⟨c, g0, g1, E, c1, c2, -, -, c5⟩ := b3 7 (by norm_num)
  have := c5 _ _ he
  rw [show cf (msgRing 8 [3, 1, 16, 0, 2, 0, 0, 9]) 7 = 9 by unfold msgRing; rw [cf_ofCoeffs (by norm_num) _ (by norm_num)]; rfl] at this
  exact ⟨P, sk, ev, ct, bits, h, hk, b1, b2, c, g0, g1, c1, c2, by norm_num at this ⊢; exact this⟩

end OnionPIR
