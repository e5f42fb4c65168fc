import Verif.Proofs.CostClient
import Verif.Props.Cost
import Verif.Props.Succeeds
import Verif.Props.Privacy
/-
C128: the work of the client: encryption, decryption, the generation of keys and of queries, exactly.
-/
namespace OnionPIR
open Rg Poly Spec Cw

variable {N t : Nat} {l : List Nat} {variance : Nat} {P : BfvParameters}

/-- A level with the sizes of its context. -/
theorem Shape.levelDim (h : IsParams N t l variance P) {i : Nat} (hi : i < l.length) : ∃ K c d, N = 2 ^ K ∧ 3 ≤ K ∧ K < 64 ∧ P.degree = 2 ^ K ∧
    P.qCtxs[i]? = some c ∧ c.WF K ∧ c.Dim K (l.length - i) ∧ c.rns.moduli.length = l.length - i ∧ c.rns.garner.length = l.length - i ∧
    P.ctxLevel c = some i ∧ P.deltaTs[i]? = some d ∧ d.Dim c .ntt := by
  obtain ⟨K, ext, rfl, hw, rfl, rfl, -⟩ := BfvP.params h
  obtain ⟨L, hL⟩ := hw.levels i hi
  have hd := ctxDim hL.wf.ctx
  have hn : L.qCtx.moduli64.length = P.ciphertextModuli.length - i := by
    rw [BfvP.len_level hL]
    simp [levelModuli]
  have hm := Ksk.moduli_len hL.wf.ctx
  have hg : L.qCtx.rns.garner.length = L.qCtx.moduli64.length := by rw [hL.wf.ctx.core.rns.g_len, hL.wf.ctx.core.m64]
  rw [hn] at hd hm hg
  have hops : 0 < L.qCtx.nttOps.length := by rw [hd.ops]; omega
  obtain ⟨psi, psiInv, hop⟩ := hL.wf.ctx.core.ops _ (List.getElem_mem hops)
  obtain ⟨δ, hδ, -⟩ := hL.wf.delta
  exact ⟨K, L.qCtx, L.deltaT, rfl, hop.three_le, by have := hop.K_le; omega, hw.deg, hL.q, hL.wf.ctx, hd, hm, hg, BfvParameters.ctxLevel_at hw hL, hL.del,
    polyDim hL.wf.ctx hL.q (of_polyAt h ((BfvP.polyAt_iff hL _ _).mpr hδ))⟩

/-- C128: the counting copies compute what the functions of the model compute: for all arguments, in both builds. -/
theorem c128_values (pr : Profile) :
    (∀ (sk : SecretKey) p a r, (sk.encryptPolyC pr p a r).val = sk.encryptPoly pr p a r) ∧ (∀ (sk : SecretKey) pt a r, (sk.encryptC pr pt a r).val = sk.encrypt pr pt a r) ∧
    (∀ (sk : SecretKey) ct, (sk.decryptC pr ct).val = sk.decrypt pr ct) ∧ (∀ sk p i j a r, (Ksk.newC pr sk p i j a r).val = Ksk.new pr sk p i j a r) ∧
    (∀ sk s i a r, (GaliosKey.newC pr sk s i a r).val = GaliosKey.new pr sk s i a r) ∧
    (∀ sk i a r, (RelinearizationKey.newC pr sk i a r).val = RelinearizationKey.new pr sk i a r) ∧
    (∀ sk m a0 a1 r0 r1, (RgswCt.encryptPolyC pr sk m a0 a1 r0 r1).val = RgswCt.encryptPoly pr sk m a0 a1 r0 r1) ∧
    (∀ sk P a r a0 a1 r0 r1, (Evaluation.buildC pr sk P a r a0 a1 r0 r1).val = Evaluation.build pr sk P a r a0 a1 r0 r1) ∧
    ∀ P sk enc aq rq a r, (Tests.queryCtsC pr P sk enc aq rq a r).val = Tests.queryCts pr P sk enc aq rq a r :=
  ⟨SecretKey.encryptPolyC_val pr, SecretKey.encryptC_val pr, SecretKey.decryptC_val pr, Ksk.newC_val pr, GaliosKey.newC_val pr, RelinearizationKey.newC_val pr,
    RgswCt.encryptPolyC_val pr, Evaluation.buildC_val pr, Tests.queryCtsC_val pr⟩

/-- C128: an encryption of a message at level `i`, with `n` moduli left: `3n` transforms and `2n` products of rows. -/
theorem c128_encrypt (h : IsParams N t l variance P) {sk : SecretKey} (hk : IsKey P sk) (pr : Profile) (hv1 : 1 ≤ variance) (hv2 : variance ≤ 16)
    {pt : Plaintext} (hp : pt.params = P) (hlev : pt.level < l.length) (hlen : pt.values.length ≤ N) (hv : ∀ x ∈ pt.values, x < 2 ^ 64)
    {a : Nat → Nat → Nat} (ha : TapeAt l pt.level a) {r : Nat → Nat} (hr : ∀ i, r i < 2 ^ 64) :
    ∃ ct, (sk.encryptC pr pt a r).val = .ok ct ∧ (sk.encryptC pr pt a r).work = workOf N (3 * (l.length - pt.level)) (2 * (l.length - pt.level)) := by
  obtain ⟨ct, hc⟩ := (c106_encrypt h hk pr hp hv ha hr).mpr ⟨hlev, hlen, hv1, hv2⟩
  rw [← SecretKey.encryptC_val] at hc
  obtain ⟨K, c, d, rfl, hK, -, -, hq, -, hcd, -, -, -, hd, hdd⟩ := Shape.levelDim h hlev
  refine ⟨ct, hc, ?_⟩
  subst hp
  rw [(SecretKey.encryptC_costs pr hcd hq hd hdd sk a r ct hc).1]
  unfold workOf
  rw [Shape.halves hK]

/-- C128: a decryption of a ciphertext of `m` components, whatever its contents: `2n` transforms and `(2m - 1)n` products of rows. The scaling is not counted. -/
theorem c128_decrypt (h : IsParams N t l variance P) {sk : SecretKey} (hk : IsKey P sk) (pr : Profile) {ct : BfvCipherText} {i m : Nat} (hm : 0 < m)
    (hct : ShapedCt P i m ct) : ∃ pt, (sk.decryptC pr ct).val = .ok pt ∧ (sk.decryptC pr ct).work = workOf N (2 * (l.length - i)) ((2 * m - 1) * (l.length - i)) := by
  obtain ⟨pt, hp, -⟩ := c99_decrypt h hk pr hm hct
  rw [← SecretKey.decryptC_val] at hp
  obtain ⟨h1, h2, h3, h4⟩ := id hct
  have hi : i < l.length := by
    obtain ⟨p, hp'⟩ : ∃ p, p ∈ ct.cts := by
      rw [← List.length_pos_iff_exists_mem, h3]; exact hm
    obtain ⟨K, ext, rfl, hw, rfl, rfl, -⟩ := BfvP.params h
    rw [← hw.nLevels]
    exact (List.getElem?_eq_some_iff.mp (h4 p hp').1).1
  obtain ⟨K, c, d, rfl, hK, -, -, hq, hc, hcd, -⟩ := Shape.levelDim h hi
  refine ⟨pt, hp, ?_⟩
  rw [(SecretKey.decryptC_costs pr hcd sk (Shape.ctDim hc hq hct) pt hp).1, h3]
  unfold workOf
  rw [Shape.halves hK, show 2 * (m - 1) + 1 = 2 * m - 1 by omega]

/-- C128: a key-switching key, a relinearization key and an RGSW ciphertext of level `i`. -/
theorem c128_keys (h : IsParams N t l variance P) {sk : SecretKey} (hk : IsKey P sk) (pr : Profile) (hv1 : 1 ≤ variance) (hv2 : variance ≤ 16)
    {i n : Nat} {m : Rg N} {p : Poly} (hp : PolyAt P i m p) (hn : l.length = n + i) {a0 a1 : Nat → Nat → Nat → Nat} (ha0 : ∀ j, TapeAt l i (a0 j))
    (ha1 : ∀ j, TapeAt l i (a1 j)) {r0 r1 : Nat → Nat → Nat} (hr0 : ∀ j i, r0 j i < 2 ^ 64) (hr1 : ∀ j i, r1 j i < 2 ^ 64) :
    (∃ k, (Ksk.newC pr sk p i i a0 r0).val = .ok k ∧ (Ksk.newC pr sk p i i a0 r0).work = workOf N (2 * n ^ 2 + n) (2 * n ^ 2)) ∧
    (∃ k, (RelinearizationKey.newC pr sk i a0 r0).val = .ok k ∧ (RelinearizationKey.newC pr sk i a0 r0).work = workOf N (2 * n ^ 2 + 2 * n) (2 * n ^ 2 + n)) ∧
    ∃ g, (RgswCt.encryptPolyC pr sk p a0 a1 r0 r1).val = .ok g ∧
      (RgswCt.encryptPolyC pr sk p a0 a1 r0 r1).work = workOf N (4 * n ^ 2 + 3 * n) (4 * n ^ 2 + n) := by
  have hs := Shape.of_polyAt h hp
  have hi : i < l.length := by
    obtain ⟨K, ext, rfl, hw, rfl, rfl, -⟩ := BfvP.params h
    exact BfvP.level_lt hw hp
  obtain ⟨k, e1⟩ := (c106_ksk h hk pr hp ha0 hr0).mpr ⟨hv1, hv2⟩
  obtain ⟨k', e2⟩ := (c106_relinearization h hk pr ha0 hr0).mpr ⟨hi, hv1, hv2⟩
  obtain ⟨g, e3⟩ := (c106_rgsw h hk pr hp ha0 ha1 hr0 hr1).mpr ⟨hv1, hv2⟩
  rw [← Ksk.newC_val] at e1
  rw [← RelinearizationKey.newC_val] at e2
  rw [← RgswCt.encryptPolyC_val] at e3
  obtain ⟨K, c, d, hNK, hK, -, -, hq, hc, hcd, hm, hg, hlev, -, -⟩ := Shape.levelDim h hi
  rw [hn, Nat.add_sub_cancel] at hcd hm hg
  have hpd := Shape.polyDim hc hq hs
  have hP := hk.1
  subst hP
  subst hNK
  refine ⟨⟨k, e1, ?_⟩, ⟨k', e2, ?_⟩, g, e3, ?_⟩ <;> unfold workOf <;> rw [Shape.halves hK]
  · exact (Ksk.newC_costs pr hcd hm hg hq hpd a0 r0 k e1).1
  · exact (RelinearizationKey.newC_costs pr hcd hm hg hq a0 r0 k' e2).1
  · exact (RgswCt.encryptPolyC_costs pr hcd hm hg hq hlev hpd a0 a1 r0 r1 g e3).1

/-- C128: a Galois key of level `i`, for every odd exponent. -/
theorem c128_galois (h : IsParams N t l variance P) {sk : SecretKey} (hk : IsKey P sk) (pr : Profile) (hv1 : 1 ≤ variance) (hv2 : variance ≤ 16)
    (hl : l.length ≠ 1) (hN : N ≤ 2 ^ 31) {i n : Nat} {c : RqContext} (hi : P.qCtxs[i]? = some c) (hn : l.length = n + i) {e : Nat} (he : Odd e)
    {a : Nat → Nat → Nat → Nat} (ha : ∀ j, TapeAt l i (a j)) {r : Nat → Nat → Nat} (hr : ∀ j i, r j i < 2 ^ 64) :
    ∃ sub g, Substitution.new pr c e = .ok sub ∧ (GaliosKey.newC pr sk sub i a r).val = .ok g ∧
      (GaliosKey.newC pr sk sub i a r).work = workOf N (2 * n ^ 2 + 2 * n) (2 * n ^ 2) := by
  obtain ⟨sub, s1, s2⟩ := c106_galois h hk pr hN hi he ha hr
  obtain ⟨g, hg'⟩ := s2.mpr ⟨hl, hv1, hv2⟩
  rw [← GaliosKey.newC_val] at hg'
  have hi' : i < l.length := by
    obtain ⟨K, ext, rfl, hw, rfl, rfl, -⟩ := BfvP.params h
    rw [← hw.nLevels]
    exact (List.getElem?_eq_some_iff.mp hi).1
  obtain ⟨K, c', d, hNK, hK, -, -, hq, hc, hcd, hm, hg, -⟩ := Shape.levelDim h hi'
  rw [hn, Nat.add_sub_cancel] at hcd hm hg
  have hP := hk.1
  subst hP
  subst hNK
  refine ⟨sub, g, s1, hg', ?_⟩
  rw [(GaliosKey.newC_costs pr hcd hm hg hq sub a r g hg').1]
  unfold workOf
  rw [Shape.halves hK]

/-- C128: the evaluation keys of a client: `log N` Galois keys and an RGSW encryption of the secret key. -/
theorem c128_build (h : IsParams N t l variance P) {sk : SecretKey} (hk : IsKey P sk) (pr : Profile) (hv1 : 1 ≤ variance) (hv2 : variance ≤ 16)
    (hl : l.length ≠ 1) (hN : N ≤ 2 ^ 31) {a : Nat → Nat → Nat → Nat → Nat} (ha : ∀ k j, TapeAt l 0 (a k j)) {r : Nat → Nat → Nat → Nat}
    (hr : ∀ k j i, r k j i < 2 ^ 64) {a0 a1 : Nat → Nat → Nat → Nat} (ha0 : ∀ j, TapeAt l 0 (a0 j)) (ha1 : ∀ j, TapeAt l 0 (a1 j)) {r0 r1 : Nat → Nat → Nat}
    (hr0 : ∀ j i, r0 j i < 2 ^ 64) (hr1 : ∀ j i, r1 j i < 2 ^ 64) :
    ∃ ev, (Evaluation.buildC pr sk P a r a0 a1 r0 r1).val = .ok ev ∧ (Evaluation.buildC pr sk P a r a0 a1 r0 r1).work =
      workOf N (Nat.log2 N * (2 * l.length ^ 2 + 2 * l.length) + (4 * l.length ^ 2 + 4 * l.length)) (Nat.log2 N * (2 * l.length ^ 2) + (4 * l.length ^ 2 + l.length)) := by
  obtain ⟨ev, he⟩ := (c106_build h hk pr hN ha hr ha0 ha1 hr0 hr1).mpr ⟨hl, hv1, hv2⟩
  rw [← Evaluation.buildC_val] at he
  refine ⟨ev, he, ?_⟩
  obtain ⟨K, c, d, hNK, hK, hK', hdeg, hq, hc, hcd, hm, hg, hlev, -⟩ := Shape.levelDim h (i := 0) (Privacy.pos h)
  have hP := hk.1
  subst hP
  subst hNK
  rw [(Evaluation.buildC_costs pr hcd hm hg hq hlev (by rw [hdeg]; exact RnsScaler.ilog2_two_pow pr hK') a r a0 a1 r0 r1 ev he).1]
  unfold workOf
  rw [Shape.halves hK, Nat.log2_two_pow]
  rfl

/-- C128: the ciphertexts of a query: one encryption of the encoded coordinates, and one of a multiple of the further selectors for every modulus. -/
theorem c128_query (h : IsParams N t l variance P) {sk : SecretKey} (hk : IsKey P sk) (pr : Profile) (hv1 : 1 ≤ variance) (hv2 : variance ≤ 16)
    {v : List Nat} (hv : v.length ≤ N) (hv4 : 4 ≤ v.length) (hvw : ∀ x ∈ v, x < 2 ^ 64) {aq : Nat → Nat → Nat} (haq : TapeAt l 0 aq) {rq : Nat → Nat}
    (hrq : ∀ i, rq i < 2 ^ 64) {a : Nat → Nat → Nat → Nat} (ha : ∀ j, TapeAt l 0 (a j)) {r : Nat → Nat → Nat} (hr : ∀ j i, r j i < 2 ^ 64) :
    ∃ qs, (Tests.queryCtsC pr P sk v aq rq a r).val = .ok qs ∧ qs.length = l.length + 1 ∧
      (Tests.queryCtsC pr P sk v aq rq a r).work = workOf N (3 * l.length ^ 2 + 4 * l.length) (2 * l.length ^ 2 + 2 * l.length) := by
  have hl0 := Privacy.pos h
  obtain ⟨K, c, d, hNK, hK, hK', hdeg, hq, hc, hcd, hm, hg, hlev, hd, hdd⟩ := Shape.levelDim h (i := 0) hl0
  obtain ⟨c', hc', hci⟩ := Privacy.ctx0 h
  obtain rfl := Option.some.inj (hc'.symm.trans hq)
  have hpad : ∀ x ∈ v ++ List.replicate (N - v.length) 0, x < 2 ^ 64 := fun x hx => by
    rcases List.mem_append.mp hx with hx | hx
    · exact hvw x hx
    · rw [(List.mem_replicate.mp hx).2]; norm_num
  obtain ⟨q0, e0⟩ := (c106_encrypt h hk pr (pt := ⟨P, 0, .poly, v ++ List.replicate (N - v.length) 0⟩) rfl hpad haq hrq).mpr ⟨hl0, by simp; omega, hv1, hv2⟩
  obtain ⟨q, q1, q2⟩ := c25_from_u64 hci pr (a := v.drop 4) (by simp; omega) (fun x hx => hvw x (List.mem_of_mem_drop hx))
  have q3 := TestParams.denotes_msg hci (Privacy.N_pos h) (by simp) q2
  obtain ⟨q', r1, -, -, -, -, r2⟩ := c20_round_trip hci pr q2.1 (r := .powerBasis) (r' := .ntt) (by simp) (by simp) q2.2.1 q2.2.2.1
  have hq' : PolyAt P 0 (msgRing N (v.drop 4)) q' := ⟨_, hq, (r2 _).mp q3⟩
  have hall : ∀ x : Nat × Nat, ∃ ct, (do let p ← q'.mulBig pr x.1; sk.encryptPoly pr p (a x.2) (r x.2)) = .ok ct := fun x => by
    obtain ⟨s, g, s1, s2⟩ := Privacy.mulBig h pr hq' x.1
    obtain ⟨ct, -, -, -, s3, -⟩ := c30_encrypt_poly h hk pr hv1 hv2 s2 (ha x.2) (hr x.2)
    exact ⟨ct, by rw [s1, res_ok_bind]; exact s3⟩
  choose F hF using hall
  have hqs : Tests.queryCts pr P sk v aq rq a r = .ok (q0 :: (c'.rns.garner.zipIdx).map F) := by
    unfold Tests.queryCts Tests.garnerCts
    rw [Privacy.plain h pr hv, res_ok_bind, e0, res_ok_bind, idx_of hq, res_ok_bind, if_pos hv4, res_ok_bind]
    dsimp only
    rw [q1, res_ok_bind, r1, res_ok_bind, mapR_ok (g := F) fun x _ => hF x, res_ok_bind]
  rw [← Tests.queryCtsC_val] at hqs
  refine ⟨_, hqs, by simp [hg], ?_⟩
  subst hNK
  rw [(Tests.queryCtsC_costs pr hcd hm hg hq hd hdd v aq rq a r _ hqs).1]
  unfold workOf
  rw [Shape.halves hK]
  rfl

/-! ### Non-vacuity -/

/-- Degree 8 and three moduli: an encryption and its decryption, an RGSW ciphertext, a Galois key, the evaluation keys and a query. -/
example : ∃ P sk ct pt p g sub gk ev qs, IsParams 8 17 Ex.mods 10 P ∧ IsKey P sk ∧
    (SecretKey.encryptC .debug sk ⟨P, 0, .poly, [3, 1, 16]⟩ (fun _ _ => 0) (fun i => i % 2 ^ 64)).val = .ok ct ∧
    (SecretKey.encryptC .debug sk ⟨P, 0, .poly, [3, 1, 16]⟩ (fun _ _ => 0) (fun i => i % 2 ^ 64)).work = ⟨9 * 12, 6 * 8⟩ ∧
    (sk.decryptC .release ⟨P, [p, p, p], 0⟩).val = .ok pt ∧ (sk.decryptC .release ⟨P, [p, p, p], 0⟩).work = ⟨6 * 12, 15 * 8⟩ ∧
    (RgswCt.encryptPolyC .debug sk p (fun _ _ _ => 0) (fun _ _ _ => 0) (fun _ i => i % 2 ^ 64) (fun _ i => i % 2 ^ 64)).val = .ok g ∧
    (RgswCt.encryptPolyC .debug sk p (fun _ _ _ => 0) (fun _ _ _ => 0) (fun _ i => i % 2 ^ 64) (fun _ i => i % 2 ^ 64)).work = ⟨45 * 12, 39 * 8⟩ ∧
    (GaliosKey.newC .debug sk sub 0 (fun _ _ _ => 0) (fun _ i => i % 2 ^ 64)).val = .ok gk ∧
    (GaliosKey.newC .debug sk sub 0 (fun _ _ _ => 0) (fun _ i => i % 2 ^ 64)).work = ⟨24 * 12, 18 * 8⟩ ∧
    (Evaluation.buildC .debug sk P (fun _ _ _ _ => 0) (fun _ _ i => i % 2 ^ 64) (fun _ _ _ => 0) (fun _ _ _ => 0) (fun _ i => i % 2 ^ 64)
      (fun _ i => i % 2 ^ 64)).val = .ok ev ∧
    (Evaluation.buildC .debug sk P (fun _ _ _ _ => 0) (fun _ _ i => i % 2 ^ 64) (fun _ _ _ => 0) (fun _ _ _ => 0) (fun _ i => i % 2 ^ 64)
      (fun _ i => i % 2 ^ 64)).work = ⟨120 * 12, 93 * 8⟩ ∧
    (Tests.queryCtsC .debug P sk [0, 0, 1, 0, 0, 1] (fun _ _ => 0) (fun i => i % 2 ^ 64) (fun _ _ _ => 0) (fun _ i => i % 2 ^ 64)).val = .ok qs ∧
    (Tests.queryCtsC .debug P sk [0, 0, 1, 0, 0, 1] (fun _ _ => 0) (fun i => i % 2 ^ 64) (fun _ _ _ => 0) (fun _ i => i % 2 ^ 64)).work = ⟨39 * 12, 24 * 8⟩ := by
  obtain ⟨P, h⟩ := Ex.exists_params
  obtain ⟨sk, -, hk, -⟩ := c30_generate h .release (by norm_num) (by norm_num) Ex.wordTape
  have hw : ∀ i : Nat, i % 2 ^ 64 < 2 ^ 64 := fun i => Nat.mod_lt _ (by norm_num)
  obtain ⟨p, hp⟩ := c33_exists_poly h (i := 0) (by decide) (msgRing 8 [4, 2])
  have hs := Shape.of_polyAt h hp
  obtain ⟨c, hc, -⟩ := Privacy.ctx0 h
  obtain ⟨ct, a1, a2⟩ := c128_encrypt h hk .debug (by norm_num) (by norm_num) (pt := ⟨P, 0, .poly, [3, 1, 16]⟩) rfl (show 0 < Ex.mods.length by decide) (by norm_num) (by simp)
    (Ex.tape0 Ex.mods_gt) hw
  obtain ⟨pt, b1, b2⟩ := c128_decrypt h hk .release (m := 3) (by norm_num) (ct := ⟨P, [p, p, p], 0⟩) ⟨rfl, rfl, rfl, by simpa using hs⟩
  obtain ⟨-, -, g, g1, g2⟩ := c128_keys h hk .debug (by norm_num) (by norm_num) hp (n := 3) (by decide) (a0 := fun _ _ _ => 0) (a1 := fun _ _ _ => 0)
    (fun _ => Ex.tape0 Ex.mods_gt) (fun _ => Ex.tape0 Ex.mods_gt) (fun _ => hw) (fun _ => hw)
  obtain ⟨sub, gk, -, k1, k2⟩ := c128_galois h hk .debug (by norm_num) (by norm_num) (by decide) (by norm_num) hc (n := 3) (by decide) (e := 5) (by decide)
    (a := fun _ _ _ => 0) (fun _ => Ex.tape0 Ex.mods_gt) (fun _ => hw)
  obtain ⟨ev, e1, e2⟩ := c128_build h hk .debug (by norm_num) (by norm_num) (by decide) (by norm_num) (a := fun _ _ _ _ => 0) (fun _ _ => Ex.tape0 Ex.mods_gt)
    (fun _ _ => hw) (a0 := fun _ _ _ => 0) (a1 := fun _ _ _ => 0) (fun _ => Ex.tape0 Ex.mods_gt) (fun _ => Ex.tape0 Ex.mods_gt) (fun _ => hw) (fun _ => hw)
  obtain ⟨qs, q1, -, q2⟩ := c128_query h hk .debug (by norm_num) (by norm_num) (v := [0, 0, 1, 0, 0, 1]) (by norm_num) (by norm_num) (by simp)
    (aq := fun _ _ => 0) (Ex.tape0 Ex.mods_gt) hw (a := fun _ _ _ => 0) (fun _ => Ex.tape0 Ex.mods_gt) (r := fun _ i => i % 2 ^ 64) (fun _ => hw)
  exact ⟨P, sk, ct, pt, p, g, sub, gk, ev, qs, h, hk, a1, a2.trans (show workOf 8 (3 * (Ex.mods.length - 0)) (2 * (Ex.mods.length - 0)) = _ by decide +kernel), b1,
    b2.trans (show workOf 8 (2 * (Ex.mods.length - 0)) ((2 * 3 - 1) * (Ex.mods.length - 0)) = _ by decide +kernel), g1, g2.trans (by decide +kernel),
    k1, k2.trans (by decide +kernel), e1, e2.trans (by decide +kernel), q1, q2.trans (by decide +kernel)⟩

end OnionPIR
